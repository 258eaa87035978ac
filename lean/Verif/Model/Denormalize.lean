import Verif.Model.Index
import Verif.Model.Graph

/-! # hiku/result.py: `Proxy` and `denormalize`; hiku/denormalize/base.py and graphql.py -/

namespace Hiku

/-- The values which the denormalizers handle: plain values, a `Proxy` (result.py:58-64; `ref` is the
`__ref__`, a `Reference` unless a list of references contained something else) and a list of proxies
with the same query node. -/
inductive PObj where
  | raw (v : Val)
  | proxy (ref : Val) (q : QNode)
  | proxies (refs : List Val) (q : QNode)

/-- the end of `Proxy.__getitem__`, result.py:85-96 -/
def wrapCell : QItem → Val → PObj
  | .link _ q _ _, .ref n i => .proxy (.ref n i) q
  | .link _ q _ _, .seq .list (.ref n i :: r) => .proxies (.ref n i :: r) q
  | _, v => .raw v

/-- `Proxy.__getitem__`, result.py:66-96: KeyError if the key was not requested, AssertionError if the
object or the field is missing in the index -/
def proxyGet (H : PyHash) (idx : Index) (ref : Val) (q : QNode) (key : String) : Except Err PObj :=
  match dget q.resultMap key with
  | none => .error .keyError
  | some f =>
      match ref with
      | .ref n i =>
          match dget idx (n, i, f.indexKey H) with
          | none => .error .assertionError
          | some v => .ok (wrapCell f v)
      | _ => .error .attributeError

/-- Python's `obj[key]` with a string key, for a proxy, a dict or anything else (strings and sequences
raise TypeError) -/
def pget (H : PyHash) (idx : Index) (p : PObj) (key : String) : Except Err PObj :=
  match p with
  | .proxy ref q => proxyGet H idx ref q key
  | .proxies _ _ => .error .typeError
  | .raw (.map _ kvs) =>
      match dget kvs (.str key) with
      | none => .error .keyError
      | some v => .ok (.raw v)
  | .raw _ => .error .typeError

/-- `for v in obj`: iteration over a proxy calls `obj[0]`, which is a KeyError -/
def piter : PObj → Except Err (List PObj)
  | .proxies refs q => .ok (refs.map fun r => .proxy r q)
  | .proxy _ _ => .error .keyError
  | .raw (.seq _ xs) => .ok (xs.map .raw)
  | .raw (.map _ kvs) => .ok (kvs.map fun kv => .raw kv.1)
  | .raw (.atom (.str s)) | .raw (.atom (.kw s)) | .raw (.atom (.sym s)) =>
      .ok (s.toList.map fun c => .raw (.str (String.singleton c)))
  | .raw _ => .error .typeError

/-- a plain value put into the output.  A proxy gets there only if the processed query is not the query
of the result; this is not represented (AssertionError). -/
def PObj.toVal : PObj → Except Err Val
  | .raw v => .ok v
  | _ => .error .assertionError

/-- `result is None` -/
def PObj.isNone : PObj → Bool
  | .raw .none => true
  | _ => false

section
variable (H : PyHash) (idx : Index)

mutual
/-- `_denormalize_type`, result.py:105-123 -/
def denormTy : Ty → PObj → QItem → Except Err Val
  | _, v, .field .. => v.toVal
  | .sequence t, v, .link n q o a => do
      let l ← piter v
      let r ← l.mapM fun x => denormTy t x (.link n q o a)
      .ok (.list r)
  | .optional t, v, .link n q o a => if v.isNone then .ok .none else denormTy t v (.link n q o a)
  | .record fs, v, .link _ q _ _ => do
      let kvs ← q.fields.mapM fun f => do
        let r ← denormTyField fs v f
        pure (Val.str f.name, r)
      .ok (.dict (dmk kvs))
  | _, _, .link .. => .error .assertionError
/-- `_denormalize_type(field_types[f.name], result[f.name], f)`, result.py:119-120 -/
def denormTyField : List (String × Ty) → PObj → QItem → Except Err Val
  | [], _, _ => .error .keyError
  | (n, t) :: r, v, f =>
      if n = f.name then do
        let x ← pget H idx v f.name
        denormTy t x f
      else denormTyField r v f
end

mutual
/-- `_denormalize` for a `Node`, result.py:126-132 -/
def denormNode (g : Graph) (gn : GNode) (r : PObj) : QNode → Except Err Val
  | .mk fs _ => do
      let kvs ← denormItems g gn r fs
      .ok (.dict (dmk kvs))
def denormItems (g : Graph) (gn : GNode) (r : PObj) : List QItem → Except Err (List (Val × Val))
  | [] => .ok []
  | i :: rest =>
      match gn.get i.name with
      | none => .error .keyError
      | some gi => do
          let x ← pget H idx r i.resultKey
          let v ← denormItem g gi x i
          let kvs ← denormItems g gn r rest
          .ok ((.str i.resultKey, v) :: kvs)
/-- `_denormalize` for a `Field` and a `Link`, result.py:134-153 -/
def denormItem (g : Graph) (gi : GItem) (x : PObj) : QItem → Except Err Val
  | .field .. => x.toVal
  | .link n q o a =>
      match gi with
      | .field gf =>
          match gf.ty with
          | none => .error .assertionError
          | some ty =>
              match getType g.dataTypes ty with
              | none => .error .keyError
              | some t => denormTy H idx t x (.link n q o a)
      | .link gl =>
          match g.node gl.node with
          | none => .error .keyError
          | some t =>
              match gl.typeEnum with
              | .many => do
                  let l ← piter x
                  let r ← l.mapM fun y => denormNode g t y q
                  .ok (.list r)
              | .maybe => if x.isNone then .ok .none else denormNode g t x q
              | .one => denormNode g t x q
end

/-- `denormalize(graph, result)`, result.py:156-181; `q` is `result.__node__` -/
def denormalize (g : Graph) (q : QNode) : Except Err Val :=
  denormNode H idx g g.root (.proxy (.ref rootName rootIdent) q) q

/-- `self._type[-1].__field_types__`: an attribute of record types only -/
def recordTypes : Ty → Except Err (List (String × Ty))
  | .record fs => .ok fs
  | _ => .error .attributeError

/-- the name pushed by `DenormalizeGraphQL.visit_link`, denormalize/graphql.py:21-35 -/
def typeRefName : Ty → Except Err String
  | .ref n => .ok n
  | .sequence (.ref n) => .ok n
  | .optional (.ref n) => .ok n
  | _ => .error .assertionError

/-- `DenormalizeGraphQL.visit_link` before the call of the base class, denormalize/graphql.py:21-35; nothing for
`Denormalize` itself (`tn = none`) -/
def pushTypeName (tn : Option String) (ty : Ty) : Except Err (Option String) :=
  match tn with
  | none => .ok none
  | some _ => do
      let n ← typeRefName ty
      .ok (some n)

def TYPENAME : String := "__typename"

mutual
/-- `Denormalize`, denormalize/base.py:7-58, and its subclass `DenormalizeGraphQL`, denormalize/graphql.py:9-35, as one
recursive function: `tn` is `none` for the base class and the top of `_type_name` for the subclass;
`t`, `data`, `acc` are the tops of `_type`, `_data`, `_res`. -/
def dnNode (types : List (String × Ty)) (tn : Option String) (t : Ty) (data : PObj)
    (acc : List (Val × Val)) : QNode → Except Err (List (Val × Val))
  | .mk fs _ => dnItems types tn t data acc fs
def dnItems (types : List (String × Ty)) (tn : Option String) (t : Ty) (data : PObj)
    (acc : List (Val × Val)) : List QItem → Except Err (List (Val × Val))
  | [] => .ok acc
  | i :: r => do
      let v ← dnItem types tn t data i
      dnItems types tn t data (dset acc (.str i.resultKey) v) r
/-- `visit_field` (base.py:22-23, graphql.py:15-19) and `visit_link` (base.py:25-58, graphql.py:21-35):
the value put under the result key -/
def dnItem (types : List (String × Ty)) (tn : Option String) (t : Ty) (data : PObj) :
    QItem → Except Err Val
  | .field n o a =>
      match tn with
      | some name =>
          if n = TYPENAME then .ok (.str name)
          else do
            let x ← pget H idx data (QItem.field n o a).resultKey
            x.toVal
      | none => do
          let x ← pget H idx data (QItem.field n o a).resultKey
          x.toVal
  | .link n q o a => do
      let fts ← recordTypes t
      match dget fts n with
      | none => .error .keyError
      | some ty => do
          let tn' ← pushTypeName tn ty
          match ty with
          | .ref name =>
              match getType types (.ref name) with
              | none => .error .keyError
              | some t' => do
                  let x ← pget H idx data (QItem.link n q o a).resultKey
                  let d ← dnNode types tn' t' x [] q
                  .ok (.dict d)
          | .sequence it =>
              match getType types it with
              | none => .error .keyError
              | some t' => do
                  let x ← pget H idx data (QItem.link n q o a).resultKey
                  let l ← piter x
                  let r ← l.mapM fun y => do
                    let d ← dnNode types tn' t' y [] q
                    pure (Val.dict d)
                  .ok (.list r)
          | .optional it => do
              let x ← pget H idx data (QItem.link n q o a).resultKey
              if x.isNone then .ok .none
              else
                match getType types it with
                | none => .error .keyError
                | some t' => do
                    let d ← dnNode types tn' t' x [] q
                    .ok (.dict d)
          | _ => .error .assertionError
end

/-- `Denormalize(graph, result).process(query)`, base.py:16-20 (`tn = none`) and
`DenormalizeGraphQL(graph, result, name).process(query)` (`tn = some name`); `rq` is the query of the
result.  `self._types['__root__']` always exists (graph.py:530). -/
def denormalizeQ (g : Graph) (tn : Option String) (rq q : QNode) : Except Err Val :=
  match dget g.types rootName with
  | none => .error .keyError
  | some t => do
      let d ← dnNode H idx g.types tn t (.proxy (.ref rootName rootIdent) rq) [] q
      .ok (.dict d)

end

mutual
/-- `_StripQuery`, endpoint/graphql.py:26-30 with `QueryTransformer`, query.py:223-236 -/
def stripNode : QNode → QNode
  | .mk fs ord => .mk (stripItems fs) ord
def stripItems : List QItem → List QItem
  | [] => []
  | i :: r => if i.name ≠ TYPENAME then stripItem i :: stripItems r else stripItems r
def stripItem : QItem → QItem
  | .field n o a => .field n o a
  | .link n q o a => .link n (stripNode q) o a
end

end Hiku
