import Verif.Model.Denormalize
import Mathlib.Data.List.Forall2

/-! Specification for C19-C22: reading and denormalizing results -/

namespace Hiku

/-- the result keys of a query node, in order -/
def QNode.keys (q : QNode) : List String := q.fields.map QItem.resultKey

mutual
/-- no two items of a node have the same result key, at every depth -/
def UniqueKeys : QNode → Prop
  | .mk fs _ => (fs.map QItem.resultKey).Nodup ∧ UniqueKeysItems fs
def UniqueKeysItems : List QItem → Prop
  | [] => True
  | .field .. :: r => UniqueKeysItems r
  | .link _ q _ _ :: r => UniqueKeys q ∧ UniqueKeysItems r
end

/-- the result objects which a program can get hold of by reading keys, starting from one object -/
inductive Reaches (H : PyHash) (idx : Index) (r0 : Val) (q0 : QNode) : Val → QNode → Prop
  | start : Reaches H idx r0 q0 r0 q0
  | one {r q key r' q'} : Reaches H idx r0 q0 r q → proxyGet H idx r q key = .ok (.proxy r' q') →
      Reaches H idx r0 q0 r' q'
  | many {r q key rs r' q'} : Reaches H idx r0 q0 r q → proxyGet H idx r q key = .ok (.proxies rs q') →
      r' ∈ rs → Reaches H idx r0 q0 r' q'

/-! ### What denormalization means -/

section
variable (H : PyHash) (idx : Index) (g : Graph)

mutual
/-- `v` is the value `c` of a field with the given type, restricted to the selected keys -/
def TyShape : Ty → QItem → Val → Val → Prop
  | _, .field .., c, v => v = c
  | .sequence t, .link n q o a, c, v =>
      ∃ k cs vs, c = .seq k cs ∧ v = .list vs ∧ List.Forall₂ (TyShape t (.link n q o a)) cs vs
  | .optional t, .link n q o a, c, v =>
      (c = .none ∧ v = .none) ∨ (c ≠ .none ∧ TyShape t (.link n q o a) c v)
  | .record ts, .link _ q _ _, c, v =>
      ∃ k ckvs vs, c = .map k ckvs ∧ v = .dict ((q.fields.map fun f => Val.str f.name).zip vs) ∧
        List.Forall₂ (fun f v => ∃ c', dget ckvs (.str f.name) = some c' ∧ TyFieldShape ts f c' v) q.fields vs
  | _, .link .., _, _ => False
def TyFieldShape : List (String × Ty) → QItem → Val → Val → Prop
  | [], _, _, _ => False
  | (n, t) :: r, f, c, v => (n = f.name ∧ TyShape t f c v) ∨ (n ≠ f.name ∧ TyFieldShape r f c v)
end

mutual
/-- `v` is the denormalized object `ident` of the graph node `gn` for the query node: a dict with
exactly the result keys, in order. -/
def NodeShape (gn : GNode) (name : String) (ident : Val) : QNode → Val → Prop
  | .mk fs _, v => ∃ vs, v = .dict ((fs.map fun f => Val.str f.resultKey).zip vs) ∧
      ItemsShape gn name ident fs vs
def ItemsShape (gn : GNode) (name : String) (ident : Val) : List QItem → List Val → Prop
  | [], vs => vs = []
  | i :: r, vs => ∃ v vs', vs = v :: vs' ∧ ItemShape gn name ident i v ∧ ItemsShape gn name ident r vs'
/-- a field: the stored value.  A link: the denormalized linked object, the list of the denormalized
objects in the stored order for sequence links, None or the object for optional links. -/
def ItemShape (gn : GNode) (name : String) (ident : Val) : QItem → Val → Prop
  | .field n o _, v => dget idx (name, ident, indexKey H n o) = some v
  | .link n q o a, v => ∃ c, dget idx (name, ident, indexKey H n o) = some c ∧
      ((∃ gl t, gn.get n = some (.link gl) ∧ g.node gl.node = some t ∧
        match gl.typeEnum with
        | .one => ∃ i, c = .ref gl.node i ∧ NodeShape t gl.node i q v
        | .maybe => (c = .none ∧ v = .none) ∨ ∃ i, c = .ref gl.node i ∧ NodeShape t gl.node i q v
        | .many => ∃ (ids vs : List Val), c = .list (ids.map (.ref gl.node)) ∧ v = .list vs ∧
            List.Forall₂ (fun i v => NodeShape t gl.node i q v) ids vs) ∨
       (∃ gf ty t, gn.get n = some (.field gf) ∧ gf.ty = some ty ∧ getType g.dataTypes ty = some t ∧
        TyShape t (.link n q o a) c v))
end

mutual
/-- the value has everything which the selection asks for -/
def Fits : Ty → QItem → Val → Prop
  | _, .field .., _ => True
  | .sequence t, .link n q o a, c => ∃ k cs, c = .seq k cs ∧ ∀ x ∈ cs, Fits t (.link n q o a) x
  | .optional t, .link n q o a, c => c = .none ∨ Fits t (.link n q o a) c
  | .record ts, .link _ q _ _, c => ∃ k ckvs, c = .map k ckvs ∧ (q.fields.map QItem.name).Nodup ∧
      ∀ f ∈ q.fields, ∃ c', dget ckvs (.str f.name) = some c' ∧ FitsField ts f c'
  | _, .link .., _ => False
def FitsField : List (String × Ty) → QItem → Val → Prop
  | [], _, _ => False
  | (n, t) :: r, f, c => (n = f.name ∧ Fits t f c) ∨ (n ≠ f.name ∧ FitsField r f c)
end

mutual
/-- Everything requested is stored, links hold references as their types say. -/
def Stored (gn : GNode) (name : String) (ident : Val) : QNode → Prop
  | .mk fs _ => StoredItems gn name ident fs
def StoredItems (gn : GNode) (name : String) (ident : Val) : List QItem → Prop
  | [] => True
  | i :: r => StoredItem gn name ident i ∧ StoredItems gn name ident r
def StoredItem (gn : GNode) (name : String) (ident : Val) : QItem → Prop
  | .field n o _ => (gn.get n).isSome ∧ ∃ c, dget idx (name, ident, indexKey H n o) = some c
  | .link n q o a => ∃ c, dget idx (name, ident, indexKey H n o) = some c ∧
      ((∃ gl t, gn.get n = some (.link gl) ∧ g.node gl.node = some t ∧
        match gl.typeEnum with
        | .one => ∃ i, c = .ref gl.node i ∧ Stored t gl.node i q
        | .maybe => c = .none ∨ ∃ i, c = .ref gl.node i ∧ Stored t gl.node i q
        | .many => ∃ ids : List Val, c = .list (ids.map (.ref gl.node)) ∧ ∀ i ∈ ids, Stored t gl.node i q) ∨
       (∃ gf ty t, gn.get n = some (.field gf) ∧ gf.ty = some ty ∧ getType g.dataTypes ty = some t ∧
        wrapCell (.link n q o a) c = .raw c ∧ Fits t (.link n q o a) c))
end

end

mutual
/-- selections are made on links only, all names exist -/
def LinksOnly (g : Graph) (gn : GNode) : QNode → Prop
  | .mk fs _ => LinksOnlyItems g gn fs
def LinksOnlyItems (g : Graph) (gn : GNode) : List QItem → Prop
  | [] => True
  | .field n _ _ :: r => (gn.get n).isSome ∧ LinksOnlyItems g gn r
  | .link n q _ _ :: r =>
      (∃ gl t, gn.get n = some (.link gl) ∧ g.node gl.node = some t ∧ LinksOnly g t q) ∧
      LinksOnlyItems g gn r
end

/-! ### `__typename` -/

mutual
/-- `v'` is `v` with the type names added: the keys are the result keys of the query, in order;
`__typename` is the name of the enclosing type, everything else is as in `v`. -/
def WithTypename (types : List (String × Ty)) (tn : String) (t : Ty) : QNode → Val → Val → Prop
  | .mk fs _, v, v' => ∃ kvs vs', v = .dict kvs ∧
      v' = .dict ((fs.map fun f => Val.str f.resultKey).zip vs') ∧ WithTypenameItems types tn t fs kvs vs'
def WithTypenameItems (types : List (String × Ty)) (tn : String) (t : Ty) :
    List QItem → List (Val × Val) → List Val → Prop
  | [], _, vs' => vs' = []
  | i :: r, kvs, vs' => ∃ v' rest, vs' = v' :: rest ∧ WithTypenameItems types tn t r kvs rest ∧
      if i.name = TYPENAME ∧ i.isLink = false then v' = .str tn
      else ∃ v, dget kvs (.str i.resultKey) = some v ∧ WithTypenameItem types t i v v'
def WithTypenameItem (types : List (String × Ty)) (t : Ty) : QItem → Val → Val → Prop
  | .field .., v, v' => v' = v
  | .link n q _ _, v, v' => ∃ fts ty, t = .record fts ∧ dget fts n = some ty ∧
      match ty with
      | .ref name => ∃ t', dget types name = some t' ∧ WithTypename types name t' q v v'
      | .optional (.ref name) => (v = .none ∧ v' = .none) ∨
          ∃ t', dget types name = some t' ∧ WithTypename types name t' q v v'
      | .sequence (.ref name) => ∃ t' vs vs', dget types name = some t' ∧ v = .list vs ∧ v' = .list vs' ∧
          List.Forall₂ (WithTypename types name t' q) vs vs'
      | _ => False
end

end Hiku

namespace Hiku

/-! ### Selections on which both denormalizers are defined -/

mutual
/-- selections inside of a record: no aliases, names exist, nested selections are on lists of records and
optional records -/
def RecordSel (ts : List (String × Ty)) : QNode → Prop
  | .mk fs _ => RecordSelItems ts fs
def RecordSelItems (ts : List (String × Ty)) : List QItem → Prop
  | [] => True
  | .field n _ a :: r => (a = none ∧ ∃ ty, dget ts n = some ty) ∧ RecordSelItems ts r
  | .link n q _ a :: r =>
      (a = none ∧ ∃ ts', (dget ts n = some (.sequence (.record ts')) ∨ dget ts n = some (.optional (.record ts'))) ∧
        RecordSel ts' q) ∧ RecordSelItems ts r
end

mutual
/-- selections on links, and on fields which hold records: a field of a named record type of the graph,
a list of records or an optional record -/
def PlainSel (g : Graph) (gn : GNode) : QNode → Prop
  | .mk fs _ => PlainSelItems g gn fs
def PlainSelItems (g : Graph) (gn : GNode) : List QItem → Prop
  | [] => True
  | .field n _ _ :: r => (gn.get n).isSome ∧ PlainSelItems g gn r
  | .link n q _ _ :: r =>
      ((∃ gl t, gn.get n = some (.link gl) ∧ g.node gl.node = some t ∧ PlainSel g t q) ∨
       (∃ gf ty ts, gn.get n = some (.field gf) ∧ gf.ty = some ty ∧ RecordSel ts q ∧
         (ty = .sequence (.record ts) ∨ ty = .optional (.record ts) ∨
          ∃ nm, ty = .ref nm ∧ dget g.dataTypes nm = some (.record ts) ∧ g.node nm = none ∧ nm ≠ rootName))) ∧
      PlainSelItems g gn r
end

end Hiku

namespace Hiku

mutual
/-- selections are made on items whose types refer to named record types (links always do), and
`__typename` has no selection -/
def NamedSel (types : List (String × Ty)) (ts : List (String × Ty)) : QNode → Prop
  | .mk fs _ => NamedSelItems types ts fs
def NamedSelItems (types : List (String × Ty)) (ts : List (String × Ty)) : List QItem → Prop
  | [] => True
  | .field .. :: r => NamedSelItems types ts r
  | .link n q _ _ :: r =>
      (n ≠ TYPENAME ∧ ∃ ty nm ts', dget ts n = some ty ∧
        (ty = .ref nm ∨ ty = .sequence (.ref nm) ∨ ty = .optional (.ref nm)) ∧
        dget types nm = some (.record ts') ∧ NamedSel types ts' q) ∧ NamedSelItems types ts r
end

end Hiku
