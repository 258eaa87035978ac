import Verif.Model.Query

/-! # hiku/readers/graphql.py

Documents are modelled as the AST which `graphql.language.parser.parse` returns; the parser itself is a
dependency and is not modelled.  Positions and type conditions are dropped (the reader ignores them). -/

namespace Hiku

/-- the truth value of a Python object (`if x:`) -/
def Val.truthy : Val → Bool
  | .none => false
  | .bool b => b
  | .int i => i ≠ 0
  | .float s => s ≠ "0.0" && s ≠ "-0.0"
  | .str s | .kw s | .sym s => s ≠ ""
  | .seq _ xs => !xs.isEmpty
  | .map _ kvs => !kvs.isEmpty
  | _ => true

/-- values in documents.  Numbers carry their value (`int(obj.value)`, `float(obj.value)` are done). -/
inductive AVal where
  | null
  | int (i : Int)
  | float (tok : String)
  | str (s : String)
  | bool (b : Bool)
  | enum (s : String)
  | list (xs : List AVal)
  | obj (kvs : List (String × AVal))
  | var (name : String)

structure Directive where
  name : String
  args : List (String × AVal)

/-- selections: fields without and with a selection set, fragment spreads, inline fragments -/
inductive Sel where
  | leaf (name : String) (alias_ : Option String) (args : List (String × AVal)) (dirs : List Directive)
  | obj (name : String) (alias_ : Option String) (args : List (String × AVal)) (dirs : List Directive) (sels : List Sel)
  | spread (name : String) (dirs : List Directive)
  | inline (dirs : List Directive) (sels : List Sel)

def Sel.dirs : Sel → List Directive
  | .leaf _ _ _ d | .obj _ _ _ d _ | .spread _ d | .inline d _ => d

inductive OpKind where
  | query | mutation | subscription
  deriving DecidableEq, Repr

structure VarDef where
  name : String
  nonNull : Bool
  dflt : Option AVal

structure OpDef where
  kind : OpKind
  name : Option String
  vars : List VarDef
  sels : List Sel

/-- definitions of a document; `other` are type system definitions -/
inductive Defn where
  | op (o : OpDef)
  | frag (name : String) (sels : List Sel)
  | other

/-! ## Choice of the operation -/

/-- `OperationGetter.visit`, readers/graphql.py:18-20, 67-75: the operations by name.  A definition of another
kind has no visit method (AttributeError). -/
def collectOps (ops : List (Option String × OpDef)) : List Defn → Except Err (List (Option String × OpDef))
  | [] => .ok ops
  | .op o :: r => if dhas ops o.name then .error .typeError else collectOps (dset ops o.name o) r
  | .frag .. :: r => collectOps ops r
  | .other :: _ => .error .attributeError

/-- `OperationGetter.get`, readers/graphql.py:48-65 -/
def getOp (doc : List Defn) (name : Option String) : Except Err OpDef := do
  let ops ← collectOps [] doc
  match ops with
  | [] => .error .typeError
  | (_, o) :: r =>
      match name with
      | none => if r.isEmpty then .ok o else .error .typeError
      | some n =>
          match dget ops (some n) with
          | some o => .ok o
          | none => .error .valueError

/-- `FragmentsCollector`, readers/graphql.py:78-90 -/
def collectFrags (frags : List (String × List Sel)) : List Defn → Except Err (List (String × List Sel))
  | [] => .ok frags
  | .op _ :: r => collectFrags frags r
  | .frag n s :: r => if dhas frags n then .error .typeError else collectFrags (dset frags n s) r
  | .other :: _ => .error .attributeError

/-! ## Values and directives -/

mutual
/-- `visit_variable` … `visit_object_value`, readers/graphql.py:106-111, 171-196 -/
def readVal (vars : List (String × Val)) : AVal → Except Err Val
  | .null => .ok .none
  | .int i => .ok (.int i)
  | .float t => .ok (.float t)
  | .str s => .ok (.str s)
  | .bool b => .ok (.bool b)
  | .enum s => .ok (.str s)
  | .list xs => do
      let vs ← readVals vars xs
      .ok (.list vs)
  | .obj kvs => do
      let vs ← readArgs vars kvs
      .ok (.dict (dmk (vs.map fun kv => (.str kv.1, kv.2))))
  | .var n =>
      match dget vars n with
      | some v => .ok v
      | none => .error .typeError
def readVals (vars : List (String × Val)) : List AVal → Except Err (List Val)
  | [] => .ok []
  | a :: r => do
      let v ← readVal vars a
      let vs ← readVals vars r
      .ok (v :: vs)
def readArgs (vars : List (String × Val)) : List (String × AVal) → Except Err (List (String × Val))
  | [] => .ok []
  | (k, a) :: r => do
      let v ← readVal vars a
      let vs ← readArgs vars r
      .ok ((k, v) :: vs)
end

/-- the condition of a directive -/
def readCond (vars : List (String × Val)) (d : Directive) : Except Err Bool :=
  match d.args with
  | [(n, a)] =>
      if n = "if" then do
        let v ← readVal vars a
        .ok v.truthy
      else .error .typeError
  | _ => .error .typeError

/-- `_should_skip`, readers/graphql.py:118-148: the first `@skip`; without one, the first `@include` -/
def shouldSkip (vars : List (String × Val)) (dirs : List Directive) : Except Err Bool :=
  match dirs.find? fun d => d.name = "skip" with
  | some d => readCond vars d
  | none =>
      match dirs.find? fun d => d.name = "include" with
      | some d => do
          let c ← readCond vars d
          .ok (!c)
      | none => .ok false

/-- `options`, readers/graphql.py:154-158 -/
def readOptions (vars : List (String × Val)) (args : List (String × AVal)) : Except Err Opts :=
  if args.isEmpty then .ok none
  else do
    let kvs ← readArgs vars args
    .ok (some (dmk kvs))

/-! ## Selections -/

/-- `FragmentsTransformer.cache` -/
abbrev FragCache := List (String × List QItem)

mutual
/-- `visit_field`, `visit_fragment_spread`, `visit_inline_fragment`, readers/graphql.py:150-169, 198-208.  `frag` is
`transform_fragment`; it may extend the cache. -/
def readSel (vars : List (String × Val)) (frag : String → FragCache → Except Err (List QItem × FragCache))
    (cache : FragCache) : Sel → Except Err (List QItem × FragCache)
  | .leaf n a args dirs => do
      let skip ← shouldSkip vars dirs
      if skip then .ok ([], cache)
      else do
        let o ← readOptions vars args
        .ok ([.field n o a], cache)
  | .obj n a args dirs sels => do
      let skip ← shouldSkip vars dirs
      if skip then .ok ([], cache)
      else do
        let o ← readOptions vars args
        let r ← readSels vars frag cache sels
        .ok ([.link n (.mk r.1 false) o a], r.2)
  | .spread n dirs => do
      let skip ← shouldSkip vars dirs
      if skip then .ok ([], cache) else frag n cache
  | .inline dirs sels => do
      let skip ← shouldSkip vars dirs
      if skip then .ok ([], cache) else readSels vars frag cache sels
/-- `visit_selection_set`, readers/graphql.py:113-116 -/
def readSels (vars : List (String × Val)) (frag : String → FragCache → Except Err (List QItem × FragCache))
    (cache : FragCache) : List Sel → Except Err (List QItem × FragCache)
  | [] => .ok ([], cache)
  | s :: r => do
      let x ← readSel vars frag cache s
      let y ← readSels vars frag x.2 r
      .ok (x.1 ++ y.1, y.2)
end

/-- `FragmentsTransformer.transform_fragment` and `visit_fragment_definition`, readers/graphql.py:224-243.
`pending` is `pending_fragments`: the fragments being read now, which is the stack of the recursion.  At most
`fuel` fragments are entered inside each other (`c33_terminates`: their number is enough). -/
def readFrag (vars : List (String × Val)) (frags : List (String × List Sel)) :
    Nat → List String → String → FragCache → Except Err (List QItem × FragCache)
  | fuel, pending, name, cache =>
      match dget frags name with
      | none => .error .keyError
      | some sels =>
          match dget cache name with
          | some items => .ok (items, cache)
          | none =>
              if name ∈ pending then .error .typeError
              else
                match fuel with
                | 0 => .error .recursionError
                | fuel + 1 => do
                    let r ← readSels vars (readFrag vars frags fuel (name :: pending)) cache sels
                    .ok (r.1, dset r.2 name r.1)

/-! ## Operations -/

/-- the value of a variable, readers/graphql.py:269-278.  A default value contains no variables (the parser
refuses them); `query_variables` is `None` there, so a lookup would be a TypeError. -/
def readVar (given : List (String × Val)) (d : VarDef) : Except Err Val :=
  match dget given d.name with
  | some v => .ok v
  | none =>
      match d.dflt with
      | some a => readVal [] a
      | none => if d.nonNull then .error .typeError else .ok .none

/-- `query_variables`, readers/graphql.py:264-279 -/
def readVars (given : List (String × Val)) : List (String × Val) → List VarDef → Except Err (List (String × Val))
  | acc, [] => .ok acc
  | acc, d :: r => do
      let v ← readVar given d
      readVars given (dset acc d.name v) r

/-- `GraphQLTransformer.visit_operation_definition`, readers/graphql.py:263-294, with `fuel` for the fragments -/
def readOpF (H : PyHash) (fuel : Nat) (doc : List Defn) (op : OpDef) (given : List (String × Val)) : Except Err QNode := do
  let vars ← readVars given [] op.vars
  let frags ← collectFrags [] doc
  let r ← readSels vars (readFrag vars frags fuel []) [] op.sels
  .ok (merge H [.mk r.1 (op.kind = .mutation)])

/-- `GraphQLTransformer.transform(document, op, variables)` -/
def readOp (H : PyHash) (doc : List Defn) (op : OpDef) (given : List (String × Val)) : Except Err QNode :=
  readOpF H doc.length doc op given

/-- `read`, readers/graphql.py:297-319 -/
def readGraphql (H : PyHash) (doc : List Defn) (given : List (String × Val)) (name : Option String) : Except Err QNode := do
  let op ← getOp doc name
  if op.kind = .query then readOp H doc op given else .error .typeError

/-- `Operation`, readers/graphql.py:332-340 -/
structure Operation where
  kind : OpKind
  query : QNode
  name : Option String

/-- `read_operation`, readers/graphql.py:343-366.  All kinds of operations are members of `OperationType`. -/
def readOperation (H : PyHash) (doc : List Defn) (given : List (String × Val)) (name : Option String) :
    Except Err Operation := do
  let op ← getOp doc name
  let query ← readOp H doc op given
  .ok { kind := op.kind, query := query, name := op.name }

end Hiku
