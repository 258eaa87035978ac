import Verif.Model.Graph

/-! # hiku/validate/query.py and hiku/validate/graph.py -/

namespace Hiku

/-- `for x in xs: f(x)` -/
def eachM {ε α : Type} (f : α → Except ε Unit) : List α → Except ε Unit
  | [] => .ok ()
  | x :: r => do f x; eachM f r

/-! ## Option types -/

/-- `_OptionError` (validate/query.py:79-91, reported by `_ValidateOptions`) or another exception, which
propagates; messages are dropped -/
inductive OptErr where
  | invalid
  | raised (e : Err)
  deriving DecidableEq, Repr

mutual
/-- `_OptionTypeValidator`, validate/query.py:94-174.  `ref` is the visit of the type behind a `TypeRef`
(line 174).  `Val.asSeq` is `isinstance(value, Sequence)`. -/
def optTy (types : List (String × Ty)) (ref : Ty → Val → Except OptErr Unit) : Ty → Val → Except OptErr Unit
  | .any, _ => .ok ()
  | .boolean, v => match v with
      | .bool _ => .ok ()
      | _ => .error .invalid
  | .string, v => match v with
      | .str _ | .kw _ | .sym _ => .ok ()
      | _ => .error .invalid
  | .integer, v => match v with
      | .int _ | .bool _ => .ok ()
      | _ => .error .invalid
  | .float, v => match v with
      | .float _ => .ok ()
      | _ => .error .invalid
  | .optional t, v => if v = .none then .ok () else optTy types ref t v
  | .sequence t, v => match v.asSeq with
      | none => .error .invalid
      | some xs => eachM (optTy types ref t) xs
  | .mapping k t, v => match v with
      | .map _ kvs => eachM (fun kv => do
          optTy types ref k kv.1
          optTy types ref t kv.2) kvs
      | _ => .error .invalid
  | .record fs, v => match v with
      | .map _ kvs =>
          if kvs.all fun kv => fs.any fun f => kv.1 = .str f.1 then
            if fs.all fun f => dhas kvs (.str f.1) then optFields types ref fs kvs
            else .error .invalid
          else .error .invalid
      | _ => .error .invalid
  | .callable _, _ => .error (.raised .attributeError)
  | .ref n, v => match dget types n with
      | none => .error (.raised .assertionError)
      | some t => ref t v
/-- validate/query.py:168-170 -/
def optFields (types : List (String × Ty)) (ref : Ty → Val → Except OptErr Unit) :
    List (String × Ty) → List (Val × Val) → Except OptErr Unit
  | [], _ => .ok ()
  | (n, t) :: r, kvs => match dget kvs (.str n) with
      | none => .error (.raised .keyError)
      | some v => do
          optTy types ref t v
          optFields types ref r kvs
end

/-- `_OptionTypeValidator(types, value).visit(type)` where at most `lim` named types are entered inside
each other; one more is Python's RecursionError (named types may be recursive). -/
def optCheck (types : List (String × Ty)) : Nat → Ty → Val → Except OptErr Unit
  | 0 => optTy types fun _ _ => .error (.raised .recursionError)
  | lim + 1 => optTy types (optCheck types lim)

/-! ## Record types -/

/-- `_AssumeRecord`, validate/query.py:14-51; `ref` visits the type behind a `TypeRef` -/
def assumeTy (types : List (String × Ty)) (ref : Bool → Ty → Except Err (Option (List (String × Ty))))
    (nested : Bool) : Ty → Except Err (Option (List (String × Ty)))
  | .optional t => if nested then .ok none else assumeTy types ref true t
  | .sequence t => if nested then .ok none else assumeTy types ref true t
  | .record fs => .ok (some fs)
  | .ref n => match dget types n with
      | none => .error .keyError
      | some t => ref nested t
  | _ => .ok none

def assumeLim (types : List (String × Ty)) : Nat → Bool → Ty → Except Err (Option (List (String × Ty)))
  | 0 => assumeTy types fun _ _ => .error .recursionError
  | lim + 1 => assumeTy types (assumeLim types lim)

/-- `_AssumeRecord(data_types).visit(type)`: the fields of the record behind the type, at most one
Optional or Sequence deep; `None` is not a record -/
def assumeRecord (types : List (String × Ty)) (lim : Nat) : Option Ty → Except Err (Option (List (String × Ty)))
  | none => .ok none
  | some t => assumeLim types lim false t

/-! ## Queries -/

/-- the reported errors, without their wording -/
inductive QErr where
  | linkAsField (node name : String)
  | unknownOptions (node name : String) (options : List String)
  | missingOption (node name option : String)
  | invalidOption (node name option : String)
  | unknownRecordField (name : String)
  | optionsNotExpected
  | recordAsField (name : String)
  | notRecord (name : String)
  | unknownField (node name : String)
  | unknownLink (node name : String)
  | fieldAsNode (node name : String)
  | distinctFields (node key : String)
  deriving DecidableEq, Repr

/-- `node.name or 'root'` -/
def nodeLabel (gn : GNode) : String :=
  match gn.name with
  | none => "root"
  | some s => if s = "" then "root" else s

/-- `_ValidateOptions.visit_option`, validate/query.py:196-209 -/
def valOption (types : List (String × Ty)) (lim : Nat) (given : List (String × Val)) (node name : String)
    (op : GOption) : Except Err (List QErr) :=
  let value := (dget given op.name).getD op.dflt
  if value = .nothing then .ok [.missingOption node name op.name]
  else
    match op.ty with
    | none => .ok []
    | some t =>
        match optCheck types lim t value with
        | .ok () => .ok []
        | .error .invalid => .ok [.invalidOption node name op.name]
        | .error (.raised e) => .error e

/-- `_ValidateOptions.visit_link`/`visit_field`, validate/query.py:186-194.  The unknown options are
reported in the order of the query (Python: the order of a set). -/
def valOptions (types : List (String × Ty)) (lim : Nat) (declared : List GOption) (o : Opts) (node name : String) :
    Except Err (List QErr) := do
  let errs ← declared.mapM (valOption types lim (o.getD []) node name)
  let unknown := ((o.getD []).map (·.1)).filter fun k => !(declared.any fun op => op.name = k)
  .ok (errs.flatten ++ if unknown.isEmpty then [] else [.unknownOptions node name unknown])

mutual
/-- `_RecordFieldsValidator`, validate/query.py:218-247 -/
def valRecItem (types : List (String × Ty)) (lim : Nat) (ts : List (String × Ty)) :
    QItem → Except Err (List QErr)
  | .field n o _ =>
      match dget ts n with
      | none => .ok [.unknownRecordField n]
      | some t =>
          if o ≠ none then .ok [.optionsNotExpected]
          else do
            let r ← assumeRecord types lim (some t)
            match r with
            | some (_ :: _) => .ok [.recordAsField n]
            | _ => .ok []
  | .link n q _ _ =>
      match dget ts n with
      | none => .error .keyError
      | some t => do
          let r ← assumeRecord types lim (some t)
          match r with
          | some ts' => valRecNode types lim ts' q
          | none => .ok [.notRecord n]
def valRecNode (types : List (String × Ty)) (lim : Nat) (ts : List (String × Ty)) :
    QNode → Except Err (List QErr)
  | .mk fs _ => valRecItems types lim ts fs
def valRecItems (types : List (String × Ty)) (lim : Nat) (ts : List (String × Ty)) :
    List QItem → Except Err (List QErr)
  | [] => .ok []
  | i :: r => do
      let a ← valRecItem types lim ts i
      let b ← valRecItems types lim ts r
      .ok (a ++ b)
end

/-- Python's equality of the `options` attributes: dicts are equal regardless of the order of the keys.
Simplification: the values are compared structurally. -/
def optsEq : Opts → Opts → Bool
  | none, none => true
  | some a, some b => (a.all fun kv => dget b kv.1 = some kv.2) && (b.all fun kv => dget a kv.1 = some kv.2)
  | _, _ => false

/-- `_field_eq`, validate/query.py:250-251 -/
def fieldEq (a b : QItem) : Bool := a.name = b.name && optsEq a.options b.options

mutual
/-- `QueryValidator.visit_field`, `visit_link`, validate/query.py:261-311; `gn` is `self.path[-1]` -/
def valItem (g : Graph) (lim : Nat) (gn : GNode) : QItem → Except Err (List QErr)
  | .field n o _ =>
      match gn.get n with
      | none => .ok [.unknownField (nodeLabel gn) n]
      | some (.link _) => .ok [.linkAsField (nodeLabel gn) n]
      | some (.field gf) => valOptions g.dataTypes lim gf.options o (nodeLabel gn) n
  | .link n q o _ =>
      match gn.get n with
      | none => .ok [.unknownLink (nodeLabel gn) n]
      | some (.field gf) => do
          let a ← valOptions g.dataTypes lim gf.options o (nodeLabel gn) n
          let r ← assumeRecord g.dataTypes lim gf.ty
          match r with
          | some ts => do
              let b ← valRecNode g.dataTypes lim ts q
              .ok (a ++ b)
          | none => .ok (a ++ [.fieldAsNode (nodeLabel gn) n])
      | some (.link gl) =>
          match g.node gl.node with
          | none => .error .keyError
          | some t => do
              let a ← valOptions g.dataTypes lim gl.options o (nodeLabel gn) n
              let b ← valNode g lim t q
              .ok (a ++ b)
/-- `QueryValidator.visit_node`, validate/query.py:313-325; `seen` is the local `fields` -/
def valNode (g : Graph) (lim : Nat) (gn : GNode) : QNode → Except Err (List QErr)
  | .mk fs _ => valItems g lim gn [] fs
def valItems (g : Graph) (lim : Nat) (gn : GNode) (seen : List (String × QItem)) :
    List QItem → Except Err (List QErr)
  | [] => .ok []
  | i :: r =>
      match dget seen i.resultKey with
      | some s => do
          let a ← valItem g lim gn i
          let b ← valItems g lim gn seen r
          .ok ((if fieldEq i s then [] else [.distinctFields (nodeLabel gn) i.resultKey]) ++ a ++ b)
      | none => do
          let a ← valItem g lim gn i
          let b ← valItems g lim gn (dset seen i.resultKey i) r
          .ok (a ++ b)
end

/-- `validate(graph, query)`, validate/query.py:328-331 -/
def validate (g : Graph) (lim : Nat) (q : QNode) : Except Err (List QErr) := valNode g lim g.root q

/-! ## Graphs -/

/-- what can be in the `fields` of a node: a field or a link, or something else.  `optionsOk = false`: the
options of a link contain something which is not an `Option`.  Simplification: the options of fields are
options. -/
inductive RawField where
  | item (i : GItem) (optionsOk : Bool)
  | other

/-- what can be in the `items` of a graph: a node or a root (`name = none`), or something else -/
inductive RawNode where
  | node (name : Option String) (fields : List RawField)
  | other

/-- `not isinstance(f, (AbstractField, AbstractLink))` -/
def RawField.isOther : RawField → Bool
  | .other => true
  | _ => false
/-- `not isinstance(f, AbstractNode)` -/
def RawNode.isOther : RawNode → Bool
  | .other => true
  | _ => false

/-- the reported errors, without their wording -/
inductive GErr where
  | invalidLinkOptions (node link : String)
  | missingNode (node link target : String)
  | missingRequired (node link field : String)
  | invalidNodeItems (node : String)
  | duplicatedNames (node : String) (names : List String)
  | invalidGraphItems
  | duplicatedNodes (names : List String)
  deriving DecidableEq, Repr

/-- `Counter(names)` and the keys counted more than once, validate/graph.py:67-69 -/
def duplicates (names : List String) : List String :=
  (dmk (names.map fun n => (n, ()))).filterMap fun kv => if 1 < names.count kv.1 then some kv.1 else none

/-- `GraphValidator.visit_field` (default) and `visit_link`, validate/graph.py:85-110.  `names` are the names of
the nodes, `own` the names in the node of the link (`self.ctx.fields_map`). -/
def gvItem (names : List String) (label : String) (own : List String) : RawField → List GErr
  | .other => []
  | .item (.field _) _ => []
  | .item (.link l) ok =>
      if ok = false then [.invalidLinkOptions label l.name]
      else
        (if l.node ∈ names then [] else [.missingNode label l.name l.node]) ++
        match l.requires with
        | none => []
        | some r => if r ∈ own then [] else [.missingRequired label l.name r]

/-- names of the fields and links of a node -/
def rawNames (fs : List RawField) : List String :=
  fs.filterMap fun
    | .item i _ => some i.name
    | .other => none

/-- `GraphValidator.visit_node`, validate/graph.py:112-132 -/
def gvNode (names : List String) (label : String) (fs : List RawField) : List GErr :=
  if fs.any RawField.isOther then [.invalidNodeItems label]
  else fs.flatMap (gvItem names label (rawNames fs)) ++
    let d := duplicates (rawNames fs)
    if d.isEmpty then [] else [.duplicatedNames label d]

/-- `obj.name or 'root'` -/
def rawLabel : Option String → String
  | none => "root"
  | some s => if s = "" then "root" else s

/-- the fields of all roots, validate/graph.py:150-151 -/
def rawRoot (items : List RawNode) : List RawField :=
  items.flatMap fun
    | .node none fs => fs
    | _ => []

/-- the names of the nodes -/
def rawNodeNames (items : List RawNode) : List String :=
  items.filterMap fun
    | .node n _ => n
    | .other => none

/-- `GraphValidator.visit_graph_items`, validate/graph.py:140-162 -/
def graphErrors (items : List RawNode) : List GErr :=
  if items.any RawNode.isOther then [.invalidGraphItems]
  else
    gvNode (rawNodeNames items) "root" (rawRoot items) ++
    items.flatMap (fun
      | .node (some n) fs => gvNode (rawNodeNames items) (rawLabel (some n)) fs
      | _ => []) ++
    let d := duplicates (rawNodeNames items)
    if d.isEmpty then [] else [.duplicatedNodes d]

/-- the items as nodes of the model -/
def rawFields (fs : List RawField) : List GItem :=
  fs.filterMap fun
    | .item i _ => some i
    | .other => none
def rawItems (items : List RawNode) : List GNode :=
  items.filterMap fun
    | .node n fs => some { name := n, fields := rawFields fs }
    | .other => none

/-- `Graph(items, data_types)`, graph.py:349-357 with `GraphValidator.validate`, validate/graph.py:48-53.
`GraphInit` (binding of sub-graph expressions) is not repeated here, see `Func`. -/
def mkGraph (items : List RawNode) (types : List (String × Ty)) : Except Err Graph :=
  if (graphErrors items).isEmpty then .ok { items := rawItems items, dataTypes := types }
  else .error .graphValidationError

end Hiku
