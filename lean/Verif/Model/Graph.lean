import Verif.Model.Query

/-! # hiku/types.py and hiku/graph.py: types and graph definitions -/

namespace Hiku

/-- hiku/types.py:20-206.  `ref` is `TypeRef[name]`; the `_maybe_typeref` conversion of strings
(types.py:201-202) is assumed to be done. -/
inductive Ty where
  | any | boolean | string | integer | float
  | optional (t : Ty)
  | sequence (t : Ty)
  | mapping (k v : Ty)
  | record (fs : List (String × Ty))
  | callable (args : List Ty)
  | ref (name : String)
  deriving Repr

/-- `types.get_type`, types.py:294-298; `none` is the KeyError of `types[...]` -/
def getType (types : List (String × Ty)) : Ty → Option Ty
  | .ref n => dget types n
  | t => some t

/-- `graph.Option`, graph.py:40-71.  `dflt = Val.nothing` means required. -/
structure GOption where
  name : String
  ty : Option Ty
  dflt : Val := .nothing
  description : Option String := none

/-- A data loading function, known by its identity; `passCtx` is the `__pass_context__` attribute
set by `pass_context` (engine.py:390-396). -/
structure PFunc where
  id : Nat
  passCtx : Bool := false
  deriving DecidableEq, Repr

/-- What a graph field has as `func` after `GraphInit` (graph.py:494-513): a plain function or a
`CheckedExpr` (sources/graph.py:71-86) of a sub-graph with its requirements and compiled procedure
(named by an id). -/
inductive Func where
  | plain (f : PFunc)
  | checked (sg : Nat) (reqs : QNode) (proc : Nat)

/-- The key by which fields are grouped into one call:
`getattr(graph_obj.func, '__subquery__', graph_obj.func)` (engine.py:77, 89, 111). -/
inductive FKey where
  | plain (f : PFunc)
  | sub (sg : Nat)
  deriving DecidableEq, Repr

def Func.key : Func → FKey
  | .plain f => .plain f
  | .checked sg _ _ => .sub sg

/-- `graph.Field`, graph.py:78-135 -/
structure GField where
  name : String
  ty : Option Ty
  func : Func
  options : List GOption := []
  description : Option String := none

/-- `One`, `Maybe`, `Many`, graph.py:19-23 -/
inductive LinkType where
  | one | maybe | many
  deriving DecidableEq, Repr

/-- `graph.Link`, graph.py:154-257, with `type_enum` and `node` computed by `get_type_enum`. -/
structure GLink where
  name : String
  typeEnum : LinkType
  node : String
  func : PFunc
  requires : Option String
  options : List GOption := []
  description : Option String := none

/-- the type of the link as written, the inverse of `get_type_enum` (graph.py:142-151) -/
def GLink.ty (l : GLink) : Ty :=
  match l.typeEnum with
  | .one => .ref l.node
  | .maybe => .optional (.ref l.node)
  | .many => .sequence (.ref l.node)

/-- `get_type_enum`, graph.py:142-151; `none` is the TypeError -/
def getTypeEnum : Ty → Option (LinkType × String)
  | .ref n => some (.one, n)
  | .optional (.ref n) => some (.maybe, n)
  | .sequence (.ref n) => some (.many, n)
  | _ => none

/-- `if graph_link.requires:` -- true for a non-empty string -/
def GLink.reqTruthy (l : GLink) : Bool :=
  match l.requires with
  | some r => r != ""
  | none => false

inductive GItem where
  | field (f : GField)
  | link (l : GLink)

def GItem.name : GItem → String
  | .field f => f.name
  | .link l => l.name
def GItem.options : GItem → List GOption
  | .field f => f.options
  | .link l => l.options

/-- `graph.Node`, graph.py:264-299, and `graph.Root` (`name = none`), graph.py:302-328 -/
structure GNode where
  name : Option String
  fields : List GItem
  description : Option String := none

/-- `Node.fields_map`, graph.py:294-296 -/
def GNode.fieldsMap (n : GNode) : List (String × GItem) := dmk (n.fields.map fun f => (f.name, f))
def GNode.get (n : GNode) (name : String) : Option GItem := dget n.fieldsMap name

/-- `graph.Graph`, graph.py:335-386 (after validation) -/
structure Graph where
  items : List GNode
  dataTypes : List (String × Ty) := []

/-- `Graph.root`, graph.py:373-375 with `iter_root`, graph.py:362-366 -/
def Graph.root (g : Graph) : GNode :=
  { name := none, fields := (g.items.filter fun n => n.name.isNone).flatMap GNode.fields }

/-- `Graph.nodes_map`, graph.py:381-383 with `iter_nodes`, graph.py:368-371 -/
def Graph.nodesMap (g : Graph) : List (String × GNode) :=
  dmk (g.items.filterMap fun n => n.name.map fun s => (s, n))
def Graph.node (g : Graph) (name : String) : Option GNode := dget g.nodesMap name

/-- `GraphTypes.visit_field`/`visit_link`, graph.py:544-548 -/
def GItem.ty : GItem → Ty
  | .field f => f.ty.getD .any
  | .link l => l.ty

/-- `GraphTypes.visit_node`/`visit_root`, graph.py:538-542: `Record[...]` over an OrderedDict -/
def GNode.recordFields (n : GNode) : List (String × Ty) := dmk (n.fields.map fun f => (f.name, f.ty))

/-- `Graph.__types__`: `GraphTypes._visit_graph`, graph.py:516-529 -/
def Graph.types (g : Graph) : List (String × Ty) :=
  dset
    (dupdate g.dataTypes
      (g.items.filterMap fun n => n.name.map fun s => (s, Ty.record n.recordFields)))
    "__root__"
    (.record (dmk ((g.items.filter fun n => n.name.isNone).flatMap GNode.recordFields)))

end Hiku
