import Verif.Spec.Plan
import Verif.Spec.Validate
import Mathlib.Data.List.Forall2

/-! Specification for C69: graphs which grow.

The lists of nodes which programs write: `Grows` describes what may be done with them (further fields and
links in nodes, further nodes), `GraphExtends` what this means for lookups by name. -/

namespace Hiku

/-- Further fields and links with new names are added, anywhere: those with old names are the old ones. -/
def FieldsGrow (l l' : List GItem) : Prop := (l'.filter fun i => l.any fun j => j.name = i.name) = l

def namedNodes (l : List GNode) : List GNode := l.filter fun n => n.name.isSome

/-- the fields and links of the root, which can be written in several parts -/
def rootFields (l : List GNode) : List GItem := (l.filter fun n => n.name.isNone).flatMap GNode.fields

/-- The nodes of a graph: the root grows, nodes with new names are added, anywhere, and the nodes with old
names are the old ones, with further fields and links. -/
structure NodesGrow (l l' : List GNode) : Prop where
  root : FieldsGrow (rootFields l) (rootFields l')
  nodes : List.Forall₂ (fun n n' => n.name = n'.name ∧ FieldsGrow n.fields n'.fields) (namedNodes l)
    ((namedNodes l').filter fun n' => (namedNodes l).any fun n => n.name = n'.name)

/-- the data types: further ones are added -/
def TypesGrow (l l' : List (String × Ty)) : Prop := ∀ n t, dget l n = some t → dget l' n = some t

/-- every name which the node knows means the same in the second node -/
structure NodeExtends (t t' : GNode) : Prop where
  name : t'.name = t.name
  get : ∀ n i, t.get n = some i → t'.get n = some i

/-- every node and every data type which the graph knows is in the second graph, with the same name -/
structure GraphExtends (g g' : Graph) : Prop where
  root : NodeExtends g.root g'.root
  nodes : ∀ m t, g.node m = some t → ∃ t', g'.node m = some t' ∧ NodeExtends t t'
  types : TypesGrow g.dataTypes g'.dataTypes

/-- every graph grows, sub-graphs and further graphs are added -/
structure SysExtends (sys sys' : Sys) : Prop where
  graphs : ∀ (gi : Nat) g, sys.graphs[gi]? = some g → ∃ g', sys'.graphs[gi]? = some g' ∧ GraphExtends g g'
  subs : ∀ (sg : Nat) s, sys.subs[sg]? = some s → sys'.subs[sg]? = some s

/-- the environment of the larger system: functions and hashes are the same -/
def Env.grown (env : Env) (sys : Sys) : Env := { env with sys := sys }

end Hiku
