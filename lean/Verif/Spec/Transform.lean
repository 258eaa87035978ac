import Verif.Model.Transform
import Verif.Spec.Validate
import Mathlib.Data.List.Forall2

/-! # What transformers of graphs must preserve (C46) -/

namespace Hiku.Transform

/-- a graph which `Graph(items, data_types)` has returned; a root has no description -/
def Built (g : Graph) : Prop :=
  buildGraph g.items g.dataTypes = .ok g ∧ ∀ n ∈ g.items, n.name = none → n.description = none

/-- the same field or link, up to the function -/
inductive SameButFunc : GItem → GItem → Prop
  | field {f f' : GField} : f'.name = f.name → f'.ty = f.ty → f'.options = f.options →
      f'.description = f.description → SameButFunc (.field f) (.field f')
  | link {l l' : GLink} : l'.name = l.name → l'.typeEnum = l.typeEnum → l'.node = l.node →
      l'.requires = l.requires → l'.options = l.options → l'.description = l.description →
      SameButFunc (.link l) (.link l')

/-- the same nodes in the same order with the same fields and links in the same order, up to the functions -/
def SameGraph (g g' : Graph) : Prop :=
  g'.dataTypes = g.dataTypes ∧
  List.Forall₂ (fun n n' : GNode => n'.name = n.name ∧ n'.description = n.description ∧
    List.Forall₂ SameButFunc n.fields n'.fields) g.items g'.items

/-- a transformer which only replaces functions -/
structure OnlyFunctions {σ : Type} (h : Hooks σ) : Prop where
  field : ∀ nm f s, SameButFunc (.field f) (.field (h.field nm f s).1)
  link : ∀ nm l s, SameButFunc (.link l) (.link (h.link nm l s).1)
  more : ∀ nm, h.more nm = []
  items : h.items = []

end Hiku.Transform
