import Verif.Model.Validate

/-! Specification for C27: well-formed graphs -/

namespace Hiku

/-- the nodes of the graph: the named ones, and one root with the fields of all roots -/
def GraphNode (items : List RawNode) (fs : List RawField) : Prop :=
  fs = rawRoot items ∨ ∃ n, .node (some n) fs ∈ items

/-- the name of a field or a link of a node -/
def HasName (fs : List RawField) (n : String) : Prop := ∃ i ok, .item i ok ∈ fs ∧ i.name = n

/-- no name occurs twice: the two occurrences are the same one -/
def DistinctNames (fs : List RawField) : Prop :=
  fs.Pairwise fun a b => ∀ i ok j ok', a = .item i ok → b = .item j ok' → i.name ≠ j.name

structure NodeWF (items : List RawNode) (fs : List RawField) : Prop where
  /-- only fields and links -/
  items_ok : ∀ f ∈ fs, f ≠ .other
  distinct : DistinctNames fs
  /-- links have valid options, point to existing nodes and require existing names of their node -/
  options : ∀ l ok, .item (.link l) ok ∈ fs → ok = true
  target : ∀ l ok, .item (.link l) ok ∈ fs → ∃ fs', .node (some l.node) fs' ∈ items
  required : ∀ l ok r, .item (.link l) ok ∈ fs → l.requires = some r → HasName fs r

structure GraphWF (items : List RawNode) : Prop where
  nodes_ok : ∀ x ∈ items, x ≠ .other
  /-- no two nodes have the same name -/
  distinct : items.Pairwise fun a b => ∀ n fs m fs', a = .node (some n) fs → b = .node (some m) fs' → n ≠ m
  nodes : ∀ fs, GraphNode items fs → NodeWF items fs

end Hiku
