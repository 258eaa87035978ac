import Verif.Model.Graph

/-! Specification for C05: which options a data function should get. -/

namespace Hiku

/-- `out` is what a field or link declared with the options `declared` should get when the query
gives `given`: exactly the declared names, in the declared order, each with the given value or the
default. -/
structure OptionsFor (declared : List GOption) (given : Opts) (out : List (String × Val)) : Prop where
  names : out.map Prod.fst = declared.map GOption.name
  given_value : ∀ op ∈ declared, ∀ v, dget (given.getD []) op.name = some v →
    dget out op.name = some v
  default_value : ∀ op ∈ declared, dget (given.getD []) op.name = none →
    dget out op.name = some op.dflt

/-- a required option (one without default) which is not given, or an option explicitly set to the
`Nothing` sentinel -/
def MissingOption (declared : List GOption) (given : Opts) : Prop :=
  ∃ op ∈ declared, dget (given.getD []) op.name = some .nothing ∨
    (dget (given.getD []) op.name = none ∧ op.dflt = .nothing)

/-- nodes which a query of the graph `g` can reach -/
def IsNode (g : Graph) (n : GNode) : Prop := n = g.root ∨ ∃ s, g.node s = some n

/-- The query item `i` stands at the position `path` below a query of the graph node `node`; its
name is looked up in the graph node `node'`. -/
inductive ItemAt (g : Graph) : GNode → QNode → List Nat → GNode → QItem → Prop
  | here {node q k i} : q.fields[k]? = some i → ItemAt g node q [k] node i
  | inLink {node q k n q' o a gl t p node' i} : q.fields[k]? = some (.link n q' o a) →
      node.get n = some (.link gl) → g.node gl.node = some t → ItemAt g t q' p node' i →
      ItemAt g node q (k :: p) node' i

/-- all names of the query exist in the graph -/
def NamesExist (g : Graph) (node : GNode) (q : QNode) : Prop :=
  ∀ p node' i, ItemAt g node q p node' i →
    ∃ gi, node'.get i.name = some gi ∧
      (i.isLink → ∀ gl, gi = .link gl → ∃ t, g.node gl.node = some t)

/-- declared options have distinct names -/
def OptionNamesDistinct (g : Graph) : Prop :=
  ∀ n, (n = g.root ∨ ∃ s, g.node s = some n) → ∀ s gi, n.get s = some gi →
    (gi.options.map GOption.name).Nodup

end Hiku
