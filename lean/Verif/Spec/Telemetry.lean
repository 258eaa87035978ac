import Verif.Model.Telemetry
import Verif.Spec.Semantics

/-! # What metrics must observe (C47) -/

namespace Hiku.Telemetry

/-- the label of a node: its name, `Root` for the root -/
def labelOf (nm : Option String) : String := nm.getD "Root"

/-- `f` loads fields of a node with this name -/
def LoadsFields (g : Graph) (nm : Option String) (f : PFunc) : Prop :=
  ∃ n ∈ g.items, n.name = nm ∧ ∃ gf, .field gf ∈ n.fields ∧ gf.func = .plain f

/-- `f` is the function of a link with the name `name` in a node with the name `nm` -/
def LoadsLink (g : Graph) (nm : Option String) (name : String) (f : PFunc) : Prop :=
  ∃ n ∈ g.items, n.name = nm ∧ ∃ l, .link l ∈ n.fields ∧ l.name = name ∧ l.func = f

/-- the nodes are declared in the order of the list; the first one with a field for which `P` holds has the
name `nm` -/
def FirstNode (g : Graph) (nm : Option String) (P : Func → Prop) : Prop :=
  ∃ pre n post, g.items = pre ++ n :: post ∧ n.name = nm ∧ (∃ gf, .field gf ∈ n.fields ∧ P gf.func) ∧
    ∀ m ∈ pre, ∀ gf, .field gf ∈ m.fields → ¬ P gf.func

/-- the first node whose fields are loaded by `f` has the name `nm` -/
def FirstLoads (g : Graph) (nm : Option String) (f : PFunc) : Prop := FirstNode g nm fun x => x = .plain f

/-- the first node with an expression of the sub-graph `sg` has the name `nm` -/
def FirstLoadsSub (g : Graph) (nm : Option String) (sg : Nat) : Prop :=
  FirstNode g nm fun x => ∃ reqs p, x = .checked sg reqs p

/-- no function loads fields of two nodes -/
def OneNodePerFunction (g : Graph) : Prop :=
  ∀ nm nm' f, LoadsFields g nm f → LoadsFields g nm' f → nm = nm'

/-- all functions and sub-graphs of a program have numbers below the given ones -/
structure Below (sys : Sys) (base : Nat) : Prop where
  fields : ∀ g ∈ sys.graphs, ∀ n ∈ g.items, ∀ gf, .field gf ∈ n.fields → ∀ f, gf.func = .plain f → f.id < base
  links : ∀ g ∈ sys.graphs, ∀ n ∈ g.items, ∀ l, .link l ∈ n.fields → l.func.id < base

/-- The observations which the call `s` (made with the functions of the original graph) has to report when its
outcome is `r`: nothing for a failed call, every requested field for a function of fields, the link for a
function of a link; always labelled with the node. -/
inductive Expected (g : Graph) (s : Submit) : Except Err Val → List (String × String) → Prop
  | failed (e : Err) : Expected g s (.error e) []
  | fields (v : Val) {qfs : List QItem} {rest : List Arg} : LoadsFields g s.node s.func →
      s.args = withCtx s.func (.fields qfs :: rest) →
      Expected g s (.ok v) (qfs.map fun q => (labelOf s.node, q.name))
  | link (v : Val) {name : String} : LoadsLink g s.node name s.func →
      Expected g s (.ok v) [(labelOf s.node, name)]

/-- The observations which are reported: as `Expected`, but the fields are labelled with the first node which
is loaded by the same function. -/
inductive Reported (g : Graph) (s : Submit) : Except Err Val → List (String × String) → Prop
  | failed (e : Err) : Reported g s (.error e) []
  | fields (v : Val) {qfs : List QItem} {rest : List Arg} {nm : Option String} : LoadsFields g s.node s.func →
      FirstLoads g nm s.func → s.args = withCtx s.func (.fields qfs :: rest) →
      Reported g s (.ok v) (qfs.map fun q => (labelOf nm, q.name))
  | link (v : Val) {name : String} : LoadsLink g s.node name s.func →
      Reported g s (.ok v) [(labelOf s.node, name)]

end Hiku.Telemetry
