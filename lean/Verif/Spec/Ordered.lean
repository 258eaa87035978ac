import Verif.Spec.Semantics

/-! Specification for C12: steps of an ordered node -/

namespace Hiku

/-- the items in the order in which they are loaded: a link is preceded by the field it requires -/
def expand (gn : GNode) : List QItem → List QItem
  | [] => []
  | .field n o a :: r => .field n o a :: expand gn r
  | .link n q o a :: r =>
      match gn.get n with
      | some (.link gl) =>
          if gl.reqTruthy then .field (gl.requires.getD "") none none :: .link n q o a :: expand gn r
          else .link n q o a :: expand gn r
      | _ => .link n q o a :: expand gn r

/-- the items of the query which the step loads -/
def Step.queryItems : Step → List QItem
  | .fields _ items => items.map (·.2)
  | .link _ ql => [ql]

/-- the function which loads the field or link -/
def GItem.funcKey : GItem → FKey
  | .field gf => gf.func.key
  | .link gl => .plain gl.func

/-- The steps load all items of the query, in the order of the query; a step is one link or several
fields which have one function; adjacent fields with one function are in one step. -/
structure IsPlan (gn : GNode) (items : List QItem) (steps : List Step) : Prop where
  order : steps.flatMap Step.queryItems = expand gn items
  fields : ∀ k its, Step.fields k its ∈ steps → its ≠ [] ∧
    ∀ x ∈ its, ∃ gi, gn.get x.2.name = some gi ∧ gi.funcKey = k
  link : ∀ gl ql, Step.link gl ql ∈ steps → gn.get ql.name = some (.link gl)
  adjacent : ∀ pre k a k' b post, steps = pre ++ .fields k a :: .fields k' b :: post → k ≠ k'

/-- the call of the step on the root node -/
def StepCall : Step → Submit → Prop
  | .fields k its, s => k = .plain s.func ∧ s.args = withCtx s.func [.fields (its.map (·.2))]
  | .link gl ql, s => s.func = gl.func ∧ ∃ req, s.args = withCtx gl.func (req ++ optArgs gl ql.options) ∧
      if gl.reqTruthy then ∃ v, req = [.val v] else req = []

/-- the call is made for the root node of the top query -/
def Submit.isRoot (s : Submit) : Bool := s.wf == 0 && s.node.isNone

/-- the calls made for the root node of the top query, in order -/
def rootCalls (log : List Ev) : List Submit :=
  log.filterMap fun e => match e with | .call s => if s.isRoot then some s else none | .done _ => none

/-- a call for the root node is made after the previous one was reported as finished -/
def OneByOne (log : List Ev) : Prop :=
  ∀ pre s post, log = pre ++ .call s :: post → s.isRoot = true → ∀ s0, (rootCalls pre).getLast? = some s0 →
    ∃ d, Ev.done d ∈ pre ∧ s0.fut ∈ d

end Hiku
