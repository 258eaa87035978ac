import Verif.Spec.Semantics

/-! Specification for C08 and C09: what the calls of data functions in the log of an execution look
like. -/

namespace Hiku

/-- identifiers passed to field functions of nodes -/
def idsArg : Option (List Val) → List Arg
  | none => []
  | some ids => [.ids ids]

/-- In the log the function `f` was called for the field `n` of the object, and this call is finished. -/
def LoadedIn (log : List Ev) (f : PFunc) (gn : GNode) (ident : Val) (n : String) : Prop :=
  ∃ s qfs ids done, Ev.call s ∈ log ∧ Ev.done done ∈ log ∧ s.fut ∈ done ∧ s.func = f ∧
    s.args = withCtx f (.fields qfs :: idsArg ids) ∧ (∃ q ∈ qfs, q.name = n) ∧
    ids.isSome = gn.name.isSome ∧ ident ∈ identsOf ids

/-- the objects exist, identifiers are given iff the node is not the root -/
structure IdsOk (D : Data) (gi : Nat) (gn : GNode) (ids : Option (List Val)) : Prop where
  isSome : ids.isSome = gn.name.isSome
  ne : ids ≠ some []
  ok : ∀ i ∈ identsOf ids, IdentOk D gi gn i

/-- a call which loads fields: fields of one node (or of the root) which have this function, for
existing objects -/
def FieldsCall (env : Env) (D : Data) (U : String → Opts → Prop) (s : Submit) : Prop :=
  ∃ (gi : Nat) (g : Graph) (gn : GNode) (ids : Option (List Val)) (qfs : List QItem),
    env.sys.graphs[gi]? = some g ∧ IsNode g gn ∧ IdsOk D gi gn ids ∧ qfs ≠ [] ∧
    (∀ q ∈ qfs, U q.name q.options ∧ ∃ gf, gn.get q.name = some (.field gf) ∧ gf.func = .plain s.func) ∧
    s.args = withCtx s.func (.fields qfs :: idsArg ids)

/-- the argument with the values of the required field: the list of the values of the objects in the
order of the objects, the single value on the root -/
def reqArg (D : Data) (sub : SubSem) (gn : GNode) (ids : Option (List Val)) : Option String → List Arg
  | none => []
  | some r =>
      match ids with
      | none => [.val (semName D sub gn rootIdent r none)]
      | some ids => [.val (.list (ids.map fun i => semName D sub gn i r none))]

/-- a call which loads a link after `log`: the function gets the true values of the required field of
the current objects, which were loaded before, and the options if the link declares some -/
def LinkCall (env : Env) (D : Data) (U : String → Opts → Prop) (log : List Ev) (s : Submit) : Prop :=
  ∃ (gi : Nat) (g : Graph) (gn : GNode) (ids : Option (List Val)) (nm : String) (gl : GLink) (o : Opts),
    env.sys.graphs[gi]? = some g ∧ IsNode g gn ∧ IdsOk D gi gn ids ∧
    gn.get nm = some (.link gl) ∧ U nm o ∧ s.func = gl.func ∧
    s.args = withCtx gl.func (reqArg D (semSub env.sys D gi) gn ids gl.requires ++ optArgs gl o) ∧
    ∀ r gf f, gl.requires = some r → gn.get r = some (.field gf) → gf.func = .plain f →
      ∀ i ∈ identsOf ids, LoadedIn log f gn i r

/-- every call in the log, with the events before it -/
def CallsOk (env : Env) (D : Data) (U : String → Opts → Prop) (log : List Ev) : Prop :=
  ∀ pre s post, log = pre ++ .call s :: post → FieldsCall env D U s ∨ LinkCall env D U pre s

end Hiku
