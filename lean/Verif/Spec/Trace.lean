import Verif.Model.Engine

/-! Specification for C13: the arguments of data functions -/

namespace Hiku

/-- the documented arguments of data functions, context aside: fields functions get the requested
fields (and the identifiers on nodes other than the root), link functions get the required value(s) if
they require a field and the options if they declare some -/
inductive NormalArgs : List Arg → Prop
  | fieldsRoot (qfs) : NormalArgs [.fields qfs]
  | fieldsNode (qfs ids) : NormalArgs [.fields qfs, .ids ids]
  | link : NormalArgs []
  | linkReq (v) : NormalArgs [.val v]
  | linkOpts (o) : NormalArgs [.opts o]
  | linkReqOpts (v o) : NormalArgs [.val v, .opts o]

/-- the context comes first, exactly if the function asks for it -/
def CtxProtocol (s : Submit) : Prop :=
  if s.func.passCtx then ∃ args, s.args = .ctx :: args ∧ NormalArgs args else NormalArgs s.args

theorem NormalArgs.no_ctx {l : List Arg} (h : NormalArgs l) : Arg.ctx ∉ l := by
  cases h <;> simp

end Hiku
