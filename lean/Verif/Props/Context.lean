import Verif.Proofs.Trace
import Verif.Model.Context
import Verif.Props.Termination

/-! # C13: context -/

namespace Hiku

variable {env : Env}

theorem between_preserves {P : St → Prop} (hq : ∀ st q, P st → P { st with q := q })
    (hrun : ∀ cb st st', P st → runCB env cb st = .ok st' → P st')
    (hlog : ∀ st l, P st → P { st with log := st.log ++ [.done l] })
    {choose : Nat → List Nat → List Nat} {round round' : Nat} {st st' : St} (h : P st)
    (hb : Between env choose round st round' st') : P st' := by
  induction hb with
  | here => exact h
  | next _ hp _ ih => exact ih (progresses_preserves hq hrun (hlog _ _ h) hp)

theorem startQuery_logOK {g : Nat} {q : QNode} {st : St} (h : startQuery env g q = .ok st) :
    LogOK st := by
  unfold startQuery at h
  split at h
  · simp at h
  · simp only [bind_ok_iff] at h
    obtain ⟨q', _, ⟨qu, ts⟩, _, h⟩ := h
    exact LogOK.processNode (LogOK.subCall _) (by intro s hs; simp at hs) h

/-- C13: in every execution, whatever the data functions return and in whatever order they finish,
every call gets the context as its first argument if and only if the function asks for it, followed by
its normal arguments, none of which is the context. -/
theorem c13_context {choose : Nat → List Nat → List Nat} {g round : Nat} {q : QNode} {st st' : St}
    (h : startQuery env g q = .ok st) (hb : Between env choose 0 st round st') (s : Submit)
    (hs : Ev.call s ∈ st'.log) :
    (s.func.passCtx = true → ∃ args, s.args = .ctx :: args ∧ NormalArgs args ∧ Arg.ctx ∉ args) ∧
    (s.func.passCtx = false → NormalArgs s.args ∧ Arg.ctx ∉ s.args) := by
  have := between_preserves (P := LogOK) (fun _ _ h => h) (fun _ _ _ h hr => h.runCB hr)
    (fun st l h s hs => h s (by simpa using hs)) (startQuery_logOK h) hb s hs
  unfold CtxProtocol at this
  constructor
  · intro hp
    rw [if_pos hp] at this
    obtain ⟨args, h1, h2⟩ := this
    exact ⟨args, h1, h2, h2.no_ctx⟩
  · intro hp
    rw [if_neg (by simp [hp])] at this
    exact ⟨this, this.no_ctx⟩

/-- C13: looking up a missing context key raises KeyError, and only this -/
theorem c13_missing_key (data : List (String × Val)) (key : String) :
    ctxGet data key = .error .keyError ↔ key ∉ data.map (·.1) := by
  unfold ctxGet
  rw [← dget_eq_none_iff]
  cases dget data key <;> simp

/-- C13: looking up a key gives the value which the context was created with, and nothing else -/
theorem c13_present_key {data : List (String × Val)} (hd : (data.map (·.1)).Nodup) (key : String) (v : Val) :
    ctxGet data key = .ok v ↔ (key, v) ∈ data := by
  unfold ctxGet
  constructor
  · intro h
    cases hk : dget data key with
    | none => rw [hk] at h; cases h
    | some x => rw [hk] at h; cases h; exact dget_mem hk
  · intro h
    rw [dget_of_mem_nodup hd h]

example : ctxGet [("db", .int 1), ("user", .str "x")] "user" = .ok (.str "x") :=
  (c13_present_key (by simp) _ _).2 (by simp)

/-- the hypotheses are met: the example calls a function with the context -/
example : ∃ st, startQuery exEnv 1 exQuery = .ok st ∧ ∃ s, Ev.call s ∈ st.log :=
  ⟨_, rfl, _, List.mem_cons_self⟩

end Hiku
