import Verif.Proofs.Trace
import Verif.Spec.Semantics

/-! Properties of states which are kept by submissions and do not depend on the queue and the
workflows are kept by every part of the engine. -/

namespace Hiku

structure Stable (env : Env) (P : St → Prop) : Prop where
  submit : ∀ {w : Nat} {nd : Option String} {f : PFunc} {args : List Arg} {st st' : St} {fut : Nat}, P st →
    submitCall env w nd f args st = .ok (st', fut) → P st'
  queue : ∀ {st : St} (q : Queue CB), P st → P { st with q := q }
  wfs : ∀ {st : St} (l : List Wf), P st → P { st with wfs := l }

variable {env : Env} {P : St → Prop} {st st' : St} {w : Nat} {sub : SubCall}

def SubStable (P : St → Prop) (sub : SubCall) : Prop :=
  ∀ sg items ids ts st st' src, P st → sub sg items ids ts st = .ok (st', src) → P st'

namespace Stable
variable (hP : Stable env P)
include hP

theorem addCB (hl : P st) (o : Obj) (cb : CB) : P (Hiku.addCB o cb st) := hP.queue _ hl

theorem scheduleFields (hsub : SubStable P sub)
    {node : GNode} {k : FKey} {items : List (GItem × QItem)} {ids : Option (List Val)} {o : Obj}
    (hl : P st) (h : scheduleFields env sub w node k items ids st = .ok (st', o)) : P st' := by
  unfold Hiku.scheduleFields at h
  cases k with
  | sub sg =>
    simp only at h
    split at h
    · simp at h
    · split at h
      · simp at h
      · simp only [bind_ok_iff] at h
        obtain ⟨⟨q', dep⟩, h1, ⟨st1, src⟩, h2, h3⟩ := h
        simp at h3
        rw [← h3.1]
        exact hP.addCB (hsub _ _ _ _ _ _ _ (hP.queue _ hl) h2) _ _
  | plain f =>
    simp only [bind_ok_iff] at h
    obtain ⟨⟨st1, fut⟩, h2, h3⟩ := h
    simp at h3
    rw [← h3.1]
    exact hP.addCB (hP.submit hl h2) _ _

theorem scheduleLink {node : GNode} {gl : GLink} {ql : QItem} {ids : Option (List Val)} {o : Obj}
    (hl : P st) (h : scheduleLink env w node gl ql ids st = .ok (st', o)) : P st' := by
  unfold Hiku.scheduleLink at h
  split at h
  · simp at h
  · simp only [bind_ok_iff] at h
    obtain ⟨ra, h1, ⟨st1, fut⟩, h2, h3⟩ := h
    simp at h3
    rw [← h3.1]
    exact hP.addCB (hP.submit hl h2) _ _

theorem runSteps (hsub : SubStable P sub)
    {node : GNode} {ids : Option (List Val)} {steps : List Step}
    (hl : P st) (h : runSteps env sub w node ids steps st = .ok st') : P st' := by
  cases steps with
  | nil => simp [Hiku.runSteps] at h; exact h ▸ hl
  | cons s r =>
    simp only [Hiku.runSteps, bind_ok_iff] at h
    obtain ⟨⟨st1, dep⟩, h1, h2⟩ := h
    have hl1 : P st1 := by
      cases s with
      | fields k items => exact hP.scheduleFields hsub hl h1
      | link gl ql => exact hP.scheduleLink hl h1
    simp at h2
    split at h2
    · exact h2 ▸ hl1
    · exact h2 ▸ hP.addCB hl1 _ _

theorem scheduleGroups (hsub : SubStable P sub)
    {node : GNode} {ids : Option (List Val)} {gs : List (FKey × List (GItem × QItem))}
    {deps : List (FKey × Obj)}
    (hl : P st) (h : scheduleGroups env sub w node ids gs st = .ok (st', deps)) : P st' := by
  induction gs generalizing st deps with
  | nil => simp [Hiku.scheduleGroups] at h; exact h.1 ▸ hl
  | cons x r ih =>
    obtain ⟨k, items⟩ := x
    simp only [Hiku.scheduleGroups, bind_ok_iff] at h
    obtain ⟨⟨st1, dep⟩, h1, ⟨st2, deps'⟩, h2, h3⟩ := h
    simp at h3
    obtain ⟨rfl, _⟩ := h3
    exact ih (hP.scheduleFields hsub hl h1) h2

theorem scheduleLinks {node : GNode} {ids : Option (List Val)} {toFunc : List (String × FKey)}
    {toDep : List (FKey × Obj)} {ls : List (GLink × QItem)}
    (hl : P st) (h : scheduleLinks env w node ids toFunc toDep ls st = .ok st') : P st' := by
  induction ls generalizing st with
  | nil => simp [Hiku.scheduleLinks] at h; exact h ▸ hl
  | cons x r ih =>
    obtain ⟨gl, ql⟩ := x
    simp only [Hiku.scheduleLinks] at h
    split at h
    · split at h
      · simp at h
      · split at h
        · simp at h
        · exact ih (hP.addCB hl _ _) h
    · simp only [bind_ok_iff] at h
      obtain ⟨⟨st1, o⟩, h1, h2⟩ := h
      exact ih (hP.scheduleLink hl h1) h2

theorem processNode (hsub : SubStable P sub)
    {node : GNode} {ids : Option (List Val)} {q : QNode}
    (hl : P st) (h : processNode env sub w node q ids st = .ok st') : P st' := by
  unfold Hiku.processNode at h
  split at h
  · simp only [bind_ok_iff] at h
    obtain ⟨steps, _, h2⟩ := h
    exact hP.runSteps hsub hl h2
  · simp only [bind_ok_iff] at h
    obtain ⟨⟨fields, links⟩, _, ⟨st1, deps⟩, h2, h3⟩ := h
    exact hP.scheduleLinks (hP.scheduleGroups hsub hl h2) h3

theorem processLink (hsub : SubStable P sub)
    {node : GNode} {gl : GLink} {ql : QItem} {ids : Option (List Val)} {result : Val}
    (hl : P st) (h : processLink env sub w node gl ql ids result st = .ok st') : P st' := by
  unfold Hiku.processLink at h
  split at h
  · simp at h
  · simp only [bind_ok_iff] at h
    obtain ⟨idx, _, toIds, _, h⟩ := h
    split at h
    · simp at h; exact h ▸ hP.wfs _ hl
    · split at h
      · simp at h
      · split at h
        · simp at h
        · simp at h
        · exact hP.processNode hsub (hP.wfs _ hl) h

theorem subCall (n : Nat) : SubStable P (subCall env n) := by
  induction n with
  | zero => intro sg items ids ts st st' src _ h; simp [Hiku.subCall] at h
  | succ n ih =>
    intro sg items ids ts st st' src hl h
    simp only [Hiku.subCall, subGraphCall] at h
    split at h
    · simp at h
    · split at h
      · simp at h
      · simp only [bind_ok_iff] at h
        obtain ⟨ch, _, opts, _, h⟩ := h
        split at h
        · simp at h
        · simp only [bind_ok_iff] at h
          obtain ⟨st1, h1, st2, h2, h3⟩ := h
          simp at h3
          exact h3.1 ▸ hP.processNode ih (hP.processLink ih (hP.wfs _ hl) h1) h2

theorem runCB {cb : CB} (hl : P st) (h : runCB env cb st = .ok st') : P st' := by
  cases cb with
  | store w node qfs ids src =>
    simp only [Hiku.runCB, bind_ok_iff] at h
    obtain ⟨r, _, h⟩ := h
    split at h
    · simp at h
    · simp only [bind_ok_iff] at h
      obtain ⟨idx, _, h⟩ := h
      simp at h
      exact h ▸ hP.wfs _ hl
  | schedLink w node gl ql ids =>
    simp only [Hiku.runCB, bind_ok_iff] at h
    obtain ⟨⟨st1, o⟩, h1, h2⟩ := h
    simp at h2
    exact h2 ▸ hP.scheduleLink hl h1
  | procLink w node gl ql ids fut =>
    simp only [Hiku.runCB, bind_ok_iff] at h
    obtain ⟨r, _, h⟩ := h
    exact hP.processLink (hP.subCall _) hl h
  | procSteps w node ids steps => exact hP.runSteps (hP.subCall _) hl h

theorem start {g : Nat} {q : QNode} (h0 : P {}) (h : startQuery env g q = .ok st) : P st := by
  unfold startQuery at h
  split at h
  · simp at h
  · simp only [bind_ok_iff] at h
    obtain ⟨q', _, ⟨qu, ts⟩, _, h⟩ := h
    exact hP.processNode (hP.subCall _) (hP.queue qu (hP.wfs [_] h0)) h

/-- ... and by the executor loop, if the reports of finished tasks do not matter -/
theorem loops {choose : Nat → List Nat → List Nat} (hd : ∀ (st : St) l, P st → P { st with log := st.log ++ [.done l] })
    {round n : Nat} {r : Except Err St} (h0 : P st) (h : Loops env choose round st n r) :
    ∀ st', r = .ok st' → P st' := by
  induction h with
  | stop => intro st' h; cases h; exact h0
  | fail => intro st' h; cases h
  | next _ hp _ ih =>
    exact ih (progresses_preserves (fun _ q h => hP.queue q h) (fun _ _ _ h hr => hP.runCB h hr) (hd _ _ h0) hp)

end Stable

/-! ### Calls and their outcomes -/

/-- the outcome of every call of the log is kept -/
def LogRes (env : Env) (st : St) : Prop :=
  (∀ s, Ev.call s ∈ st.log → st.results[s.fut]? = some (env.world.call s.fut s.func.id s.args)) ∧
  ∀ i r, st.results[i]? = some r → ∃ s, Ev.call s ∈ st.log ∧ s.fut = i

theorem submitCall_inv {nd : Option String} {f : PFunc} {args : List Arg} {fut : Nat}
    (h : submitCall env w nd f args st = .ok (st', fut)) :
    ∃ wf q, st.wfs[w]? = some wf ∧ st.q.submit wf.ts st.results.length = .ok q ∧ fut = st.results.length ∧
      env.refused fut (env.world.call fut f.id (withCtx f args)) = none ∧
      st' = { st with q := q, results := st.results ++ [env.world.call fut f.id (withCtx f args)],
                      log := st.log ++ [.call ⟨fut, wf.ts, f, withCtx f args, w, nd⟩] } := by
  unfold submitCall at h
  split at h
  · simp at h
  · rename_i wf hw
    simp only at h
    split at h
    · simp at h
    · rename_i hr
      split at h
      · simp at h
      · rename_i q hq
        simp at h
        obtain ⟨rfl, rfl⟩ := h
        exact ⟨wf, q, hw, hq, rfl, hr, rfl⟩

theorem logRes_stable : Stable env (LogRes env) where
  submit := by
    intro w nd f args st st' fut h hs
    obtain ⟨wf, q, _, _, rfl, _, rfl⟩ := submitCall_inv hs
    constructor
    · intro s hs
      simp only [List.mem_append, List.mem_singleton] at hs
      rcases hs with hs | hs
      · have := h.1 s hs
        rw [List.getElem?_append_left (List.getElem?_eq_some_iff.1 this).1]
        exact this
      · cases hs
        simp
    · intro i r hi
      simp only at hi
      rcases Nat.lt_or_ge i st.results.length with hl | hl
      · rw [List.getElem?_append_left hl] at hi
        obtain ⟨s, h1, h2⟩ := h.2 i r hi
        exact ⟨s, List.mem_append_left _ h1, h2⟩
      · rw [List.getElem?_append_right hl] at hi
        have : i = st.results.length := by
          have := (List.getElem?_eq_some_iff.1 hi).1
          simp at this; omega
        subst this
        exact ⟨_, List.mem_append_right _ List.mem_cons_self, rfl⟩
  queue := fun _ h => h
  wfs := fun _ h => h

/-- calls stay in the log -/
theorem called_stable (s : Submit) : Stable env fun st => Ev.call s ∈ st.log where
  submit := by
    intro w nd f args st st' fut h hs
    obtain ⟨wf, q, _, _, rfl, _, rfl⟩ := submitCall_inv hs
    exact List.mem_append_left _ h
  queue := fun _ h => h
  wfs := fun _ h => h

end Hiku
