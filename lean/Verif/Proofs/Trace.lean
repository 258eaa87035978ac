import Verif.Proofs.Loop
import Verif.Spec.Trace

/-! Invariants of the log of calls, for arbitrary data functions. -/

namespace Hiku

def LogOK (st : St) : Prop := ∀ s, Ev.call s ∈ st.log → CtxProtocol s

variable {env : Env} {st st' : St} {w : Nat} {sub : SubCall}

theorem LogOK.submit {nd : Option String} {f : PFunc} {args : List Arg} {fut : Nat} (hl : LogOK st) (ha : NormalArgs args)
    (h : submitCall env w nd f args st = .ok (st', fut)) : LogOK st' := by
  unfold submitCall at h
  split at h
  · simp at h
  · simp only at h
    split at h
    · simp at h
    split at h
    · simp at h
    · simp at h
      obtain ⟨rfl, rfl⟩ := h
      intro s hs
      simp only [List.mem_append, List.mem_singleton] at hs
      rcases hs with hs | hs
      · exact hl s hs
      · cases hs
        unfold CtxProtocol
        simp only
        by_cases hp : f.passCtx = true
        · rw [if_pos hp, if_pos hp]; exact ⟨args, rfl, ha⟩
        · rw [if_neg hp, if_neg hp]; exact ha

theorem LogOK.addCB (hl : LogOK st) (o : Obj) (cb : CB) : LogOK (Hiku.addCB o cb st) := hl

theorem LogOK.scheduleFields
    (hsub : ∀ sg items ids ts st st' src, LogOK st → sub sg items ids ts st = .ok (st', src) → LogOK st')
    {node : GNode} {k : FKey} {items : List (GItem × QItem)} {ids : Option (List Val)} {o : Obj}
    (hl : LogOK st) (h : scheduleFields env sub w node k items ids st = .ok (st', o)) : LogOK st' := by
  unfold Hiku.scheduleFields at h
  cases k with
  | sub sg =>
    simp only at h
    split at h
    · simp at h
    · split at h
      · simp at h
      · simp only [bind_ok_iff] at h
        obtain ⟨⟨q', dep⟩, h1, ⟨st1, src⟩, h2, h3⟩ := h
        simp at h3
        rw [← h3.1]
        exact (hsub _ _ _ _ _ _ _ (by exact hl) h2).addCB _ _
  | plain f =>
    simp only [bind_ok_iff] at h
    obtain ⟨⟨st1, fut⟩, h2, h3⟩ := h
    simp at h3
    rw [← h3.1]
    refine LogOK.addCB (hl.submit ?_ h2) _ _
    cases ids <;> constructor

theorem LogOK.scheduleLink {node : GNode} {gl : GLink} {ql : QItem} {ids : Option (List Val)} {o : Obj}
    (hl : LogOK st) (h : scheduleLink env w node gl ql ids st = .ok (st', o)) : LogOK st' := by
  unfold Hiku.scheduleLink at h
  split at h
  · simp at h
  · simp only [bind_ok_iff] at h
    obtain ⟨ra, h1, ⟨st1, fut⟩, h2, h3⟩ := h
    simp at h3
    rw [← h3.1]
    refine LogOK.addCB (hl.submit ?_ h2) _ _
    by_cases hq : gl.reqTruthy = true
    · simp only [hq, if_true, bind_ok_iff] at h1
      obtain ⟨v, _, hv⟩ := h1
      simp at hv; subst hv
      by_cases ho : gl.options.isEmpty = true
      · simp only [ho, if_true]; constructor
      · simp only [ho]; constructor
    · simp only [hq] at h1
      simp at h1; subst h1
      by_cases ho : gl.options.isEmpty = true
      · simp only [ho, if_true]; constructor
      · simp only [ho]; constructor

theorem LogOK.runSteps
    (hsub : ∀ sg items ids ts st st' src, LogOK st → sub sg items ids ts st = .ok (st', src) → LogOK st')
    {node : GNode} {ids : Option (List Val)} {steps : List Step}
    (hl : LogOK st) (h : runSteps env sub w node ids steps st = .ok st') : LogOK st' := by
  cases steps with
  | nil => simp [Hiku.runSteps] at h; exact h ▸ hl
  | cons s r =>
    simp only [Hiku.runSteps, bind_ok_iff] at h
    obtain ⟨⟨st1, dep⟩, h1, h2⟩ := h
    have hl1 : LogOK st1 := by
      cases s with
      | fields k items => exact hl.scheduleFields hsub h1
      | link gl ql => exact hl.scheduleLink h1
    simp at h2
    split at h2
    · exact h2 ▸ hl1
    · exact h2 ▸ hl1.addCB _ _

theorem LogOK.scheduleGroups
    (hsub : ∀ sg items ids ts st st' src, LogOK st → sub sg items ids ts st = .ok (st', src) → LogOK st')
    {node : GNode} {ids : Option (List Val)} {gs : List (FKey × List (GItem × QItem))}
    {deps : List (FKey × Obj)}
    (hl : LogOK st) (h : scheduleGroups env sub w node ids gs st = .ok (st', deps)) : LogOK st' := by
  induction gs generalizing st deps with
  | nil => simp [Hiku.scheduleGroups] at h; exact h.1 ▸ hl
  | cons x r ih =>
    obtain ⟨k, items⟩ := x
    simp only [Hiku.scheduleGroups, bind_ok_iff] at h
    obtain ⟨⟨st1, dep⟩, h1, ⟨st2, deps'⟩, h2, h3⟩ := h
    simp at h3
    obtain ⟨rfl, _⟩ := h3
    exact ih (hl.scheduleFields hsub h1) h2

theorem LogOK.scheduleLinks {node : GNode} {ids : Option (List Val)} {toFunc : List (String × FKey)}
    {toDep : List (FKey × Obj)} {ls : List (GLink × QItem)}
    (hl : LogOK st) (h : scheduleLinks env w node ids toFunc toDep ls st = .ok st') : LogOK st' := by
  induction ls generalizing st with
  | nil => simp [Hiku.scheduleLinks] at h; exact h ▸ hl
  | cons x r ih =>
    obtain ⟨gl, ql⟩ := x
    simp only [Hiku.scheduleLinks] at h
    split at h
    · split at h
      · simp at h
      · split at h
        · simp at h
        · exact ih (hl.addCB _ _) h
    · simp only [bind_ok_iff] at h
      obtain ⟨⟨st1, o⟩, h1, h2⟩ := h
      exact ih (hl.scheduleLink h1) h2

theorem LogOK.processNode
    (hsub : ∀ sg items ids ts st st' src, LogOK st → sub sg items ids ts st = .ok (st', src) → LogOK st')
    {node : GNode} {ids : Option (List Val)} {q : QNode}
    (hl : LogOK st) (h : processNode env sub w node q ids st = .ok st') : LogOK st' := by
  unfold Hiku.processNode at h
  split at h
  · simp only [bind_ok_iff] at h
    obtain ⟨steps, _, h2⟩ := h
    exact hl.runSteps hsub h2
  · simp only [bind_ok_iff] at h
    obtain ⟨⟨fields, links⟩, _, ⟨st1, deps⟩, h2, h3⟩ := h
    exact (hl.scheduleGroups hsub h2).scheduleLinks h3

theorem LogOK.processLink
    (hsub : ∀ sg items ids ts st st' src, LogOK st → sub sg items ids ts st = .ok (st', src) → LogOK st')
    {node : GNode} {gl : GLink} {ql : QItem} {ids : Option (List Val)} {result : Val}
    (hl : LogOK st) (h : processLink env sub w node gl ql ids result st = .ok st') : LogOK st' := by
  unfold Hiku.processLink at h
  split at h
  · simp at h
  · simp only [bind_ok_iff] at h
    obtain ⟨idx, _, toIds, _, h⟩ := h
    split at h
    · simp at h; exact h ▸ hl
    · split at h
      · simp at h
      · split at h
        · simp at h
        · simp at h
        · exact LogOK.processNode hsub (by exact hl) h

theorem LogOK.subCall (n : Nat) : ∀ sg items ids ts st st' src, LogOK st →
    subCall env n sg items ids ts st = .ok (st', src) → LogOK st' := by
  induction n with
  | zero => intro sg items ids ts st st' src _ h; simp [Hiku.subCall] at h
  | succ n ih =>
    intro sg items ids ts st st' src hl h
    simp only [Hiku.subCall, subGraphCall] at h
    split at h
    · simp at h
    · split at h
      · simp at h
      · simp only [bind_ok_iff] at h
        obtain ⟨ch, _, opts, _, h⟩ := h
        split at h
        · simp at h
        · simp only [bind_ok_iff] at h
          obtain ⟨st1, h1, st2, h2, h3⟩ := h
          simp at h3
          exact h3.1 ▸ LogOK.processNode ih (LogOK.processLink ih (by exact hl) h1) h2

theorem LogOK.runCB {cb : CB} (hl : LogOK st) (h : runCB env cb st = .ok st') : LogOK st' := by
  cases cb with
  | store w node qfs ids src =>
    simp only [Hiku.runCB, bind_ok_iff] at h
    obtain ⟨r, _, h⟩ := h
    split at h
    · simp at h
    · simp only [bind_ok_iff] at h
      obtain ⟨idx, _, h⟩ := h
      simp at h
      exact h ▸ hl
  | schedLink w node gl ql ids =>
    simp only [Hiku.runCB, bind_ok_iff] at h
    obtain ⟨⟨st1, o⟩, h1, h2⟩ := h
    simp at h2
    exact h2 ▸ hl.scheduleLink h1
  | procLink w node gl ql ids fut =>
    simp only [Hiku.runCB, bind_ok_iff] at h
    obtain ⟨r, _, h⟩ := h
    exact hl.processLink (LogOK.subCall _) h
  | procSteps w node ids steps => exact hl.runSteps (LogOK.subCall _) h

section
variable {P : St → Prop} (hq : ∀ st q, P st → P { st with q := q })
  (hrun : ∀ cb st st', P st → runCB env cb st = .ok st' → P st')
include hq hrun

/-- a property of states which does not look at the queue and is preserved by callbacks is preserved
by `Queue.progress` -/
theorem runCallbacks_preserves {l : List CB} (h : P st) (hr : runCallbacks (runCB env) l st = .ok st') :
    P st' := by
  induction l generalizing st with
  | nil => simp [runCallbacks] at hr; exact hr ▸ h
  | cons c r ih =>
    simp only [runCallbacks, bind_ok_iff] at hr
    obtain ⟨s1, h1, h2⟩ := hr
    exact ih (hrun _ _ _ h h1) h2

theorem fireFutures_preserves {l : List Nat} (h : P st)
    (hr : fireFutures qlens (runCB env) l st = .ok st') : P st' := by
  induction l generalizing st with
  | nil => simp [fireFutures] at hr; exact hr ▸ h
  | cons c r ih =>
    simp only [fireFutures, bind_ok_iff] at hr
    obtain ⟨s1, h1, h2⟩ := hr
    exact ih (runCallbacks_preserves hq hrun (hq _ _ h) h1) h2

theorem fireTaskSets_preserves {l : List Nat} (h : P st)
    (hr : fireTaskSets qlens (runCB env) l st = .ok st') : P st' := by
  induction l generalizing st with
  | nil => simp [fireTaskSets] at hr; exact hr ▸ h
  | cons c r ih =>
    simp only [fireTaskSets, bind_ok_iff] at hr
    obtain ⟨s1, h1, h2⟩ := hr
    exact ih (hq _ _ (runCallbacks_preserves hq hrun (hq _ _ h) h1)) h2

theorem drains_preserves {r : Except Err St} (h : P st) (hr : Drains qlens (runCB env) st r)
    (he : r = .ok st') : P st' := by
  induction hr with
  | stop => cases he; exact h
  | fail => simp at he
  | next _ hf _ ih => exact ih (fireTaskSets_preserves hq hrun h hf) he

theorem progresses_preserves {done : List Nat} (h : P st)
    (hr : Progresses qlens (runCB env) done st (.ok st')) : P st' := by
  cases hr with
  | ok hf hd => exact drains_preserves hq hrun (fireFutures_preserves hq hrun (hq _ _ h) hf) hd rfl

end

end Hiku
