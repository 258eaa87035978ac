import Verif.Proofs.Loop

/-! Everything the engine does to its state is: submitting a task, forking a task set, adding a callback,
changing the index of a workflow and adding a workflow. -/

namespace Hiku
namespace StOp

/-- the second index is what storing some result in the first one gives -/
def Stored (env : Env) (i i' : Index) : Prop :=
  (∃ node qfs ids r, storeFields env.H i node qfs ids r = .ok i') ∨ (∃ node gl ql ids r, storeLinks env.H i node gl ql ids r = .ok i')

/-- a property of states which the operations available to the engine preserve -/
structure StClosed (env : Env) (P : St → Prop) : Prop where
  submit : ∀ {w nd f args st st' fut}, submitCall env w nd f args st = .ok (st', fut) → P st → P st'
  fork : ∀ {st : St} {q' p t}, st.q.fork (some p) = .ok (q', t) → P st → P { st with q := q' }
  add : ∀ {st : St} (o : Obj) (cb : CB), P st → P (addCB o cb st)
  idx : ∀ {st : St} (w : Nat) {wf : Wf} (i : Index), st.wfs[w]? = some wf → Stored env wf.index i → P st → P (setIndex w i st)
  wf : ∀ {st : St} (wf : Wf), wf.index = [] → P st → P { st with wfs := st.wfs ++ [wf] }

section
variable {env : Env} {P : St → Prop} (hP : StClosed env P)
include hP

/-- the implementation of sub-graphs preserves the property -/
def SubSt (P : St → Prop) (sub : SubCall) : Prop :=
  ∀ {sg items ids ts st st' src}, sub sg items ids ts st = .ok (st', src) → P st → P st'

variable {sub : SubCall} (hs : SubSt P sub)

include hs in
theorem st_scheduleFields {w : Nat} {gn : GNode} {k : FKey} {items : List (GItem × QItem)}
    {ids : Option (List Val)} {st st' : St} {o : Obj}
    (h : scheduleFields env sub w gn k items ids st = .ok (st', o)) (hp : P st) : P st' := by
  unfold scheduleFields at h
  cases k with
  | sub sg =>
    cases ids with
    | none => simp at h
    | some ids =>
      simp only at h
      split at h
      · simp at h
      · simp only [bind_ok_iff] at h
        obtain ⟨⟨q', dep⟩, hf, ⟨s1, src⟩, h1, h⟩ := h
        simp at h; obtain ⟨rfl, _⟩ := h
        exact hP.add _ _ (hs h1 (hP.fork hf hp))
  | plain f =>
    simp only [bind_ok_iff] at h
    obtain ⟨⟨st1, fut⟩, h1, h⟩ := h
    simp at h; obtain ⟨rfl, _⟩ := h
    exact hP.add _ _ (hP.submit h1 hp)

theorem st_scheduleLink {w : Nat} {gn : GNode} {gl : GLink} {ql : QItem} {ids : Option (List Val)}
    {st st' : St} {o : Obj}
    (h : scheduleLink env w gn gl ql ids st = .ok (st', o)) (hp : P st) : P st' := by
  simp only [scheduleLink] at h
  split at h
  · simp at h
  · simp only [bind_ok_iff] at h
    obtain ⟨_, _, ⟨st1, fut⟩, h1, h⟩ := h
    simp at h; obtain ⟨rfl, _⟩ := h
    exact hP.add _ _ (hP.submit h1 hp)

include hs in
theorem st_runSteps {w : Nat} {gn : GNode} {ids : Option (List Val)} {steps : List Step} {st st' : St}
    (h : runSteps env sub w gn ids steps st = .ok st') (hp : P st) : P st' := by
  cases steps with
  | nil => simp [runSteps] at h; subst h; exact hp
  | cons s r =>
    simp only [runSteps, bind_ok_iff] at h
    obtain ⟨⟨st1, o⟩, h1, h⟩ := h
    have : P st1 := by
      cases s with
      | fields k items => exact st_scheduleFields hP hs h1 hp
      | link gl ql => exact st_scheduleLink hP h1 hp
    simp at h
    split at h
    · subst h; exact this
    · subst h; exact hP.add _ _ this

include hs in
theorem st_scheduleGroups {w : Nat} {gn : GNode} {ids : Option (List Val)}
    {gs : List (FKey × List (GItem × QItem))} {st st' : St} {d : List (FKey × Obj)}
    (h : scheduleGroups env sub w gn ids gs st = .ok (st', d)) (hp : P st) : P st' := by
  induction gs generalizing st st' d with
  | nil => simp [scheduleGroups] at h; rw [← h.1]; exact hp
  | cons x r ih =>
    simp only [scheduleGroups, bind_ok_iff] at h
    obtain ⟨⟨s1, o⟩, h1, ⟨s2, d'⟩, hr, h⟩ := h
    simp at h; obtain ⟨rfl, _⟩ := h
    exact ih hr (st_scheduleFields hP hs h1 hp)

theorem st_scheduleLinks {w : Nat} {gn : GNode} {ids : Option (List Val)} {tf td}
    {ls : List (GLink × QItem)} {st st' : St}
    (h : scheduleLinks env w gn ids tf td ls st = .ok st') (hp : P st) : P st' := by
  induction ls generalizing st st' with
  | nil => simp [scheduleLinks] at h; rw [← h]; exact hp
  | cons x r ih =>
    simp only [scheduleLinks] at h
    split at h
    · split at h
      · simp at h
      · split at h
        · simp at h
        · exact ih h (hP.add _ _ hp)
    · simp only [bind_ok_iff] at h
      obtain ⟨⟨s1, o⟩, h1, h⟩ := h
      exact ih h (st_scheduleLink hP h1 hp)

include hs in
theorem st_processNode {w : Nat} {gn : GNode} {q : QNode} {ids : Option (List Val)} {st st' : St}
    (h : processNode env sub w gn q ids st = .ok st') (hp : P st) : P st' := by
  unfold processNode at h
  by_cases ho : q.ordered = true
  · rw [if_pos ho] at h
    simp only [bind_ok_iff] at h
    obtain ⟨steps, _, h⟩ := h
    exact st_runSteps hP hs h hp
  · rw [if_neg ho] at h
    simp only [bind_ok_iff] at h
    obtain ⟨⟨fields, links⟩, _, ⟨st1, toDep⟩, hg, h⟩ := h
    exact st_scheduleLinks hP h (st_scheduleGroups hP hs hg hp)

include hs in
theorem st_processLink {w : Nat} {gn : GNode} {gl : GLink} {ql : QItem} {ids : Option (List Val)} {v : Val}
    {st st' : St} (h : processLink env sub w gn gl ql ids v st = .ok st') (hp : P st) : P st' := by
  unfold processLink at h
  split at h
  · simp at h
  · simp only [bind_ok_iff] at h
    rename_i wf hw
    obtain ⟨idx, hst, toIds, _, h⟩ := h
    have hp := hP.idx w idx hw (.inr ⟨_, _, _, _, _, hst⟩) hp
    split at h
    · simp at h; subst h; exact hp
    · split at h
      · simp at h
      · split at h
        · simp at h
        · simp at h
        · exact st_processNode hP hs h hp

theorem st_subCall (n : Nat) : SubSt P (subCall env n) := by
  induction n with
  | zero => intro sg items ids ts st st' src h; simp [subCall] at h
  | succ n ih =>
    intro sg items ids ts st st' src h hp
    simp only [subCall, subGraphCall] at h
    split at h
    · simp at h
    split at h
    · simp at h
    simp only [bind_ok_iff] at h
    obtain ⟨ch, _, opts, _, h⟩ := h
    split at h
    · simp at h
    simp only [bind_ok_iff] at h
    obtain ⟨s1, h1, s2, h2, h⟩ := h
    simp at h; obtain ⟨rfl, _⟩ := h
    exact st_processNode hP ih h2 (st_processLink hP ih h1 (hP.wf _ rfl hp))

theorem st_runCB {cb : CB} {st st' : St} (h : runCB env cb st = .ok st') (hp : P st) : P st' := by
  cases cb with
  | store w node qfs ids src =>
    simp only [runCB, bind_ok_iff] at h
    obtain ⟨_, _, h⟩ := h
    split at h
    · simp at h
    · simp only [bind_ok_iff] at h
      rename_i wf hw
      obtain ⟨idx, hst, h⟩ := h
      simp at h; subst h; exact hP.idx w idx hw (.inl ⟨_, _, _, _, hst⟩) hp
  | schedLink w node gl ql ids =>
    simp only [runCB, bind_ok_iff] at h
    obtain ⟨⟨s1, o⟩, h1, h⟩ := h
    simp at h; subst h
    exact st_scheduleLink hP h1 hp
  | procLink w node gl ql ids fut =>
    simp only [runCB, bind_ok_iff] at h
    obtain ⟨v, _, h⟩ := h
    exact st_processLink hP (st_subCall hP _) h hp
  | procSteps w node ids steps => exact st_runSteps hP (st_subCall hP _) h hp

theorem st_runCallbacks {l : List CB} {st st' : St} (h : runCallbacks (runCB env) l st = .ok st')
    (hp : P st) : P st' := by
  induction l generalizing st with
  | nil => simp [runCallbacks] at h; subst h; exact hp
  | cons c r ih =>
    simp only [runCallbacks, bind_ok_iff] at h
    obtain ⟨s1, h1, h2⟩ := h
    exact ih h2 (st_runCB hP h1 hp)

end


/-! ### rounds of the executor -/

section
variable {env : Env} {P : St → Prop} (hP : StClosed env P)
  (hpop : ∀ {st : St} (o : Obj), P st → P { st with q := (st.q.popCallbacks o).2 })
  (hrem : ∀ {st : St} (t : Nat), P st → P { st with q := st.q.removeTs t })
include hP hpop

theorem st_fire {o : Obj} {st st' : St} (h : fireCallbacks qlens (runCB env) o st = .ok st') (hp : P st) : P st' := by
  simp only [fireCallbacks, qlens] at h
  exact st_runCallbacks hP h (hpop o hp)

theorem st_fireFutures {l : List Nat} {st st' : St} (h : fireFutures qlens (runCB env) l st = .ok st') (hp : P st) :
    P st' := by
  induction l generalizing st with
  | nil => simp [fireFutures] at h; subst h; exact hp
  | cons f r ih =>
    simp only [fireFutures, bind_ok_iff] at h
    obtain ⟨s1, h1, h2⟩ := h
    exact ih h2 (st_fire hP hpop h1 hp)

include hrem

theorem st_fireTaskSets {l : List Nat} {st st' : St} (h : fireTaskSets qlens (runCB env) l st = .ok st') (hp : P st) :
    P st' := by
  induction l generalizing st with
  | nil => simp [fireTaskSets] at h; subst h; exact hp
  | cons t r ih =>
    simp only [fireTaskSets, bind_ok_iff] at h
    obtain ⟨s1, h1, h2⟩ := h
    exact ih h2 (hrem t (st_fire hP hpop h1 hp))

theorem st_drains {st st' : St} (h : Drains qlens (runCB env) st (.ok st')) (hp : P st) : P st' := by
  generalize he : Except.ok st' = r at h
  induction h with
  | stop hc => cases he; exact hp
  | fail hc hf => simp at he
  | next hc hf _ ih => exact ih (st_fireTaskSets hP hpop hrem hf hp) he

theorem st_progresses {done : List Nat} {st st' : St} (h : Progresses qlens (runCB env) done st (.ok st'))
    (hp : P { st with q := st.q.dropDone done }) : P st' := by
  cases h with
  | ok hf hd => exact st_drains hP hpop hrem hd (st_fireFutures hP hpop hf hp)

end

end StOp
end Hiku
