import Verif.Proofs.Loop

/-! The engine changes the queue only by submitting tasks, forking task sets from existing ones and
adding callbacks. -/

namespace Hiku

/-- a property of queues which the operations available to the engine preserve -/
structure OpClosed (P : Queue CB → Prop) : Prop where
  submit : ∀ {q q' t f}, P q → q.submit t f = .ok q' → P q'
  fork : ∀ {q q' p t}, P q → q.fork (some p) = .ok (q', t) → P q'
  add : ∀ {q} (o : Obj) (cb : CB), P q → P (q.addCallback o cb)

section
variable {env : Env} {P : Queue CB → Prop} (hP : OpClosed P)
include hP

theorem op_submitCall {w : Nat} {nd : Option String} {f : PFunc} {args : List Arg} {st st' : St} {fut : Nat}
    (h : submitCall env w nd f args st = .ok (st', fut)) (hp : P st.q) : P st'.q := by
  simp only [submitCall] at h
  split at h
  · simp at h
  · split at h
    · simp at h
    split at h
    · simp at h
    · rename_i q' hq
      simp at h; obtain ⟨rfl, _⟩ := h
      exact hP.submit hp hq

/-- the implementation of sub-graphs preserves the property -/
def SubOp (P : Queue CB → Prop) (sub : SubCall) : Prop :=
  ∀ {sg items ids ts st st' src}, sub sg items ids ts st = .ok (st', src) → P st.q → P st'.q

variable {sub : SubCall} (hs : SubOp P sub)

include hs in
theorem op_scheduleFields {w : Nat} {gn : GNode} {k : FKey} {items : List (GItem × QItem)}
    {ids : Option (List Val)} {st st' : St} {o : Obj}
    (h : scheduleFields env sub w gn k items ids st = .ok (st', o)) (hp : P st.q) : P st'.q := by
  unfold scheduleFields at h
  cases k with
  | sub sg =>
    cases ids with
    | none => simp at h
    | some ids =>
      simp only at h
      split at h
      · simp at h
      · simp only [bind_ok_iff] at h
        obtain ⟨⟨q', dep⟩, hf, ⟨s1, src⟩, h1, h⟩ := h
        simp at h; obtain ⟨rfl, _⟩ := h
        exact hP.add _ _ (hs h1 (hP.fork hp hf))
  | plain f =>
    simp only [bind_ok_iff] at h
    obtain ⟨⟨st1, fut⟩, h1, h⟩ := h
    simp at h; obtain ⟨rfl, _⟩ := h
    exact hP.add _ _ (op_submitCall hP h1 hp)

theorem op_scheduleLink {w : Nat} {gn : GNode} {gl : GLink} {ql : QItem} {ids : Option (List Val)}
    {st st' : St} {o : Obj}
    (h : scheduleLink env w gn gl ql ids st = .ok (st', o)) (hp : P st.q) : P st'.q := by
  simp only [scheduleLink] at h
  split at h
  · simp at h
  · simp only [bind_ok_iff] at h
    obtain ⟨_, _, ⟨st1, fut⟩, h1, h⟩ := h
    simp at h; obtain ⟨rfl, _⟩ := h
    exact hP.add _ _ (op_submitCall hP h1 hp)

include hs in
theorem op_runSteps {w : Nat} {gn : GNode} {ids : Option (List Val)} {steps : List Step} {st st' : St}
    (h : runSteps env sub w gn ids steps st = .ok st') (hp : P st.q) : P st'.q := by
  cases steps with
  | nil => simp [runSteps] at h; subst h; exact hp
  | cons s r =>
    simp only [runSteps, bind_ok_iff] at h
    obtain ⟨⟨st1, o⟩, h1, h⟩ := h
    have : P st1.q := by
      cases s with
      | fields k items => exact op_scheduleFields hP hs h1 hp
      | link gl ql => exact op_scheduleLink hP h1 hp
    simp at h
    split at h
    · subst h; exact this
    · subst h; exact hP.add _ _ this

include hs in
theorem op_scheduleGroups {w : Nat} {gn : GNode} {ids : Option (List Val)}
    {gs : List (FKey × List (GItem × QItem))} {st st' : St} {d : List (FKey × Obj)}
    (h : scheduleGroups env sub w gn ids gs st = .ok (st', d)) (hp : P st.q) : P st'.q := by
  induction gs generalizing st st' d with
  | nil => simp [scheduleGroups] at h; rw [← h.1]; exact hp
  | cons x r ih =>
    simp only [scheduleGroups, bind_ok_iff] at h
    obtain ⟨⟨s1, o⟩, h1, ⟨s2, d'⟩, hr, h⟩ := h
    simp at h; obtain ⟨rfl, _⟩ := h
    exact ih hr (op_scheduleFields hP hs h1 hp)

theorem op_scheduleLinks {w : Nat} {gn : GNode} {ids : Option (List Val)} {tf td}
    {ls : List (GLink × QItem)} {st st' : St}
    (h : scheduleLinks env w gn ids tf td ls st = .ok st') (hp : P st.q) : P st'.q := by
  induction ls generalizing st st' with
  | nil => simp [scheduleLinks] at h; rw [← h]; exact hp
  | cons x r ih =>
    simp only [scheduleLinks] at h
    split at h
    · split at h
      · simp at h
      · split at h
        · simp at h
        · exact ih h (hP.add _ _ hp)
    · simp only [bind_ok_iff] at h
      obtain ⟨⟨s1, o⟩, h1, h⟩ := h
      exact ih h (op_scheduleLink hP h1 hp)

include hs in
theorem op_processNode {w : Nat} {gn : GNode} {q : QNode} {ids : Option (List Val)} {st st' : St}
    (h : processNode env sub w gn q ids st = .ok st') (hp : P st.q) : P st'.q := by
  unfold processNode at h
  by_cases ho : q.ordered = true
  · rw [if_pos ho] at h
    simp only [bind_ok_iff] at h
    obtain ⟨steps, _, h⟩ := h
    exact op_runSteps hP hs h hp
  · rw [if_neg ho] at h
    simp only [bind_ok_iff] at h
    obtain ⟨⟨fields, links⟩, _, ⟨st1, toDep⟩, hg, h⟩ := h
    exact op_scheduleLinks hP h (op_scheduleGroups hP hs hg hp)

include hs in
theorem op_processLink {w : Nat} {gn : GNode} {gl : GLink} {ql : QItem} {ids : Option (List Val)} {v : Val}
    {st st' : St} (h : processLink env sub w gn gl ql ids v st = .ok st') (hp : P st.q) : P st'.q := by
  unfold processLink at h
  split at h
  · simp at h
  · simp only [bind_ok_iff] at h
    obtain ⟨idx, _, toIds, _, h⟩ := h
    split at h
    · simp at h; subst h; exact hp
    · split at h
      · simp at h
      · split at h
        · simp at h
        · simp at h
        · exact op_processNode hP hs h hp

theorem op_subCall (n : Nat) : SubOp P (subCall env n) := by
  induction n with
  | zero => intro sg items ids ts st st' src h; simp [subCall] at h
  | succ n ih =>
    intro sg items ids ts st st' src h hp
    simp only [subCall, subGraphCall] at h
    split at h
    · simp at h
    split at h
    · simp at h
    simp only [bind_ok_iff] at h
    obtain ⟨ch, _, opts, _, h⟩ := h
    split at h
    · simp at h
    simp only [bind_ok_iff] at h
    obtain ⟨s1, h1, s2, h2, h⟩ := h
    simp at h; obtain ⟨rfl, _⟩ := h
    exact op_processNode hP ih h2 (op_processLink hP ih h1 hp)

theorem op_runCB {cb : CB} {st st' : St} (h : runCB env cb st = .ok st') (hp : P st.q) : P st'.q := by
  cases cb with
  | store w node qfs ids src =>
    simp only [runCB, bind_ok_iff] at h
    obtain ⟨_, _, h⟩ := h
    split at h
    · simp at h
    · simp only [bind_ok_iff] at h
      obtain ⟨idx, _, h⟩ := h
      simp at h; subst h; exact hp
  | schedLink w node gl ql ids =>
    simp only [runCB, bind_ok_iff] at h
    obtain ⟨⟨s1, o⟩, h1, h⟩ := h
    simp at h; subst h
    exact op_scheduleLink hP h1 hp
  | procLink w node gl ql ids fut =>
    simp only [runCB, bind_ok_iff] at h
    obtain ⟨v, _, h⟩ := h
    exact op_processLink hP (op_subCall hP _) h hp
  | procSteps w node ids steps => exact op_runSteps hP (op_subCall hP _) h hp

theorem op_runCallbacks {l : List CB} {st st' : St} (h : runCallbacks (runCB env) l st = .ok st')
    (hp : P st.q) : P st'.q := by
  induction l generalizing st with
  | nil => simp [runCallbacks] at h; subst h; exact hp
  | cons c r ih =>
    simp only [runCallbacks, bind_ok_iff] at h
    obtain ⟨s1, h1, h2⟩ := h
    exact ih h2 (op_runCB hP h1 hp)

end

/-! ### The task sets form a tree -/

/-- every task set in the queue, except the first one, is among the forks of one in the queue -/
structure Tree (q : Queue CB) : Prop where
  lt : ∀ t s, dget q.futures t = some s → t < q.nextTs
  keys : ∀ t, (dget q.futures t).isSome ↔ (dget q.forks t).isSome
  up : ∀ t, (dget q.futures t).isSome → t ≠ 0 → ∃ p l, dget q.forks p = some l ∧ t ∈ l

theorem tree_closed : OpClosed Tree where
  submit := by
    intro q q' t f h hq
    obtain ⟨s, hs, rfl⟩ := Queue.submit_ok hq
    refine ⟨?_, ?_, ?_⟩
    · intro t' s' h'
      simp only [dget_dset] at h'
      split at h'
      · rename_i e; subst e; exact h.lt _ _ hs
      · exact h.lt _ _ h'
    · intro t'
      simp only [dget_dset]
      split
      · rename_i e; subst e; simp [← h.keys, hs]
      · exact h.keys t'
    · intro t' h' hn
      refine h.up t' ?_ hn
      simp only [dget_dset] at h'
      split at h'
      · rename_i e; subst e; simp [hs]
      · exact h'
  fork := by
    intro q q' p t h hf
    obtain ⟨rfl, e2, _, e4, e5⟩ := Queue.fork_ok h.lt h.keys hf
    have hnk : dget q.forks q.nextTs = none := by
      cases e : dget q.forks q.nextTs with
      | none => rfl
      | some l =>
        obtain ⟨s, hs⟩ := Option.isSome_iff_exists.1 ((h.keys q.nextTs).2 (by simp [e]))
        have := h.lt _ _ hs; omega
    have hk : ∃ s, dget q'.forks p = some (s ++ [q.nextTs]) ∧
        (∀ x, x ≠ p → dget q'.forks x = if q.nextTs = x then some [] else dget q.forks x) ∧
        (∀ l, dget q.forks p = some l → l = s) := by
      rcases e5 with ⟨s, x1, x2, x3⟩ | ⟨x1, x3⟩
      · refine ⟨s, by rw [x3, dget_dset, if_pos rfl], ?_, fun l hl => by rw [x1] at hl; cases hl; rfl⟩
        intro x hx
        rw [x3, dget_dset, if_neg (Ne.symm hx), dget_dset]
      · refine ⟨[], by rw [x3, dget_dset, if_pos rfl]; rfl, ?_, ?_⟩
        · intro x hx
          rw [x3, dget_dset, if_neg (Ne.symm hx), dget_dset]
        · intro l hl; rw [x1, hnk] at hl; simp at hl
    obtain ⟨s, k1, k2, k3⟩ := hk
    have hgrow : ∀ x l, dget q.forks x = some l → ∃ l', dget q'.forks x = some l' ∧ ∀ y ∈ l, y ∈ l' := by
      intro x l hl
      by_cases e : x = p
      · subst e; refine ⟨_, k1, fun y hy => ?_⟩
        rw [← k3 l hl]; simp [hy]
      · rw [k2 x e]
        by_cases e' : q.nextTs = x
        · rw [← e', hnk] at hl; simp at hl
        · rw [if_neg e']; exact ⟨l, hl, fun y hy => hy⟩
    refine ⟨?_, ?_, ?_⟩
    · intro t s h'
      rw [e4, dget_dset] at h'
      rw [e2]
      split at h'
      · omega
      · have := h.lt _ _ h'; omega
    · intro x
      rw [e4, dget_dset]
      by_cases e' : q.nextTs = x
      · rw [if_pos e']
        by_cases e : x = p
        · rw [e, k1]; simp
        · rw [k2 x e, if_pos e']
      · rw [if_neg e']
        by_cases e : x = p
        · subst e; rw [k1]
          simp only [Option.isSome_some, iff_true]
          rcases e5 with ⟨s, x1, _⟩ | ⟨x1, _⟩
          · exact (h.keys x).2 (by simp [x1])
          · exact absurd x1.symm e'
        · rw [k2 x e, if_neg e']; exact h.keys x
    · intro x hx hn
      rw [e4, dget_dset] at hx
      by_cases e' : q.nextTs = x
      · exact ⟨p, _, k1, by simp [e']⟩
      · rw [if_neg e'] at hx
        obtain ⟨p', l, g1, g2⟩ := h.up x hx hn
        obtain ⟨l', y1, y2⟩ := hgrow _ _ g1
        exact ⟨p', l', y1, y2 _ g2⟩
  add := fun o cb h => ⟨h.lt, h.keys, h.up⟩

theorem Tree.pop {q : Queue CB} (h : Tree q) (o : Obj) : Tree (q.popCallbacks o).2 :=
  ⟨h.lt, h.keys, h.up⟩

theorem Tree.dropDone {q : Queue CB} (h : Tree q) (done : List Nat) : Tree (q.dropDone done) := by
  have hd : ∀ t, (dget (q.dropDone done).futures t).isSome ↔ (dget q.futures t).isSome := by
    intro t; rw [Queue.dget_dropDone]; simp
  refine ⟨?_, fun t => (hd t).trans (h.keys t), fun t ht hn => h.up t ((hd t).1 ht) hn⟩
  intro t s hs
  obtain ⟨s', hs'⟩ := Option.isSome_iff_exists.1 ((hd t).1 (by simp [hs]))
  exact h.lt _ _ hs'

theorem Tree.removeTs {q : Queue CB} (h : Tree q) {t : Nat} (hc : dget q.forks t = some []) :
    Tree (q.removeTs t) := by
  refine ⟨?_, ?_, ?_⟩
  · intro x s hs
    rw [Queue.dget_futures_removeTs] at hs
    split at hs
    · simp at hs
    · exact h.lt _ _ hs
  · intro x
    rw [Queue.dget_futures_removeTs, Queue.dget_forks_removeTs]
    by_cases e : t = x
    · simp [e]
    · rw [if_neg e, if_neg e]; simpa using h.keys x
  · intro x hx hn
    rw [Queue.dget_futures_removeTs] at hx
    by_cases e : t = x
    · simp [e] at hx
    · rw [if_neg e] at hx
      obtain ⟨p, l, g1, g2⟩ := h.up x hx hn
      have hp : t ≠ p := by rintro rfl; rw [hc] at g1; cases g1; simp at g2
      refine ⟨p, l.filter (· ≠ t), ?_, ?_⟩
      · rw [Queue.dget_forks_removeTs, if_neg hp, g1]; rfl
      · simp only [List.mem_filter, decide_eq_true_eq]; exact ⟨g2, Ne.symm e⟩

end Hiku
