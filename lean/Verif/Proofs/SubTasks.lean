import Verif.Proofs.EngineQueue

/-! The tasks of a sub-query are submitted to the task set of the sub-query or to task sets forked from it -/

namespace Hiku

/-- the task set `b` is `a`, or was forked from it, directly or not -/
inductive Under (q : Queue CB) (a : Nat) : Nat → Prop
  | self : Under q a a
  | fork {p d : Nat} {l : List Nat} : Under q a p → dget q.forks p = some l → d ∈ l → Under q a d

def Grows (q q' : Queue CB) : Prop := ∀ x l, dget q.forks x = some l → ∃ l', dget q'.forks x = some l' ∧ ∀ y ∈ l, y ∈ l'

theorem Under.grow {q q' : Queue CB} {a b : Nat} (h : Under q a b) (hg : Grows q q') : Under q' a b := by
  induction h with
  | self => exact .self
  | fork _ h1 h2 ih =>
    obtain ⟨l', e1, e2⟩ := hg _ _ h1
    exact .fork ih e1 (e2 _ h2)

theorem fork_grows {q q' : Queue CB} {p t : Nat} (h : Tree q) (hf : q.fork (some p) = .ok (q', t)) :
    Grows q q' ∧ ∃ l, dget q'.forks p = some l ∧ t ∈ l := by
  have hnk : dget q.forks q.nextTs = none := by
    cases e : dget q.forks q.nextTs with
    | none => rfl
    | some l =>
      obtain ⟨s, hs⟩ := Option.isSome_iff_exists.1 ((h.keys q.nextTs).2 (by simp [e]))
      have := h.lt _ _ hs; omega
  simp only [Queue.fork] at hf
  split at hf
  · simp at hf
  · rename_i s hs
    simp at hf
    obtain ⟨rfl, rfl⟩ := hf
    refine ⟨?_, s ++ [q.nextTs], by simp [dget_dset], by simp⟩
    intro x l hl
    simp only [dget_dset] at hs ⊢
    by_cases e : p = x
    · subst e
      rw [if_pos rfl]
      refine ⟨_, rfl, fun y hy => ?_⟩
      split at hs
      · rename_i e'; rw [← e', hnk] at hl; cases hl
      · rw [hs] at hl; cases hl; simp [hy]
    · rw [if_neg e]
      split
      · rename_i e'; rw [← e', hnk] at hl; cases hl
      · exact ⟨l, hl, fun y hy => hy⟩

/-- workflows from number `w0` on, and calls from number `n0` of the log on, belong to the task set `dep` -/
structure Within (dep w0 n0 : Nat) (st : St) : Prop where
  tree : Tree st.q
  len : w0 ≤ st.wfs.length
  wfs : ∀ i wf, w0 ≤ i → st.wfs[i]? = some wf → Under st.q dep wf.ts
  calls : ∀ s, Ev.call s ∈ st.log.drop n0 → Under st.q dep s.ts
  log : n0 ≤ st.log.length

section
variable {env : Env} {dep w0 n0 : Nat} {st st' : St} {w : Nat} {sub : SubCall}

theorem Within.addCB (h : Within dep w0 n0 st) (o : Obj) (cb : CB) : Within dep w0 n0 (addCB o cb st) where
  tree := tree_closed.add o cb h.tree
  len := h.len
  wfs := fun i wf hi hw => (h.wfs i wf hi hw).grow fun x l hl => ⟨l, hl, fun _ hy => hy⟩
  calls := fun s hs => (h.calls s hs).grow fun x l hl => ⟨l, hl, fun _ hy => hy⟩
  log := h.log

theorem Within.submit (h : Within dep w0 n0 st) (hw : w0 ≤ w) {nd : Option String} {f : PFunc} {args : List Arg} {fut : Nat}
    (hs : submitCall env w nd f args st = .ok (st', fut)) : Within dep w0 n0 st' := by
  simp only [submitCall] at hs
  split at hs
  · simp at hs
  · rename_i wf hwf
    split at hs
    · simp at hs
    split at hs
    · simp at hs
    · rename_i q' hq
      simp at hs; obtain ⟨rfl, _⟩ := hs
      have hg : Grows st.q q' := by
        obtain ⟨s, _, rfl⟩ := Queue.submit_ok hq
        exact fun x l hl => ⟨l, hl, fun _ hy => hy⟩
      refine ⟨tree_closed.submit h.tree hq, h.len, fun i v hi hv => (h.wfs i v hi hv).grow hg, ?_, ?_⟩
      · intro s hs
        simp only [List.drop_append, List.mem_append] at hs
        rcases hs with hs | hs
        · exact (h.calls s hs).grow hg
        · have := List.mem_of_mem_drop hs
          simp at this; subst this
          exact (h.wfs w wf hw hwf).grow hg
      · have := h.log
        simp; omega

def SubWithin (dep w0 n0 : Nat) (sub : SubCall) : Prop :=
  ∀ sg items ids ts st st' src, sub sg items ids ts st = .ok (st', src) → Within dep w0 n0 st → Under st.q dep ts →
    Within dep w0 n0 st'

variable (hsub : SubWithin dep w0 n0 sub)

include hsub in
theorem Within.scheduleFields (h : Within dep w0 n0 st) (hw : w0 ≤ w) {node : GNode} {k : FKey}
    {items : List (GItem × QItem)} {ids : Option (List Val)} {o : Obj}
    (hs : scheduleFields env sub w node k items ids st = .ok (st', o)) : Within dep w0 n0 st' := by
  unfold Hiku.scheduleFields at hs
  cases k with
  | sub sg =>
    cases ids with
    | none => simp at hs
    | some ids =>
      simp only at hs
      split at hs
      · simp at hs
      · rename_i wf hwf
        simp only [bind_ok_iff] at hs
        obtain ⟨⟨q', d⟩, hf, ⟨s1, src⟩, h1, hs⟩ := hs
        simp at hs; obtain ⟨rfl, _⟩ := hs
        obtain ⟨hg, l, hl, hm⟩ := fork_grows h.tree hf
        refine Within.addCB (hsub _ _ _ _ _ _ _ h1 ⟨tree_closed.fork h.tree hf, h.len, fun i v hi hv => (h.wfs i v hi hv).grow hg,
          fun s hs => (h.calls s hs).grow hg, h.log⟩ ?_) _ _
        exact .fork ((h.wfs w wf hw hwf).grow hg) hl hm
  | plain f =>
    simp only [bind_ok_iff] at hs
    obtain ⟨⟨st1, fut⟩, h1, hs⟩ := hs
    simp at hs; obtain ⟨rfl, _⟩ := hs
    exact (h.submit hw h1).addCB _ _

theorem Within.scheduleLink (h : Within dep w0 n0 st) (hw : w0 ≤ w) {node : GNode} {gl : GLink} {ql : QItem}
    {ids : Option (List Val)} {o : Obj}
    (hs : scheduleLink env w node gl ql ids st = .ok (st', o)) : Within dep w0 n0 st' := by
  simp only [Hiku.scheduleLink] at hs
  split at hs
  · simp at hs
  · simp only [bind_ok_iff] at hs
    obtain ⟨_, _, ⟨st1, fut⟩, h1, hs⟩ := hs
    simp at hs; obtain ⟨rfl, _⟩ := hs
    exact (h.submit hw h1).addCB _ _

include hsub in
theorem Within.runSteps (h : Within dep w0 n0 st) (hw : w0 ≤ w) {node : GNode} {ids : Option (List Val)} {steps : List Step}
    (hs : runSteps env sub w node ids steps st = .ok st') : Within dep w0 n0 st' := by
  cases steps with
  | nil => simp [Hiku.runSteps] at hs; subst hs; exact h
  | cons s r =>
    simp only [Hiku.runSteps, bind_ok_iff] at hs
    obtain ⟨⟨st1, o⟩, h1, hs⟩ := hs
    have : Within dep w0 n0 st1 := by
      cases s with
      | fields k items => exact h.scheduleFields hsub hw h1
      | link gl ql => exact h.scheduleLink hw h1
    simp at hs
    split at hs
    · subst hs; exact this
    · subst hs; exact this.addCB _ _

include hsub in
theorem Within.scheduleGroups (h : Within dep w0 n0 st) (hw : w0 ≤ w) {node : GNode} {ids : Option (List Val)}
    {gs : List (FKey × List (GItem × QItem))} {d : List (FKey × Obj)}
    (hs : scheduleGroups env sub w node ids gs st = .ok (st', d)) : Within dep w0 n0 st' := by
  induction gs generalizing st st' d with
  | nil => simp [Hiku.scheduleGroups] at hs; rw [← hs.1]; exact h
  | cons x r ih =>
    simp only [Hiku.scheduleGroups, bind_ok_iff] at hs
    obtain ⟨⟨s1, o⟩, h1, ⟨s2, d'⟩, hr, hs⟩ := hs
    simp at hs; obtain ⟨rfl, _⟩ := hs
    exact ih (h.scheduleFields hsub hw h1) hr

theorem Within.scheduleLinks (h : Within dep w0 n0 st) (hw : w0 ≤ w) {node : GNode} {ids : Option (List Val)} {tf td}
    {ls : List (GLink × QItem)}
    (hs : scheduleLinks env w node ids tf td ls st = .ok st') : Within dep w0 n0 st' := by
  induction ls generalizing st st' with
  | nil => simp [Hiku.scheduleLinks] at hs; rw [← hs]; exact h
  | cons x r ih =>
    simp only [Hiku.scheduleLinks] at hs
    split at hs
    · split at hs
      · simp at hs
      · split at hs
        · simp at hs
        · exact ih (h.addCB _ _) hs
    · simp only [bind_ok_iff] at hs
      obtain ⟨⟨s1, o⟩, h1, hs⟩ := hs
      exact ih (h.scheduleLink hw h1) hs

include hsub in
theorem Within.processNode (h : Within dep w0 n0 st) (hw : w0 ≤ w) {node : GNode} {q : QNode} {ids : Option (List Val)}
    (hs : processNode env sub w node q ids st = .ok st') : Within dep w0 n0 st' := by
  unfold Hiku.processNode at hs
  by_cases ho : q.ordered = true
  · rw [if_pos ho] at hs
    simp only [bind_ok_iff] at hs
    obtain ⟨steps, _, hs⟩ := hs
    exact h.runSteps hsub hw hs
  · rw [if_neg ho] at hs
    simp only [bind_ok_iff] at hs
    obtain ⟨⟨fields, links⟩, _, ⟨st1, toDep⟩, hg, hs⟩ := hs
    exact (h.scheduleGroups hsub hw hg).scheduleLinks hw hs

theorem Within.setIndex (h : Within dep w0 n0 st) (idx : Index) : Within dep w0 n0 (setIndex w idx st) where
  tree := h.tree
  len := by simpa [Hiku.setIndex] using h.len
  wfs := by
    intro i wf hi hw
    simp only [Hiku.setIndex, List.getElem?_modify] at hw
    cases e : st.wfs[i]? with
    | none => simp [e] at hw
    | some v =>
      have := h.wfs i v hi e
      rw [e] at hw
      split at hw <;> (cases hw; exact this)
  calls := h.calls
  log := h.log

include hsub in
theorem Within.processLink (h : Within dep w0 n0 st) (hw : w0 ≤ w) {node : GNode} {gl : GLink} {ql : QItem}
    {ids : Option (List Val)} {v : Val}
    (hs : processLink env sub w node gl ql ids v st = .ok st') : Within dep w0 n0 st' := by
  unfold Hiku.processLink at hs
  split at hs
  · simp at hs
  · simp only [bind_ok_iff] at hs
    obtain ⟨idx, _, toIds, _, hs⟩ := hs
    split at hs
    · simp at hs; subst hs; exact h.setIndex idx
    · split at hs
      · simp at hs
      · split at hs
        · simp at hs
        · simp at hs
        · exact (h.setIndex idx).processNode hsub hw hs
end

theorem subCall_within {env : Env} {dep w0 n0 : Nat} : ∀ n, SubWithin dep w0 n0 (subCall env n)
  | 0 => by intro sg items ids ts st st' src h; simp [subCall] at h
  | n + 1 => by
    intro sg items ids ts st st' src h hw hu
    simp only [subCall, subGraphCall] at h
    split at h
    · simp at h
    split at h
    · simp at h
    simp only [bind_ok_iff] at h
    obtain ⟨ch, _, opts, _, h⟩ := h
    split at h
    · simp at h
    simp only [bind_ok_iff] at h
    obtain ⟨s1, h1, s2, h2, h⟩ := h
    simp at h; obtain ⟨rfl, _⟩ := h
    have hlen := hw.len
    refine Within.processNode (subCall_within n) (Within.processLink (subCall_within n) ?_ hlen h1) hlen h2
    refine ⟨hw.tree, ?_, ?_, hw.calls, hw.log⟩
    · simp only [List.length_append]; omega
    intro i wf hi hwf
    rw [List.getElem?_append] at hwf
    split at hwf
    · exact hw.wfs i wf hi hwf
    · rw [List.getElem?_singleton] at hwf
      split at hwf
      · cases hwf; exact hu
      · simp at hwf

end Hiku
