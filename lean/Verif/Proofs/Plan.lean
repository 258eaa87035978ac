import Verif.Spec.Ordered
import Verif.Proofs.Basic

/-! `GroupQuery` computes the plan of an ordered node. -/

namespace Hiku

variable {gn : GNode}

def Adj (steps : List Step) : Prop :=
  ∀ pre k a k' b post, steps = pre ++ .fields k a :: .fields k' b :: post → k ≠ k'

theorem Adj.snoc {steps : List Step} {s : Step} (h : Adj steps)
    (hl : ∀ pre k a k' b, steps = pre ++ [.fields k a] → s = .fields k' b → k ≠ k') : Adj (steps ++ [s]) := by
  intro pre k a k' b post e
  rcases List.eq_nil_or_concat post with rfl | ⟨post', x, rfl⟩
  · have e : steps ++ [s] = (pre ++ [.fields k a]) ++ [.fields k' b] := by simpa using e
    obtain ⟨e1, e2⟩ := List.append_inj' e rfl
    exact hl pre k a k' b e1 (by simpa using e2)
  · have e : steps ++ [s] = (pre ++ .fields k a :: .fields k' b :: post') ++ [x] := by simpa using e
    obtain ⟨e1, e2⟩ := List.append_inj' e rfl
    exact h pre k a k' b post' e1

theorem Adj.init {steps : List Step} {s : Step} (h : Adj (steps ++ [s])) : Adj steps := by
  intro pre k a k' b post e
  exact h pre k a k' b (post ++ [s]) (by rw [e]; simp)

structure PlanAcc (gn : GNode) (done : List QItem) (steps : List Step) (cur : Option FKey) : Prop where
  order : steps.flatMap Step.queryItems = done
  fields : ∀ k its, Step.fields k its ∈ steps → its ≠ [] ∧
    ∀ x ∈ its, ∃ gi, gn.get x.2.name = some gi ∧ gi.funcKey = k
  link : ∀ gl ql, Step.link gl ql ∈ steps → gn.get ql.name = some (.link gl)
  adjacent : Adj steps
  curSome : ∀ k, cur = some k → ∃ l its, steps = l ++ [.fields k its]
  curNone : cur = none → steps = [] ∨ ∃ l gl ql, steps = l ++ [.link gl ql]

theorem PlanAcc.field {done : List QItem} {steps : List Step} {cur : Option FKey} (h : PlanAcc gn done steps cur)
    {k : FKey} {gi : GItem} {q : QItem} (hg : gn.get q.name = some gi) (hk : gi.funcKey = k) :
    PlanAcc gn (done ++ [q]) (groupField steps cur k gi q) (some k) := by
  by_cases hc : cur = some k
  · obtain ⟨l, its, rfl⟩ := h.curSome k hc
    have e : groupField (l ++ [.fields k its]) cur k gi q = l ++ [.fields k (its ++ [(gi, q)])] := by
      simp [groupField, hc]
    rw [e]
    refine ⟨?_, ?_, ?_, ?_, ?_, by simp⟩
    · have := h.order
      simp [Step.queryItems] at this ⊢
      rw [← this]; simp
    · intro k' its' hm
      simp only [List.mem_append, List.mem_singleton] at hm
      rcases hm with hm | hm
      · exact h.fields k' its' (by simp [hm])
      · cases hm
        refine ⟨by simp, ?_⟩
        intro x hx
        rcases List.mem_append.1 hx with hx | hx
        · exact (h.fields k its (by simp)).2 x hx
        · simp only [List.mem_singleton] at hx; subst hx; exact ⟨gi, hg, hk⟩
    · intro gl ql hm
      simp only [List.mem_append, List.mem_singleton] at hm
      rcases hm with hm | hm
      · exact h.link gl ql (by simp [hm])
      · cases hm
    · refine h.adjacent.init.snoc ?_
      intro pre k1 a k2 b e1 e2
      cases e2
      exact h.adjacent pre k1 a k its [] (by rw [e1]; simp)
    · intro k' hk'
      cases hk'
      exact ⟨_, _, rfl⟩
  · have e : groupField steps cur k gi q = steps ++ [.fields k [(gi, q)]] := by
      simp [groupField, hc]
    rw [e]
    refine ⟨?_, ?_, ?_, ?_, ?_, by simp⟩
    · have := h.order
      simp [Step.queryItems]
      rw [← this]
    · intro k' its' hm
      simp only [List.mem_append, List.mem_singleton] at hm
      rcases hm with hm | hm
      · exact h.fields k' its' hm
      · cases hm
        refine ⟨by simp, ?_⟩
        intro x hx
        simp only [List.mem_singleton] at hx; subst hx; exact ⟨gi, hg, hk⟩
    · intro gl ql hm
      simp only [List.mem_append, List.mem_singleton] at hm
      rcases hm with hm | hm
      · exact h.link gl ql hm
      · cases hm
    · refine h.adjacent.snoc ?_
      intro pre k1 a k2 b e1 e2
      cases e2
      intro hkk
      subst hkk
      cases cur with
      | none =>
        rcases h.curNone rfl with hn | ⟨l, gl, ql, hn⟩
        · rw [hn] at e1; simp at e1
        · rw [hn] at e1
          have := (List.append_inj' e1 rfl).2
          simp at this
      | some k' =>
        obtain ⟨l, its, hn⟩ := h.curSome k' rfl
        rw [hn] at e1
        have := (List.append_inj' e1 rfl).2
        simp at this
        exact hc (by rw [this.1])
    · intro k' hk'
      cases hk'
      exact ⟨_, _, rfl⟩

theorem PlanAcc.addLink {done : List QItem} {steps : List Step} {cur : Option FKey} (h : PlanAcc gn done steps cur)
    {gl : GLink} {q : QItem} (hg : gn.get q.name = some (.link gl)) :
    PlanAcc gn (done ++ [q]) (steps ++ [.link gl q]) none := by
  refine ⟨?_, ?_, ?_, ?_, by simp, fun _ => .inr ⟨_, _, _, rfl⟩⟩
  · have := h.order
    simp [Step.queryItems]
    rw [← this]
  · intro k' its' hm
    simp only [List.mem_append, List.mem_singleton] at hm
    rcases hm with hm | hm
    · exact h.fields k' its' hm
    · cases hm
  · intro gl ql hm
    simp only [List.mem_append, List.mem_singleton] at hm
    rcases hm with hm | hm
    · exact h.link gl ql hm
    · cases hm; exact hg
  · exact h.adjacent.snoc (by intro _ _ _ _ _ _ e; cases e)

theorem splitField_plan {n : String} {q : QItem} {x : FKey × GItem × QItem} (h : splitField gn n q = .ok x) :
    gn.get n = some x.2.1 ∧ x.2.1.funcKey = x.1 ∧ x.2.2 = q := by
  unfold splitField at h
  cases hg : gn.get n with
  | none => simp [hg] at h
  | some gi =>
    cases gi with
    | field gf => simp [hg] at h; subst h; exact ⟨rfl, rfl, rfl⟩
    | link gl => simp [hg] at h; subst h; exact ⟨rfl, rfl, rfl⟩

theorem groupItems_acc {l done : List QItem} {steps steps' : List Step} {cur : Option FKey}
    (h : PlanAcc gn done steps cur) (he : groupItems gn steps cur l = .ok steps') :
    ∃ cur', PlanAcc gn (done ++ expand gn l) steps' cur' := by
  induction l generalizing done steps cur with
  | nil => simp [groupItems] at he; subst he; exact ⟨cur, by simpa [expand] using h⟩
  | cons i r ih =>
    cases i with
    | field n o a =>
      simp only [groupItems, bind_ok_iff] at he
      obtain ⟨⟨k, gi, q⟩, h1, h2⟩ := he
      obtain ⟨e1, e2, e3⟩ := splitField_plan h1
      simp only at e1 e2 e3
      subst e3
      obtain ⟨cur', h3⟩ := ih (h.field (q := .field n o a) e1 e2) h2
      exact ⟨cur', by simpa [expand] using h3⟩
    | link n q o a =>
      simp only [groupItems] at he
      cases hg : gn.get n with
      | none => simp [hg] at he
      | some gi =>
        cases gi with
        | field gf => simp [hg] at he
        | link gl =>
          simp only [hg, bind_ok_iff] at he
          obtain ⟨s1, h1, h2⟩ := he
          by_cases hr : gl.reqTruthy = true
          · simp only [hr, if_true, bind_ok_iff] at h1
            obtain ⟨⟨k, gi, q'⟩, h3, h4⟩ := h1
            obtain ⟨e1, e2, e3⟩ := splitField_plan h3
            simp only at e1 e2 e3
            subst e3
            simp [pure, Except.pure] at h4; subst h4
            obtain ⟨cur', h5⟩ := ih ((h.field (q := .field (gl.requires.getD "") none none) e1 e2).addLink
              (q := .link n q o a) hg) h2
            exact ⟨cur', by simpa [expand, hg, hr] using h5⟩
          · simp only [hr] at h1
            simp [pure, Except.pure] at h1; subst h1
            obtain ⟨cur', h5⟩ := ih (h.addLink (q := .link n q o a) hg) h2
            exact ⟨cur', by simpa [expand, hg, hr] using h5⟩

theorem groupItems_plan {l : List QItem} {steps : List Step} (he : groupItems gn [] none l = .ok steps) :
    IsPlan gn l steps := by
  obtain ⟨_, h⟩ := groupItems_acc (done := []) ⟨rfl, by simp, by simp, by
    intro pre k a k' b post e; simp at e, by simp, fun _ => .inl rfl⟩ he
  exact ⟨by simpa using h.order, h.fields, h.link, h.adjacent⟩

end Hiku
