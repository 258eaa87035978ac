import Verif.Model.Query
import Mathlib.Data.List.Forall2

/-! Helper lemmas on `Except` and an induction principle for queries. -/

namespace Hiku

theorem bind_ok_iff {ε α β : Type} {x : Except ε α} {f : α → Except ε β} {b : β} :
    (x >>= f) = .ok b ↔ ∃ a, x = .ok a ∧ f a = .ok b := by
  cases x <;> simp [bind, Except.bind]

theorem bind_error_iff {ε α β : Type} {x : Except ε α} {f : α → Except ε β} {e : ε} :
    (x >>= f) = .error e ↔ x = .error e ∨ ∃ a, x = .ok a ∧ f a = .error e := by
  cases x <;> simp [bind, Except.bind]

@[simp] theorem ok_bind' {ε α β : Type} {a : α} {f : α → Except ε β} :
    ((Except.ok a : Except ε α) >>= f) = f a := rfl
@[simp] theorem error_bind' {ε α β : Type} {e : ε} {f : α → Except ε β} :
    ((Except.error e : Except ε α) >>= f) = .error e := rfl
@[simp] theorem pure_eq_ok {ε α : Type} {a : α} : (pure a : Except ε α) = .ok a := rfl

/-- `mapM` in `Except` succeeds iff it succeeds pointwise -/
theorem mapM_ok_iff {ε α β : Type} {f : α → Except ε β} {l : List α} {r : List β} :
    l.mapM f = .ok r ↔ List.Forall₂ (fun a b => f a = .ok b) l r := by
  induction l generalizing r with
  | nil => cases r <;> simp [List.mapM_nil]
  | cons a l ih =>
    rw [List.mapM_cons, bind_ok_iff]
    constructor
    · rintro ⟨b, hb, h⟩
      rw [bind_ok_iff] at h
      obtain ⟨bs, hbs, h⟩ := h
      simp at h
      subst h
      exact .cons hb (ih.1 hbs)
    · intro h
      cases h with
      | cons hb hr => exact ⟨_, hb, bind_ok_iff.2 ⟨_, ih.2 hr, rfl⟩⟩

theorem mapM_some_iff {α β : Type} {f : α → Option β} {l : List α} {r : List β} :
    l.mapM f = some r ↔ List.Forall₂ (fun a b => f a = some b) l r := by
  induction l generalizing r with
  | nil => cases r <;> simp [List.mapM_nil]
  | cons a l ih =>
    rw [List.mapM_cons]
    constructor
    · intro h
      simp only [Option.bind_eq_bind, Option.bind_eq_some_iff] at h
      obtain ⟨b, hb, bs, hbs, h⟩ := h
      simp at h
      subst h
      exact .cons hb (ih.1 hbs)
    · intro h
      cases h with
      | cons hb hr => simp [hb, ih.2 hr]

theorem QNode.ind {P : QNode → Prop}
    (h : ∀ fs ord, (∀ n q o a, QItem.link n q o a ∈ fs → P q) → P (.mk fs ord)) : ∀ q, P q := by
  intro q
  induction hn : sizeOf q using Nat.strongRecOn generalizing q with
  | ind k ih =>
    subst hn
    obtain ⟨fs, ord⟩ := q
    apply h
    intro n q o a hm
    have := List.sizeOf_lt_of_mem hm
    exact ih (sizeOf q) (by simp at this ⊢; omega) q rfl

end Hiku
