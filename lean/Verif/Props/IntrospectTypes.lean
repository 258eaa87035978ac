import Verif.Spec.Introspection
import Verif.Proofs.Basic
import Verif.Proofs.Dict

/-! # C43: nullability of introspected types -/

namespace Hiku.Intro

theorem reported_not_nonNull (sh : Shape) (t : TId) : sh.reported ≠ .nonNull t := by
  cases sh <;> simp [Shape.reported]

theorem nullable_wrap (b : Bool) (sh : Shape) : (wrapNull b sh.reported).nullable = sh.reported := by
  cases b
  · rfl
  · simp only [wrapNull, if_true]
    cases sh <;> rfl

/-- C43: the type reported for a hiku type is exactly the GraphQL type of this type: `NON_NULL` exactly where
the value can not be null, lists for sequences. -/
theorem c43_reported {types : List (String × Ty)} {input : Bool} {t : Ty} {x : TId}
    (h : typeIdent types input t = .ok x) : ∃ sh b, Describes input t sh b ∧ x = wrapNull b sh.reported := by
  match t with
  | .any => cases h; exact ⟨_, _, .any, rfl⟩
  | .mapping k v => cases h; exact ⟨_, _, .mapping k v, rfl⟩
  | .record fs => cases h; exact ⟨_, _, .record fs, rfl⟩
  | .string => cases h; exact ⟨_, _, .string, rfl⟩
  | .integer => cases h; exact ⟨_, _, .integer, rfl⟩
  | .float => cases h; exact ⟨_, _, .float, rfl⟩
  | .boolean => cases h; exact ⟨_, _, .boolean, rfl⟩
  | .callable as => cases h
  | .ref n =>
    simp only [typeIdent] at h
    cases input with
    | false => cases h; exact ⟨_, _, .object n rfl, rfl⟩
    | true =>
      simp only [if_true] at h
      split at h
      · cases h; exact ⟨_, _, .inputObject n rfl, rfl⟩
      · cases h
  | .sequence t =>
    simp only [typeIdent, bind_ok_iff] at h
    obtain ⟨y, h1, h2⟩ := h
    cases h2
    obtain ⟨sh, b, h3, rfl⟩ := c43_reported h1
    exact ⟨_, _, .sequence h3, rfl⟩
  | .optional t =>
    simp only [typeIdent, bind_ok_iff] at h
    obtain ⟨y, h1, h2⟩ := h
    cases h2
    obtain ⟨sh, b, h3, rfl⟩ := c43_reported h1
    exact ⟨_, _, .optional h3, nullable_wrap b sh⟩

/-- every type which GraphQL can describe is reported; in the input mode its names must be data types -/
theorem c43_total {types : List (String × Ty)} {input : Bool} {t : Ty}
    (h : OkTy (fun n => input = true → (dget types n).isSome) t) : ∃ x, typeIdent types input t = .ok x := by
  match t with
  | .any => exact ⟨_, rfl⟩
  | .mapping _ _ => exact ⟨_, rfl⟩
  | .record _ => exact ⟨_, rfl⟩
  | .string => exact ⟨_, rfl⟩
  | .integer => exact ⟨_, rfl⟩
  | .float => exact ⟨_, rfl⟩
  | .boolean => exact ⟨_, rfl⟩
  | .callable as => exact h.elim
  | .ref n =>
    simp only [typeIdent]
    cases input with
    | false => exact ⟨_, rfl⟩
    | true =>
      have hd : dhas types n = true := h rfl
      simp only [if_true]
      rw [if_pos hd]
      exact ⟨_, rfl⟩
  | .sequence t =>
    obtain ⟨x, hx⟩ := c43_total (t := t) h
    simp only [typeIdent, hx]; exact ⟨_, rfl⟩
  | .optional t =>
    obtain ⟨x, hx⟩ := c43_total (t := t) h
    simp only [typeIdent, hx]; exact ⟨_, rfl⟩

/-- and no other type -/
theorem c43_refused {types : List (String × Ty)} {input : Bool} {t : Ty} {x : TId}
    (h : typeIdent types input t = .ok x) : OkTy (fun n => input = true → (dget types n).isSome) t := by
  match t with
  | .any | .mapping _ _ | .record _ | .string | .integer | .float | .boolean => trivial
  | .callable as => cases h
  | .ref n =>
    intro hi
    subst hi
    simp only [typeIdent, if_true] at h
    split at h
    · rename_i e; exact e
    · cases h
  | .sequence t =>
    simp only [typeIdent, bind_ok_iff] at h
    obtain ⟨y, h1, _⟩ := h
    exact c43_refused (t := t) h1
  | .optional t =>
    simp only [typeIdent, bind_ok_iff] at h
    obtain ⟨y, h1, _⟩ := h
    exact c43_refused (t := t) h1

/-- C43: a type is reported as non-null exactly when its values can not be null. -/
theorem c43_nonNull_iff {types : List (String × Ty)} {input : Bool} {t : Ty} {x : TId}
    (h : typeIdent types input t = .ok x) : (∃ y, x = .nonNull y) ↔ ¬ MayBeNull t := by
  obtain ⟨sh, b, h1, rfl⟩ := c43_reported h
  cases b with
  | false =>
    simp only [wrapNull, if_false, Bool.false_eq_true]
    refine ⟨fun _ => ?_, fun _ => ⟨_, rfl⟩⟩
    cases h1 <;> simp [MayBeNull]
  | true =>
    simp only [wrapNull, if_true]
    refine ⟨fun ⟨y, hy⟩ => absurd hy (reported_not_nonNull sh y), fun hn => ?_⟩
    cases h1 <;> simp [MayBeNull] at hn

theorem shape_wellFormed : (sh : Shape) → WellFormed sh.reported
  | .scalar n => .scalar n
  | .object n => .object n
  | .input n => .inputObject n
  | .list e b => by
    refine .list ?_
    cases b with
    | false => exact .nonNull (shape_wellFormed e) (reported_not_nonNull e)
    | true => exact shape_wellFormed e

/-- C43: a non-null type never wraps a non-null type, at any depth. -/
theorem c43_wellFormed {types : List (String × Ty)} {input : Bool} {t : Ty} {x : TId}
    (h : typeIdent types input t = .ok x) : WellFormed x := by
  obtain ⟨sh, b, _, rfl⟩ := c43_reported h
  cases b with
  | false => exact .nonNull (shape_wellFormed sh) (reported_not_nonNull sh)
  | true => exact shape_wellFormed sh

/-- the GraphQL type of a hiku type is unique -/
theorem describes_unique {input : Bool} {t : Ty} {sh : Shape} {b : Bool} (h : Describes input t sh b) :
    ∀ {sh' b'}, Describes input t sh' b' → sh' = sh ∧ b' = b := by
  induction h with
  | any | mapping | record | string | integer | float | boolean => intro _ _ h'; cases h'; exact ⟨rfl, rfl⟩
  | object n hi =>
    intro _ _ h'
    cases h' with
    | object => exact ⟨rfl, rfl⟩
    | inputObject _ hi' => rw [hi] at hi'; cases hi'
  | inputObject n hi =>
    intro _ _ h'
    cases h' with
    | inputObject => exact ⟨rfl, rfl⟩
    | object _ hi' => rw [hi] at hi'; cases hi'
  | sequence _ ih => intro _ _ h'; cases h' with | sequence h' => obtain ⟨rfl, rfl⟩ := ih h'; exact ⟨rfl, rfl⟩
  | optional _ ih => intro _ _ h'; cases h' with | optional h' => obtain ⟨rfl, rfl⟩ := ih h'; exact ⟨rfl, rfl⟩

/-- C43: the whole claim in one statement. -/
theorem c43 {types : List (String × Ty)} {input : Bool} {t : Ty} {sh : Shape} {b : Bool} (h : Describes input t sh b)
    (hr : OkTy (fun n => input = true → (dget types n).isSome) t) :
    typeIdent types input t = .ok (wrapNull b sh.reported) := by
  obtain ⟨x, hx⟩ := c43_total hr
  obtain ⟨sh', b', h1, rfl⟩ := c43_reported hx
  obtain ⟨rfl, rfl⟩ := describes_unique h h1
  exact hx

/-- `Sequence[Optional[Sequence[TypeRef['Point']]]]`: `[[Point!]]!` -/
example : Describes false (.sequence (.optional (.sequence (.ref "Point"))))
    (.list (.list (.object "Point") false) true) false :=
  .sequence (.optional (.sequence (.object "Point" rfl)))

example : typeIdent [] false (.sequence (.optional (.sequence (.ref "Point")))) =
    .ok (.nonNull (.list (.list (.nonNull (.object "Point"))))) := rfl

/-- functions have no GraphQL type, and an argument may mention data types only -/
example : typeIdent [] false (.sequence (.callable [])) = .error .typeError ∧
    typeIdent [] true (.ref "Track") = .error .assertionError := ⟨rfl, rfl⟩

end Hiku.Intro
