import Verif.Spec.EdnText
import Mathlib.Data.List.Induction

/-! Sets and dicts under Python's equality -/

namespace Hiku
namespace EdnText

variable {eq : Val → Val → Bool}

theorem firsts_snoc (l : List Val) (k : Val) :
    firsts eq (l ++ [k]) = firsts eq l ++ (if l.any fun y => eq y k then [] else [k]) := by
  induction l with
  | nil => simp [firsts]
  | cons x r ih =>
    simp only [List.cons_append, firsts, ih, List.filter_append, List.any_cons]
    by_cases h1 : (r.any fun y => eq y k) = true
    · simp [h1]
    · by_cases h2 : eq x k = true
      · simp [h1, h2]
      · simp [h1, h2]

theorem firsts_sub {l : List Val} {x : Val} (h : x ∈ firsts eq l) : x ∈ l := by
  induction l with
  | nil => exact h
  | cons y r ih =>
    rcases List.mem_cons.1 h with rfl | h
    · exact List.mem_cons_self
    · exact List.mem_cons_of_mem _ (ih (List.mem_filter.1 h).1)

/-- every value is equal to one of the first ones -/
theorem firsts_cover (hr : ∀ a, eq a a = true) (ht : ∀ a b c, eq a b = true → eq b c = true → eq a c = true)
    {l : List Val} {x : Val} (h : x ∈ l) : ∃ y ∈ firsts eq l, eq y x = true := by
  induction l with
  | nil => cases h
  | cons y r ih =>
    rcases List.mem_cons.1 h with rfl | h
    · exact ⟨x, List.mem_cons_self, hr x⟩
    · obtain ⟨z, h1, h2⟩ := ih h
      by_cases hz : eq y z = true
      · exact ⟨y, List.mem_cons_self, ht _ _ _ hz h2⟩
      · exact ⟨z, List.mem_cons_of_mem _ (List.mem_filter.2 ⟨h1, by simpa using hz⟩), h2⟩

theorem any_firsts (hr : ∀ a, eq a a = true) (ht : ∀ a b c, eq a b = true → eq b c = true → eq a c = true)
    (l : List Val) (k : Val) : ((firsts eq l).any fun y => eq y k) = l.any fun y => eq y k := by
  rw [Bool.eq_iff_iff, List.any_eq_true, List.any_eq_true]
  constructor
  · rintro ⟨x, h1, h2⟩; exact ⟨x, firsts_sub h1, h2⟩
  · rintro ⟨x, h1, h2⟩
    obtain ⟨y, h3, h4⟩ := firsts_cover hr ht h1
    exact ⟨y, h3, ht _ _ _ h4 h2⟩

theorem firsts_pairwise (l : List Val) : (firsts eq l).Pairwise fun a b => eq a b = false := by
  induction l with
  | nil => exact .nil
  | cons x r ih =>
    refine .cons (fun y hy => ?_) (ih.filter _)
    simpa using (List.mem_filter.1 hy).2

theorem firsts_distinct {l : List Val} (h : l.Pairwise fun a b => eq a b = false) : firsts eq l = l := by
  induction l with
  | nil => rfl
  | cons x r ih =>
    rw [List.pairwise_cons] at h
    rw [firsts, ih h.2, List.filter_eq_self.2]
    intro y hy
    simp [h.1 y hy]

theorem setBy_eq (hr : ∀ a, eq a a = true) (ht : ∀ a b c, eq a b = true → eq b c = true → eq a c = true)
    (xs : List Val) : setBy eq xs = firsts eq xs := by
  induction xs using List.reverseRecOn with
  | nil => rfl
  | append_singleton l k ih =>
    have : setBy eq (l ++ [k]) = if (setBy eq l).any fun y => eq y k then setBy eq l else setBy eq l ++ [k] := by
      unfold setBy
      rw [List.foldl_append]
      rfl
    rw [this, ih, any_firsts hr ht, firsts_snoc]
    split <;> simp

theorem dsetBy_none {d : List (Val × Val)} {k v : Val} (h : ∀ x ∈ d, eq x.1 k = false) : dsetBy eq d k v = d ++ [(k, v)] := by
  induction d with
  | nil => rfl
  | cons x r ih =>
    obtain ⟨a, b⟩ := x
    rw [dsetBy, if_neg (by simp [h (a, b) List.mem_cons_self]), ih fun y hy => h y (List.mem_cons_of_mem _ hy)]
    rfl

theorem dsetBy_map (hs : ∀ a b, eq a b = true → eq b a = true)
    (ht : ∀ a b c, eq a b = true → eq b c = true → eq a c = true) {ks : List Val} {f : Val → Val} {k v : Val}
    (hp : ks.Pairwise fun a b => eq a b = false) (h : (ks.any fun y => eq y k) = true) :
    dsetBy eq (ks.map fun x => (x, f x)) k v = ks.map fun x => (x, if eq x k then v else f x) := by
  induction ks with
  | nil => simp at h
  | cons x r ih =>
    rw [List.pairwise_cons] at hp
    simp only [List.map_cons, dsetBy]
    by_cases hx : eq x k = true
    · rw [if_pos hx, if_pos hx]
      congr 1
      apply List.map_congr_left
      intro y hy
      have : eq y k = false := by
        cases e : eq y k with
        | false => rfl
        | true =>
          have := ht _ _ _ hx (hs _ _ e)
          rw [hp.1 y hy] at this; cases this
      simp [this]
    · rw [if_neg hx, if_neg hx, ih hp.2 (by simpa [hx] using h)]

theorem lastOf_snoc (l : List (Val × Val)) (k v x : Val) :
    lastOf eq (l ++ [(k, v)]) x = if eq x k then v else lastOf eq l x := by
  unfold lastOf
  by_cases h : eq x k = true <;> simp [List.filter_append, h]

theorem dictBy_eq (hr : ∀ a, eq a a = true) (hs : ∀ a b, eq a b = true → eq b a = true)
    (ht : ∀ a b c, eq a b = true → eq b c = true → eq a c = true) (kvs : List (Val × Val)) : dictBy eq kvs = mapOf eq kvs := by
  induction kvs using List.reverseRecOn with
  | nil => rfl
  | append_singleton l kv ih =>
    obtain ⟨k, v⟩ := kv
    have : dictBy eq (l ++ [(k, v)]) = dsetBy eq (dictBy eq l) k v := by
      simp only [dictBy, List.foldl_append, List.foldl_cons, List.foldl_nil]
    rw [this, ih]
    unfold mapOf
    rw [List.map_append, List.map_cons, List.map_nil, firsts_snoc]
    by_cases h : ((l.map (·.1)).any fun y => eq y k) = true
    · rw [if_pos h, List.append_nil, dsetBy_map hs ht (firsts_pairwise _) (by rw [any_firsts hr ht]; exact h)]
      exact List.map_congr_left fun x _ => by rw [lastOf_snoc]
    · rw [if_neg h, dsetBy_none, List.map_append]
      · congr 1
        · refine List.map_congr_left fun x hx => ?_
          rw [lastOf_snoc, if_neg]
          intro e
          exact h (List.any_eq_true.2 ⟨x, firsts_sub hx, e⟩)
        · simp [lastOf_snoc, hr]
      · intro x hx
        obtain ⟨y, hy, rfl⟩ := List.mem_map.1 hx
        cases e : eq y k with
        | false => rfl
        | true => exact absurd (List.any_eq_true.2 ⟨y, firsts_sub hy, e⟩) h

theorem lastOf_distinct (hr : ∀ a, eq a a = true) (hs : ∀ a b, eq a b = true → eq b a = true) {kvs : List (Val × Val)}
    (h : (kvs.map (·.1)).Pairwise fun a b => eq a b = false) {kv : Val × Val} (hm : kv ∈ kvs) : lastOf eq kvs kv.1 = kv.2 := by
  have : (kvs.filter fun x => eq kv.1 x.1) = [kv] := by
    induction kvs with
    | nil => cases hm
    | cons x r ih =>
      rw [List.map_cons, List.pairwise_cons] at h
      rcases List.mem_cons.1 hm with rfl | hm
      · rw [List.filter_cons, if_pos (hr _), List.filter_eq_nil_iff.2]
        intro y hy
        simp [h.1 _ (List.mem_map_of_mem hy)]
      · rw [List.filter_cons, if_neg, ih h.2 hm]
        intro e
        have := h.1 _ (List.mem_map_of_mem (f := (·.1)) hm)
        rw [hs _ _ e] at this; cases this
  simp [lastOf, this]

/-- nothing changes when no two keys are equal -/
theorem mapOf_distinct (hr : ∀ a, eq a a = true) (hs : ∀ a b, eq a b = true → eq b a = true) {kvs : List (Val × Val)}
    (h : (kvs.map (·.1)).Pairwise fun a b => eq a b = false) : mapOf eq kvs = kvs := by
  unfold mapOf
  rw [firsts_distinct h, List.map_map]
  conv => rhs; rw [← List.map_id kvs]
  refine List.map_congr_left fun kv hkv => ?_
  simp only [Function.comp, id, lastOf_distinct hr hs h hkv]

end EdnText
end Hiku
