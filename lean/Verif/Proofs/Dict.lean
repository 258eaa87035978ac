import Verif.Model.Val

namespace Hiku
section
variable {κ ν : Type} [DecidableEq κ]

@[simp] theorem dget_nil (k : κ) : dget ([] : List (κ × ν)) k = none := rfl

theorem dget_cons (k k' : κ) (v : ν) (r : List (κ × ν)) :
    dget ((k', v) :: r) k = if k' = k then some v else dget r k := rfl

@[simp] theorem dget_cons_self (k : κ) (v : ν) (r : List (κ × ν)) :
    dget ((k, v) :: r) k = some v := by simp [dget]

theorem dget_dset (d : List (κ × ν)) (k : κ) (v : ν) (k' : κ) :
    dget (dset d k v) k' = if k = k' then some v else dget d k' := by
  induction d with
  | nil => simp [dset, dget]
  | cons kv r ih =>
    obtain ⟨a, b⟩ := kv
    unfold dset
    by_cases h : a = k
    · subst h; simp only [if_true, dget_cons]; split <;> rfl
    · simp only [h, if_false, dget_cons, ih]
      by_cases h2 : a = k'
      · subst h2; simp [Ne.symm h]
      · simp [h2]

@[simp] theorem dget_dset_self (d : List (κ × ν)) (k : κ) (v : ν) :
    dget (dset d k v) k = some v := by simp [dget_dset]

theorem dget_dset_ne (d : List (κ × ν)) {k k' : κ} (v : ν) (h : k ≠ k') :
    dget (dset d k v) k' = dget d k' := by simp [dget_dset, h]

theorem dget_mem {d : List (κ × ν)} {k : κ} {v : ν} (h : dget d k = some v) : (k, v) ∈ d := by
  induction d with
  | nil => simp at h
  | cons kv r ih =>
    obtain ⟨a, b⟩ := kv
    rw [dget_cons] at h
    split at h
    · cases h; subst_vars; simp
    · exact List.mem_cons_of_mem _ (ih h)

theorem dget_eq_none_iff {d : List (κ × ν)} {k : κ} : dget d k = none ↔ k ∉ d.map (·.1) := by
  induction d with
  | nil => simp
  | cons kv r ih =>
    obtain ⟨a, b⟩ := kv
    rw [dget_cons]
    by_cases h : a = k
    · simp [h]
    · simp only [h, if_false, ih, List.map_cons, List.mem_cons, not_or]
      constructor
      · intro h2; exact ⟨fun e => h e.symm, h2⟩
      · exact fun h2 => h2.2

theorem dget_isSome_iff {d : List (κ × ν)} {k : κ} : (dget d k).isSome ↔ k ∈ d.map (·.1) := by
  rw [← Decidable.not_iff_not, ← dget_eq_none_iff]; simp

theorem dget_of_mem_nodup {d : List (κ × ν)} {k : κ} {v : ν} (hn : (d.map (·.1)).Nodup)
    (h : (k, v) ∈ d) : dget d k = some v := by
  induction d with
  | nil => simp at h
  | cons kv r ih =>
    obtain ⟨a, b⟩ := kv
    rw [List.map_cons, List.nodup_cons] at hn
    rw [dget_cons]
    rcases List.mem_cons.1 h with h | h
    · cases h; simp
    · have : a ≠ k := by
        intro e; subst e; exact hn.1 (List.mem_map.2 ⟨_, h, rfl⟩)
      simp [this, ih hn.2 h]

theorem keys_dset (d : List (κ × ν)) (k : κ) (v : ν) :
    (dset d k v).map (·.1) = if k ∈ d.map (·.1) then d.map (·.1) else d.map (·.1) ++ [k] := by
  induction d with
  | nil => simp [dset]
  | cons kv r ih =>
    obtain ⟨a, b⟩ := kv
    unfold dset
    by_cases h : a = k
    · simp [h]
    · simp only [h, if_false, List.map_cons, ih, List.mem_cons, Ne.symm h, false_or]
      split <;> simp

theorem nodup_dset {d : List (κ × ν)} (h : (d.map (·.1)).Nodup) (k : κ) (v : ν) :
    ((dset d k v).map (·.1)).Nodup := by
  rw [keys_dset]
  split
  · exact h
  · rename_i h2
    rw [List.nodup_append]
    refine ⟨h, by simp, ?_⟩
    intro a ha b hb
    simp at hb
    subst hb
    intro e; subst e; exact h2 ha

theorem dupdate_nil (d : List (κ × ν)) : dupdate d [] = d := rfl
theorem dupdate_cons (d : List (κ × ν)) (kv : κ × ν) (r : List (κ × ν)) :
    dupdate d (kv :: r) = dupdate (dset d kv.1 kv.2) r := rfl
theorem dupdate_append (d : List (κ × ν)) (a b : List (κ × ν)) :
    dupdate d (a ++ b) = dupdate (dupdate d a) b := by simp [dupdate]

theorem nodup_dupdate {d : List (κ × ν)} (h : (d.map (·.1)).Nodup) (kvs : List (κ × ν)) :
    ((dupdate d kvs).map (·.1)).Nodup := by
  induction kvs generalizing d with
  | nil => exact h
  | cons kv r ih => exact ih (nodup_dset h _ _)

theorem nodup_dmk (kvs : List (κ × ν)) : ((dmk kvs).map (·.1)).Nodup :=
  nodup_dupdate (by simp) kvs

theorem dget_dupdate_notMem (d : List (κ × ν)) (kvs : List (κ × ν)) (k : κ)
    (h : k ∉ kvs.map (·.1)) : dget (dupdate d kvs) k = dget d k := by
  induction kvs generalizing d with
  | nil => rfl
  | cons kv r ih =>
    simp only [List.map_cons, List.mem_cons, not_or] at h
    rw [dupdate_cons, ih _ h.2, dget_dset_ne _ _ (Ne.symm h.1)]

/-- looking up after an update: the last pair with the key wins, else the old value -/
theorem dget_dupdate (d : List (κ × ν)) (kvs : List (κ × ν)) (k : κ) :
    dget (dupdate d kvs) k = (dget kvs.reverse k).or (dget d k) := by
  induction kvs generalizing d with
  | nil => simp [dupdate_nil]
  | cons kv r ih =>
    have key : ∀ (a : List (κ × ν)) (b : κ × ν), dget (a ++ [b]) k = (dget a k).or (dget [b] k) := by
      intro a b
      induction a with
      | nil => simp
      | cons x xs ih => 
        obtain ⟨x1, x2⟩ := x
        rw [List.cons_append, dget_cons, dget_cons]; split <;> simp [ih]
    rw [dupdate_cons, ih, List.reverse_cons, key, dget_dset]
    obtain ⟨a, b⟩ := kv
    rw [dget_cons]
    cases dget r.reverse k with
    | none => simp; split <;> simp
    | some w => simp

theorem dget_dupdate_nodup (d : List (κ × ν)) (kvs : List (κ × ν)) (k : κ)
    (hn : (kvs.map (·.1)).Nodup) :
    dget (dupdate d kvs) k = (dget kvs k).or (dget d k) := by
  induction kvs generalizing d with
  | nil => simp [dupdate_nil]
  | cons kv r ih =>
    simp only [List.map_cons, List.nodup_cons] at hn
    rw [dupdate_cons, ih _ hn.2, dget_dset]
    obtain ⟨a, b⟩ := kv
    rw [dget_cons]
    by_cases h : a = k
    · subst h; simp [dget_eq_none_iff.2 hn.1]
    · simp [h]

theorem mem_keys_dupdate (d : List (κ × ν)) (kvs : List (κ × ν)) (k : κ) :
    k ∈ (dupdate d kvs).map (·.1) ↔ k ∈ d.map (·.1) ∨ k ∈ kvs.map (·.1) := by
  induction kvs generalizing d with
  | nil => simp [dupdate_nil]
  | cons kv r ih =>
    rw [dupdate_cons, ih, keys_dset]
    simp only [List.map_cons, List.mem_cons]
    split
    · rename_i h
      constructor
      · rintro (h1 | h1)
        · exact .inl h1
        · exact .inr (.inr h1)
      · rintro (h1 | h1 | h1)
        · exact .inl h1
        · subst h1; exact .inl h
        · exact .inr h1
    · simp [or_assoc]

/-- `dict(pairs)` is `pairs` itself if the keys are distinct -/
theorem dupdate_eq_append (d kvs : List (κ × ν)) (hn : ((d ++ kvs).map (·.1)).Nodup) :
    dupdate d kvs = d ++ kvs := by
  have key : ∀ (d : List (κ × ν)) (k : κ) (v : ν), k ∉ d.map (·.1) → dset d k v = d ++ [(k, v)] := by
    intro d k v h
    induction d with
    | nil => rfl
    | cons x xs ih =>
      obtain ⟨a, b⟩ := x
      simp only [List.map_cons, List.mem_cons, not_or] at h
      unfold dset
      simp [Ne.symm h.1, ih h.2]
  induction kvs generalizing d with
  | nil => simp [dupdate_nil]
  | cons kv r ih =>
    rw [dupdate_cons, key, ih]
    · simp
    · simpa using hn
    · simp only [List.map_append, List.map_cons, List.nodup_append] at hn
      intro h
      exact hn.2.2 _ h _ (List.mem_cons_self ..) rfl

theorem dmk_eq_self (kvs : List (κ × ν)) (hn : (kvs.map (·.1)).Nodup) : dmk kvs = kvs := by
  have := dupdate_eq_append [] kvs (by simpa using hn)
  simpa [dmk] using this

theorem dget_dmk_nodup (kvs : List (κ × ν)) (hn : (kvs.map (·.1)).Nodup) (k : κ) :
    dget (dmk kvs) k = dget kvs k := by rw [dmk_eq_self _ hn]

theorem mem_keys_dmk (kvs : List (κ × ν)) (k : κ) :
    k ∈ (dmk kvs).map (·.1) ↔ k ∈ kvs.map (·.1) := by
  rw [dmk, mem_keys_dupdate]; simp

theorem dget_dmk (kvs : List (κ × ν)) (k : κ) : dget (dmk kvs) k = dget kvs.reverse k := by
  rw [dmk, dget_dupdate]; simp

theorem dget_derase (d : List (κ × ν)) (k k' : κ) :
    dget (derase d k) k' = if k = k' then none else dget d k' := by
  induction d with
  | nil => simp [derase]
  | cons kv r ih =>
    obtain ⟨a, b⟩ := kv
    unfold derase at *
    by_cases h : a = k
    · subst h
      simp only [ne_eq, not_true, decide_false, Bool.false_eq_true, not_false_eq_true, List.filter_cons_of_neg, ih, dget_cons]
      split <;> rfl
    · simp only [ne_eq, h, not_false_eq_true, decide_true, List.filter_cons_of_pos, dget_cons, ih]
      by_cases h2 : a = k'
      · subst h2; simp [Ne.symm h]
      · simp [h2]

theorem dget_map_snd {μ : Type} (f : ν → μ) (d : List (κ × ν)) (k : κ) :
    dget (d.map fun kv => (kv.1, f kv.2)) k = (dget d k).map f := by
  induction d with
  | nil => rfl
  | cons kv r ih =>
    obtain ⟨a, b⟩ := kv
    simp only [List.map_cons, dget_cons, ih]
    split <;> rfl

theorem dget_append (a b : List (κ × ν)) (k : κ) :
    dget (a ++ b) k = (dget a k).or (dget b k) := by
  induction a with
  | nil => simp
  | cons x xs ih =>
    obtain ⟨x1, x2⟩ := x
    rw [List.cons_append, dget_cons, dget_cons]; split <;> simp [ih]

end
end Hiku
