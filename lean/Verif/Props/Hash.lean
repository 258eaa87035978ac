import Verif.Spec.Hash
import Std.Data.String.ToInt
import Mathlib.Data.Nat.Pairing

/-! # C04: option hashes and index keys -/

namespace Hiku

/-! ### sorting -/
section
variable {α : Type}

theorem insertBy_perm (le : α → α → Bool) (x : α) (l : List α) : (insertBy le x l).Perm (x :: l) := by
  induction l with
  | nil => exact .refl _
  | cons y r ih =>
    simp only [insertBy]
    split
    · exact .refl _
    · exact (List.Perm.cons y ih).trans (List.Perm.swap x y r)

theorem sortBy_perm (le : α → α → Bool) (l : List α) : (sortBy le l).Perm l := by
  induction l with
  | nil => exact .refl _
  | cons x r ih =>
    have : sortBy le (x :: r) = insertBy le x (sortBy le r) := rfl
    rw [this]
    exact (insertBy_perm le x _).trans (.cons x ih)

theorem insertBy_map {β : Type} (f : α → β) (le : α → α → Bool) (le' : β → β → Bool)
    (h : ∀ a b, le' (f a) (f b) = le a b) (x : α) (l : List α) :
    insertBy le' (f x) (l.map f) = (insertBy le x l).map f := by
  induction l with
  | nil => rfl
  | cons y r ih =>
    simp only [List.map_cons, insertBy, h]
    split
    · rfl
    · rw [ih]; rfl

theorem sortBy_map {β : Type} (f : α → β) (le : α → α → Bool) (le' : β → β → Bool)
    (h : ∀ a b, le' (f a) (f b) = le a b) (l : List α) :
    sortBy le' (l.map f) = (sortBy le l).map f := by
  induction l with
  | nil => rfl
  | cons x r ih =>
    have e1 : sortBy le (x :: r) = insertBy le x (sortBy le r) := rfl
    have e2 : sortBy le' ((x :: r).map f) = insertBy le' (f x) (sortBy le' (r.map f)) := rfl
    rw [e1, e2, ih, insertBy_map f le le' h]

/-- sorting by a total order on distinct keys does not depend on the initial order -/
theorem insertBy_comm (le : α → α → Bool) (x y : α)
    (total : le x y = true ∨ le y x = true)
    (anti : le x y = true → le y x = true → False)
    (l : List α)
    (trans : ∀ z ∈ l, (le x y = true → le y z = true → le x z = true) ∧
        (le y x = true → le x z = true → le y z = true) ∧
        (le x z = false → le x y = true → le y z = false) ∧
        (le y z = false → le y x = true → le x z = false)) :
    insertBy le x (insertBy le y l) = insertBy le y (insertBy le x l) := by
  induction l with
  | nil =>
    simp only [insertBy]
    cases hxy : le x y <;> cases hyx : le y x <;> simp_all
  | cons z r ih =>
    have ih := ih (fun z hz => trans z (List.mem_cons_of_mem _ hz))
    have t := trans z (List.mem_cons_self ..)
    simp only [insertBy]
    cases hxz : le x z <;> cases hyz : le y z <;> cases hxy : le x y <;> cases hyx : le y x <;>
      simp_all [insertBy]
end

/-- keys of one kind are ordered -/
theorem keyLe_order {ks : List Val} (h : OneKind ks) :
    (∀ x ∈ ks, ∀ y ∈ ks, keyLe x y = true ∨ keyLe y x = true) ∧
    (∀ x ∈ ks, ∀ y ∈ ks, keyLe x y = true → keyLe y x = true → x = y) ∧
    (∀ x ∈ ks, ∀ y ∈ ks, ∀ z ∈ ks, keyLe x y = true → keyLe y z = true → keyLe x z = true) := by
  rcases h with h | h | h
  · refine ⟨?_, ?_, ?_⟩
    · intro x hx y hy
      obtain ⟨a, rfl⟩ := h x hx; obtain ⟨b, rfl⟩ := h y hy
      simp only [keyLe, decide_eq_true_eq]
      exact String.le_total ..
    · intro x hx y hy
      obtain ⟨a, rfl⟩ := h x hx; obtain ⟨b, rfl⟩ := h y hy
      simp only [keyLe, decide_eq_true_eq]
      intro h1 h2; rw [String.le_antisymm h1 h2]
    · intro x hx y hy z hz
      obtain ⟨a, rfl⟩ := h x hx; obtain ⟨b, rfl⟩ := h y hy; obtain ⟨c, rfl⟩ := h z hz
      simp only [keyLe, decide_eq_true_eq]
      exact String.le_trans
  · refine ⟨?_, ?_, ?_⟩
    · intro x hx y hy
      obtain ⟨a, rfl⟩ := h x hx; obtain ⟨b, rfl⟩ := h y hy
      simp only [keyLe, decide_eq_true_eq]
      exact String.le_total ..
    · intro x hx y hy
      obtain ⟨a, rfl⟩ := h x hx; obtain ⟨b, rfl⟩ := h y hy
      simp only [keyLe, decide_eq_true_eq]
      intro h1 h2; rw [String.le_antisymm h1 h2]
    · intro x hx y hy z hz
      obtain ⟨a, rfl⟩ := h x hx; obtain ⟨b, rfl⟩ := h y hy; obtain ⟨c, rfl⟩ := h z hz
      simp only [keyLe, decide_eq_true_eq]
      exact String.le_trans
  · refine ⟨?_, ?_, ?_⟩
    · intro x hx y hy
      obtain ⟨a, rfl⟩ := h x hx; obtain ⟨b, rfl⟩ := h y hy
      simp only [keyLe, decide_eq_true_eq]
      omega
    · intro x hx y hy
      obtain ⟨a, rfl⟩ := h x hx; obtain ⟨b, rfl⟩ := h y hy
      simp only [keyLe, decide_eq_true_eq]
      intro h1 h2; rw [show a = b by omega]
    · intro x hx y hy z hz
      obtain ⟨a, rfl⟩ := h x hx; obtain ⟨b, rfl⟩ := h y hy; obtain ⟨c, rfl⟩ := h z hz
      simp only [keyLe, decide_eq_true_eq]
      omega

theorem OneKind.perm {l l' : List Val} (hp : ∀ k ∈ l', k ∈ l) (h : OneKind l) : OneKind l' := by
  rcases h with h | h | h
  · exact .inl fun k hk => h k (hp k hk)
  · exact .inr (.inl fun k hk => h k (hp k hk))
  · exact .inr (.inr fun k hk => h k (hp k hk))

theorem OneKind.atom {l : List Val} (h : OneKind l) : ∀ k ∈ l, ∃ a, k = .atom a := by
  intro k hk
  rcases h with h | h | h <;> (obtain ⟨a, rfl⟩ := h k hk; exact ⟨_, rfl⟩)

theorem sortBy_perm_eq {β : Type} (l l' : List (Val × β)) (hp : l.Perm l')
    (hs : OneKind (l.map (·.1))) (hn : (l.map (·.1)).Nodup) :
    sortBy (fun a b => keyLe a.1 b.1) l = sortBy (fun a b => keyLe a.1 b.1) l' := by
  induction hp with
  | nil => rfl
  | cons x _ ih =>
    simp only [List.map_cons, List.nodup_cons] at hn
    have := ih (hs.perm fun k hk => by simp only [List.map_cons]; exact List.mem_cons_of_mem _ hk) hn.2
    change insertBy _ x (sortBy _ _) = insertBy _ x (sortBy _ _)
    rw [this]
  | swap x y l =>
    change insertBy _ y (insertBy _ x (sortBy _ l)) = insertBy _ x (insertBy _ y (sortBy _ l))
    obtain ⟨total, anti, trans⟩ := keyLe_order hs
    have hx : x.1 ∈ (y :: x :: l).map (·.1) := by simp
    have hy : y.1 ∈ (y :: x :: l).map (·.1) := by simp
    have hne : y.1 ≠ x.1 := by
      intro e
      simp only [List.map_cons, List.nodup_cons, List.mem_cons, not_or] at hn
      exact hn.1.1 e
    apply insertBy_comm
    · exact total _ hy _ hx
    · intro h1 h2
      exact hne (anti _ hy _ hx h1 h2)
    · intro z hz
      have hz' := (sortBy_perm _ l).mem_iff.1 hz
      have hz : z.1 ∈ (y :: x :: l).map (·.1) := List.mem_map.2 ⟨z, by simp [hz'], rfl⟩
      refine ⟨trans _ hy _ hx _ hz, trans _ hx _ hy _ hz, ?_, ?_⟩
      · intro h1 h2
        cases h3 : keyLe x.1 z.1 with
        | false => rfl
        | true => rw [trans _ hy _ hx _ hz h2 h3] at h1; cases h1
      · intro h1 h2
        cases h3 : keyLe y.1 z.1 with
        | false => rfl
        | true => rw [trans _ hx _ hy _ hz h2 h3] at h1; cases h1
  | trans h1 _ ih1 ih2 =>
    rw [ih1 hs hn, ih2]
    · exact hs.perm fun k hk => (h1.map _).mem_iff.2 hk
    · exact (h1.map _).nodup_iff.1 hn

theorem hashKvs_eq_map (H : PyHash) (l : List (Val × Val)) :
    hashKvs H l = l.map fun kv => (kv.1, (computeHash H kv.1, computeHash H kv.2)) := by
  induction l with
  | nil => rfl
  | cons x r ih => obtain ⟨k, v⟩ := x; simp [hashKvs, ih]

theorem hashList_eq_map (H : PyHash) (l : List Val) : hashList H l = l.map (computeHash H) := by
  induction l with
  | nil => rfl
  | cons x r ih => simp [hashList, ih]

theorem sortableKvs_iff (l : List (Val × Val)) :
    SortableKvs l ↔ ∀ kv ∈ l, Sortable kv.2 := by
  induction l with
  | nil => simp [SortableKvs]
  | cons x r ih => obtain ⟨k, v⟩ := x; simp [SortableKvs, ih]

theorem sortableList_iff (l : List Val) : SortableList l ↔ ∀ v ∈ l, Sortable v := by
  induction l with
  | nil => simp [SortableList]
  | cons x r ih => simp [SortableList, ih]

theorem pyEqKvs_keys {a b : List (Val × Val)} (h : PyEqKvs a b) : a.map (·.1) = b.map (·.1) := by
  induction a generalizing b with
  | nil => cases h; rfl
  | cons x r ih => cases h with | cons _ h2 => simp [ih h2]

mutual
theorem computeHash_pyEq (H : PyHash) {v w : Val} : (h : PyEq v w) → (hv : Sortable v) →
    computeHash H v = computeHash H w
  | .refl _, _ => rfl
  | .list h, hv => by
      simp only [computeHash]
      rw [hashList_pyEq H h (by simpa [Sortable] using hv)]
  | .dict (xs := xs) (xs' := xs') (ys := ys) (ys' := ys') p1 h p2, hv => by
      simp only [Sortable] at hv
      obtain ⟨hkind, hv, hn⟩ := hv
      have hv' : SortableKvs xs' := by
        rw [sortableKvs_iff] at hv ⊢
        intro kv hkv; exact hv kv (p1.mem_iff.2 hkv)
      have hh := hashKvs_pyEq H h hv'
      simp only [computeHash]
      have map1 : ∀ l : List (Val × Val), (hashKvs H l).map (·.1) = l.map (·.1) := by
        intro l; rw [hashKvs_eq_map, List.map_map]; rfl
      rw [sortableKvs_iff] at hv
      have e1 : sortBy (fun a b => keyLe a.1 b.1) (hashKvs H xs) =
          sortBy (fun a b => keyLe a.1 b.1) (hashKvs H xs') := by
        apply sortBy_perm_eq
        · rw [hashKvs_eq_map, hashKvs_eq_map]; exact p1.map _
        · rw [map1]; exact hkind
        · rw [map1]; exact hn
      have e2 : sortBy (fun a b => keyLe a.1 b.1) (hashKvs H ys') =
          sortBy (fun a b => keyLe a.1 b.1) (hashKvs H ys) := by
        apply sortBy_perm_eq
        · rw [hashKvs_eq_map, hashKvs_eq_map]; exact p2.map _
        · rw [map1, ← pyEqKvs_keys h]; exact hkind.perm fun k hk => (p1.map _).mem_iff.2 hk
        · rw [map1, ← pyEqKvs_keys h]; exact (p1.map _).nodup_iff.1 hn
      rw [e1, ← e2, hh]
theorem hashList_pyEq (H : PyHash) {v w : List Val} : (h : PyEqList v w) → (hv : SortableList v) →
    hashList H v = hashList H w
  | .nil, _ => rfl
  | .cons h hs, hv => by
      simp only [SortableList] at hv
      simp only [hashList]
      rw [computeHash_pyEq H h hv.1, hashList_pyEq H hs hv.2]
theorem hashKvs_pyEq (H : PyHash) {v w : List (Val × Val)} : (h : PyEqKvs v w) →
    (hv : SortableKvs v) → hashKvs H v = hashKvs H w
  | .nil, _ => rfl
  | .cons h hs, hv => by
      simp only [SortableKvs] at hv
      simp only [hashKvs]
      rw [computeHash_pyEq H h hv.1, hashKvs_pyEq H hs hv.2]
end

theorem optsVal_sortable {o : List (String × Val)} (h : OptsSortable o) : Sortable (optsVal o) := by
  unfold optsVal
  simp only [Sortable, sortableKvs_iff]
  refine ⟨.inl ?_, ?_, ?_⟩
  · intro k hk
    rw [List.map_map] at hk
    obtain ⟨x, _, rfl⟩ := List.mem_map.1 hk
    exact ⟨_, rfl⟩
  · intro kv hkv
    obtain ⟨x, hx, rfl⟩ := List.mem_map.1 hkv
    exact h.2 x hx
  · rw [List.map_map]
    have : ((fun x => x.1) ∘ fun kv : String × Val => (Val.str kv.1, kv.2)) = Val.str ∘ (·.1) := rfl
    rw [this, ← List.map_map]
    have := h.1
    rw [List.nodup_iff_pairwise_ne] at this ⊢
    rw [List.pairwise_map]
    apply this.imp
    intro a b hab e
    cases e; exact hab rfl

theorem pyEq_optsVal_nil {o o' : List (String × Val)} (h : PyEq (optsVal o) (optsVal o')) :
    o = [] ↔ o' = [] := by
  have len : ∀ {a b : List (Val × Val)}, PyEqKvs a b → a.length = b.length := by
    intro a b h
    have := congrArg List.length (pyEqKvs_keys h)
    simpa using this
  unfold optsVal at h
  generalize ha : (o.map fun kv => (Val.str kv.1, kv.2)) = a at h
  generalize hb : (o'.map fun kv => (Val.str kv.1, kv.2)) = b at h
  have la : o.length = a.length := by rw [← ha]; simp
  have lb : o'.length = b.length := by rw [← hb]; simp
  have hlen : a.length = b.length := by
    cases h with
    | refl => rfl
    | dict p1 h p2 => rw [p1.length_eq, len h, p2.length_eq]
  rw [← List.length_eq_zero_iff, ← List.length_eq_zero_iff]
  omega

/-- **C04** (first half).  Equal options, whatever their insertion order (at every nesting level),
give the same slot of the result. -/
theorem c04_same_options_same_slot (H : PyHash) (name : String) (o o' : List (String × Val))
    (hk : OptsSortable o) (h : PyEq (optsVal o) (optsVal o')) :
    indexKey H name (some o) = indexKey H name (some o') := by
  have e : optionsHash H (some o) = optionsHash H (some o') := by
    cases o with
    | nil => have := (pyEq_optsVal_nil h).1 rfl; subst this; rfl
    | cons a r =>
      cases o' with
      | nil => have := (pyEq_optsVal_nil h).2 rfl; simp at this
      | cons a' r' =>
        simp only [optionsHash]
        rw [computeHash_pyEq H h (optsVal_sortable hk)]
  unfold indexKey
  rw [e]

/-! ### different options -/

section Injective
variable (H : PyHash) (hH : HashInjective H)
include hH

mutual
theorem computeHash_inj : (v w : Val) → Sortable v → Sortable w →
    computeHash H v = computeHash H w → PyEq v w
  | .atom a, w, _, _, h => by
      cases w with
      | atom b => exact hH.atom _ _ h ▸ .refl _
      | seq k xs => 
        cases k <;> first
          | exact hH.atom _ _ h ▸ .refl _
          | exact absurd h (hH.atom_ints _ _)
      | map k kvs => exact absurd h (hH.atom_pairs _ _)
      | tagged t v => exact hH.atom _ _ h ▸ .refl _
      | ref n i => exact hH.atom _ _ h ▸ .refl _
  | .tagged t v, w, _, _, h => by
      cases w with
      | atom b => exact hH.atom _ _ h ▸ .refl _
      | seq k xs => 
        cases k <;> first
          | exact hH.atom _ _ h ▸ .refl _
          | exact absurd h (hH.atom_ints _ _)
      | map k kvs => exact absurd h (hH.atom_pairs _ _)
      | tagged t v => exact hH.atom _ _ h ▸ .refl _
      | ref n i => exact hH.atom _ _ h ▸ .refl _
  | .ref n i, w, _, _, h => by
      cases w with
      | atom b => exact hH.atom _ _ h ▸ .refl _
      | seq k xs => 
        cases k <;> first
          | exact hH.atom _ _ h ▸ .refl _
          | exact absurd h (hH.atom_ints _ _)
      | map k kvs => exact absurd h (hH.atom_pairs _ _)
      | tagged t v => exact hH.atom _ _ h ▸ .refl _
      | ref n i => exact hH.atom _ _ h ▸ .refl _
  | .seq k xs, w, hv, hw, h => by
      by_cases hk : k = .list
      · subst hk
        cases w with
        | atom b => exact absurd h.symm (hH.atom_ints _ _)
        | seq k' ys =>
          cases k' with
          | list =>
            simp only [computeHash] at h
            exact .list (hashList_inj xs ys (by simpa [Sortable] using hv)
              (by simpa [Sortable] using hw) (hH.ints _ _ h))
          | _ => exact absurd h.symm (hH.atom_ints _ _)
        | map k kvs => exact absurd h.symm (hH.pairs_ints _ _)
        | tagged t v => exact absurd h.symm (hH.atom_ints _ _)
        | ref n i => exact absurd h.symm (hH.atom_ints _ _)
      · have e : computeHash H (.seq k xs) = H.atom (.seq k xs) := by
          cases k <;> first | rfl | exact absurd rfl hk
        rw [e] at h
        cases w with
        | atom b => exact hH.atom _ _ h ▸ .refl _
        | seq k' ys =>
          cases k' <;> first
            | exact hH.atom _ _ h ▸ .refl _
            | exact absurd h (hH.atom_ints _ _)
        | map k kvs => exact absurd h (hH.atom_pairs _ _)
        | tagged t v => exact hH.atom _ _ h ▸ .refl _
        | ref n i => exact hH.atom _ _ h ▸ .refl _
  | .map k kvs, w, hv, hw, h => by
      cases w with
      | atom b => exact absurd h.symm (hH.atom_pairs _ _)
      | seq k' ys =>
        cases k' <;> first
          | exact absurd h (hH.pairs_ints _ _)
          | exact absurd h.symm (hH.atom_pairs _ _)
      | map k' kvs' =>
        simp only [computeHash] at h
        have h := hH.pairs _ _ h
        simp only [Sortable, sortableKvs_iff] at hv hw
        let le : Val × Val → Val × Val → Bool := fun a b => keyLe a.1 b.1
        have srt : ∀ l : List (Val × Val),
            (sortBy (fun a b : Val × (Int × Int) => keyLe a.1 b.1) (hashKvs H l)).map (·.2) =
            (sortBy le l).map fun kv => (computeHash H kv.1, computeHash H kv.2) := by
          intro l
          rw [hashKvs_eq_map, sortBy_map (fun kv : Val × Val =>
            (kv.1, (computeHash H kv.1, computeHash H kv.2))) le _ (fun _ _ => rfl), List.map_map]
          rfl
        rw [srt, srt] at h
        have p1 := sortBy_perm le kvs
        have p2 := sortBy_perm le kvs'
        refine .dict p1.symm ?_ p2
        have ih : ∀ kv ∈ sortBy le kvs, ∀ w, Sortable w → computeHash H kv.2 = computeHash H w →
            PyEq kv.2 w := by
          intro kv hkv w hw he
          have hkv := p1.mem_iff.1 hkv
          exact hashKvs_inj kvs kv hkv w (hv.2.1 kv hkv) hw he
        have hs1 : ∀ kv ∈ sortBy le kvs, ∃ s, kv.1 = .atom s :=
          fun kv h => hv.1.atom _ (List.mem_map.2 ⟨kv, p1.mem_iff.1 h, rfl⟩)
        have hs2 : ∀ kv ∈ sortBy le kvs', (∃ s, kv.1 = .atom s) ∧ Sortable kv.2 :=
          fun kv h => ⟨hw.1.atom _ (List.mem_map.2 ⟨kv, p2.mem_iff.1 h, rfl⟩), hw.2.1 kv (p2.mem_iff.1 h)⟩
        generalize sortBy le kvs = A at *
        generalize sortBy le kvs' = B at *
        clear srt p1 p2 hv hw
        induction A generalizing B with
        | nil =>
          cases B with
          | nil => exact .nil
          | cons => simp at h
        | cons a r ihA =>
          cases B with
          | nil => simp at h
          | cons b r' =>
            simp only [List.map_cons, List.cons.injEq, Prod.mk.injEq] at h
            obtain ⟨⟨hk1, hk2⟩, hr⟩ := h
            obtain ⟨s1, e1⟩ := hs1 a (by simp)
            obtain ⟨⟨s2, e2⟩, hb⟩ := hs2 b (by simp)
            have hkk : a.1 = b.1 := by
              rw [e1, e2] at hk1 ⊢
              exact hH.atom _ _ hk1
            have := ih a (by simp) b.2 hb hk2
            obtain ⟨a1, a2⟩ := a
            obtain ⟨b1, b2⟩ := b
            simp only at hkk; subst hkk
            refine .cons this (ihA ?_ ?_ _ ?_ hr)
            · intro kv hkv; exact ih kv (List.mem_cons_of_mem _ hkv)
            · intro kv hkv; exact hs1 kv (List.mem_cons_of_mem _ hkv)
            · intro kv hkv; exact hs2 kv (List.mem_cons_of_mem _ hkv)
      | tagged t v => exact absurd h.symm (hH.atom_pairs _ _)
      | ref n i => exact absurd h.symm (hH.atom_pairs _ _)
theorem hashList_inj : (v w : List Val) → SortableList v → SortableList w →
    hashList H v = hashList H w → PyEqList v w
  | [], [], _, _, _ => .nil
  | [], _ :: _, _, _, h => by simp [hashList] at h
  | _ :: _, [], _, _, h => by simp [hashList] at h
  | x :: xs, y :: ys, hv, hw, h => by
      simp only [hashList, List.cons.injEq] at h
      simp only [SortableList] at hv hw
      exact .cons (computeHash_inj x y hv.1 hw.1 h.1) (hashList_inj xs ys hv.2 hw.2 h.2)
theorem hashKvs_inj : (l : List (Val × Val)) → ∀ kv ∈ l, ∀ w, Sortable kv.2 → Sortable w →
    computeHash H kv.2 = computeHash H w → PyEq kv.2 w
  | [], kv, h, _, _, _, _ => by simp at h
  | (k, v) :: r, kv, h, w, hs, hw, he => by
      rcases List.mem_cons.1 h with h | h
      · subst h; exact computeHash_inj v w hs hw he
      · exact hashKvs_inj r kv h w hs hw he
end

end Injective

theorem index_key_string (a b : String) (x y : Int) (ha : '[' ∉ a.toList) (hb : '[' ∉ b.toList)
    (h : a ++ "[" ++ toString x ++ "]" = b ++ "[" ++ toString y ++ "]") : a = b ∧ x = y := by
  have h := congrArg String.toList h
  simp only [String.toList_append, List.append_assoc] at h
  have split : ∀ (p q : List Char) (r s : List Char), '[' ∉ p → '[' ∉ q →
      p ++ ('[' :: r) = q ++ ('[' :: s) → p = q ∧ r = s := by
    intro p
    induction p with
    | nil =>
      intro q r s hp hq h
      cases q with
      | nil => simpa using h
      | cons c q => simp at h; rw [h.1] at hq; simp at hq
    | cons c p ih =>
      intro q r s hp hq h
      cases q with
      | nil => simp at h; rw [h.1] at hp; simp at hp
      | cons d q =>
        simp only [List.cons_append, List.cons.injEq] at h
        simp only [List.mem_cons, not_or] at hp hq
        obtain ⟨h1, h2⟩ := ih q r s hp.2 hq.2 h.2
        exact ⟨by rw [h.1, h1], h2⟩
  obtain ⟨h1, h2⟩ := split _ _ _ _ ha hb h
  refine ⟨String.toList_inj.1 h1, ?_⟩
  have h2 : (toString x).toList ++ [']'] = (toString y).toList ++ [']'] := h2
  have h2 := List.append_cancel_right h2
  exact Int.repr_injective (String.toList_inj.1 h2)

/-- Two option mappings are the same: both absent/empty, or equal as mappings. -/
def SameOpts (o o' : Opts) : Prop :=
  PyEq (optsVal (o.getD [])) (optsVal (o'.getD []))

/-- **C04, partial** (second half).  With a collision-free hash, fields with different names or
different options use different slots (names do not contain `[`).  CPython's `hash` is not
collision-free, see `c04_collision`. -/
theorem c04_distinct_slots_partial (H : PyHash) (hH : HashInjective H) (n n' : String) (o o' : Opts)
    (hn : '[' ∉ n.toList) (hn' : '[' ∉ n'.toList)
    (ho : ∀ l, o = some l → OptsSortable l) (ho' : ∀ l, o' = some l → OptsSortable l)
    (h : indexKey H n o = indexKey H n' o') : n = n' ∧ SameOpts o o' := by
  have hmem : ∀ (a : String) (x : Int), '[' ∈ (a ++ "[" ++ toString x ++ "]").toList := by
    intro a x; simp [String.toList_append]
  unfold indexKey at h
  have cases3 : ∀ o : Opts, (optionsHash H o = none ∧ o.getD [] = []) ∨
      (∃ a r, o = some (a :: r) ∧ optionsHash H o = some (computeHash H (optsVal (a :: r)))) := by
    intro o
    cases o with
    | none => exact .inl ⟨rfl, rfl⟩
    | some l =>
      cases l with
      | nil => exact .inl ⟨rfl, rfl⟩
      | cons a r => exact .inr ⟨a, r, rfl, rfl⟩
  rcases cases3 o with ⟨e1, e2⟩ | ⟨a, r, e1, e2⟩ <;> rcases cases3 o' with ⟨e1', e2'⟩ | ⟨a', r', e1', e2'⟩
  · rw [e1, e1'] at h
    exact ⟨h, by unfold SameOpts; rw [e2, e2']; exact .refl _⟩
  · rw [e1, e2'] at h
    simp only at h
    exact absurd (h ▸ hmem _ _) hn
  · rw [e2, e1'] at h
    simp only at h
    exact absurd (h ▸ hmem _ _) hn'
  · rw [e2, e2'] at h
    simp only at h
    obtain ⟨h1, h2⟩ := index_key_string _ _ _ _ hn hn' h
    refine ⟨h1, ?_⟩
    unfold SameOpts
    rw [e1, e1']
    exact computeHash_inj H hH _ _ (optsVal_sortable (ho _ e1)) (optsVal_sortable (ho' _ e1')) h2

/-- **C04, counterexample** (finding 1).  For every hash with `hash(-1) == hash(-2)` -- CPython is
such -- the options `{'x': -1}` and `{'x': -2}` of one field share one slot. -/
theorem c04_collision (H : PyHash) (h : H.atom (.int (-1)) = H.atom (.int (-2))) (name : String) :
    indexKey H name (some [("x", .int (-1))]) = indexKey H name (some [("x", .int (-2))]) ∧
    ¬ SameOpts (some [("x", .int (-1))]) (some [("x", .int (-2))]) := by
  constructor
  · simp [indexKey, optionsHash, optsVal, computeHash, hashKvs, sortBy, insertBy, h]
  · intro hs
    unfold SameOpts at hs
    simp only [Option.getD_some] at hs
    unfold optsVal at hs
    simp only [List.map_cons, List.map_nil] at hs
    cases hs with
    | dict p1 h p2 =>
      have := List.singleton_perm.1 p1; subst this
      have := (List.perm_singleton).1 p2; subst this
      cases h with
      | cons h _ => cases h

/-! ## Non-vacuity: a permuted nested mapping, and a hash satisfying the hypotheses exists -/

section Encode
/-! A collision-free hash exists: a Gödel numbering of values. -/

def encNats : List Nat → Nat
  | [] => 0
  | x :: r => Nat.pair x (encNats r) + 1

theorem encNats_inj : (a b : List Nat) → encNats a = encNats b → a = b
  | [], [], _ => rfl
  | [], _ :: _, h => by simp [encNats] at h
  | _ :: _, [], h => by simp [encNats] at h
  | x :: r, y :: r', h => by
      simp only [encNats, Nat.add_right_cancel_iff, Nat.pair_eq_pair] at h
      rw [h.1, encNats_inj r r' h.2]

def encStr (s : String) : Nat := encNats (s.toList.map Char.toNat)

theorem map_inj_of_inj {α β : Type} {f : α → β} (hf : ∀ a b, f a = f b → a = b) :
    (a b : List α) → a.map f = b.map f → a = b
  | [], [], _ => rfl
  | [], _ :: _, h => by simp at h
  | _ :: _, [], h => by simp at h
  | x :: r, y :: r', h => by
      simp only [List.map_cons, List.cons.injEq] at h
      rw [hf _ _ h.1, map_inj_of_inj hf r r' h.2]

theorem encStr_inj (a b : String) (h : encStr a = encStr b) : a = b := by
  apply String.toList_inj.1
  apply map_inj_of_inj (f := Char.toNat) (fun x y h => Char.toNat_inj.1 h)
  exact encNats_inj _ _ h

def encInt : Int → Nat
  | .ofNat n => 2 * n
  | .negSucc n => 2 * n + 1

theorem encInt_inj (a b : Int) (h : encInt a = encInt b) : a = b := by
  cases a <;> cases b <;> simp only [encInt] at h
  · rename_i x y; rw [show x = y by omega]
  · omega
  · omega
  · rename_i x y; rw [show x = y by omega]

def encAtom : Atom → Nat
  | .none => Nat.pair 0 0
  | .nothing => Nat.pair 1 0
  | .bool b => Nat.pair 2 b.toNat
  | .int i => Nat.pair 3 (encInt i)
  | .float s => Nat.pair 4 (encStr s)
  | .str s => Nat.pair 5 (encStr s)
  | .kw s => Nat.pair 6 (encStr s)
  | .sym s => Nat.pair 7 (encStr s)

theorem encAtom_inj (a b : Atom) (h : encAtom a = encAtom b) : a = b := by
  cases a <;> cases b <;> simp only [encAtom, Nat.pair_eq_pair] at h <;>
    first
    | rfl
    | (obtain ⟨h1, h2⟩ := h; exact absurd h1 (by decide))
    | (obtain ⟨-, h2⟩ := h; rw [encStr_inj _ _ h2])
    | (obtain ⟨-, h2⟩ := h; rw [encInt_inj _ _ h2])
    | (rename_i x y; obtain ⟨-, h2⟩ := h; cases x <;> cases y <;> first | rfl | simp at h2)

def encKind : SeqKind → Nat
  | .list => 0 | .tup => 1 | .elist => 2 | .etup => 3 | .set => 4 | .eset => 5
def encDKind : DictKind → Nat
  | .dict => 0 | .edict => 1

mutual
def enc : Val → Nat
  | .atom a => Nat.pair 0 (encAtom a)
  | .seq k xs => Nat.pair 1 (Nat.pair (encKind k) (encL xs))
  | .map k kvs => Nat.pair 2 (Nat.pair (encDKind k) (encK kvs))
  | .tagged t v => Nat.pair 3 (Nat.pair (encStr t) (enc v))
  | .ref n i => Nat.pair 4 (Nat.pair (encStr n) (enc i))
def encL : List Val → Nat
  | [] => 0
  | x :: r => Nat.pair (enc x) (encL r) + 1
def encK : List (Val × Val) → Nat
  | [] => 0
  | (k, v) :: r => Nat.pair (Nat.pair (enc k) (enc v)) (encK r) + 1
end

mutual
theorem enc_inj : (a b : Val) → enc a = enc b → a = b
  | .atom a, .atom b, h => by
      simp only [enc, Nat.pair_eq_pair] at h; rw [encAtom_inj _ _ h.2]
  | .seq k xs, .seq k' ys, h => by
      simp only [enc, Nat.pair_eq_pair] at h
      have hk : k = k' := by
        have := h.2.1
        cases k <;> cases k' <;> first | rfl | simp [encKind] at this
      rw [hk, encL_inj xs ys h.2.2]
  | .map k xs, .map k' ys, h => by
      simp only [enc, Nat.pair_eq_pair] at h
      have hk : k = k' := by
        have := h.2.1
        cases k <;> cases k' <;> first | rfl | simp [encDKind] at this
      rw [hk, encK_inj xs ys h.2.2]
  | .tagged t v, .tagged t' v', h => by
      simp only [enc, Nat.pair_eq_pair] at h
      rw [encStr_inj _ _ h.2.1, enc_inj v v' h.2.2]
  | .ref t v, .ref t' v', h => by
      simp only [enc, Nat.pair_eq_pair] at h
      rw [encStr_inj _ _ h.2.1, enc_inj v v' h.2.2]
  | .atom _, .seq .., h | .atom _, .map .., h | .atom _, .tagged .., h | .atom _, .ref .., h
  | .seq .., .atom _, h | .seq .., .map .., h | .seq .., .tagged .., h | .seq .., .ref .., h
  | .map .., .atom _, h | .map .., .seq .., h | .map .., .tagged .., h | .map .., .ref .., h
  | .tagged .., .atom _, h | .tagged .., .seq .., h | .tagged .., .map .., h | .tagged .., .ref .., h
  | .ref .., .atom _, h | .ref .., .seq .., h | .ref .., .map .., h | .ref .., .tagged .., h => by
      simp [enc, Nat.pair_eq_pair] at h
theorem encL_inj : (a b : List Val) → encL a = encL b → a = b
  | [], [], _ => rfl
  | [], _ :: _, h => by simp [encL] at h
  | _ :: _, [], h => by simp [encL] at h
  | x :: r, y :: r', h => by
      simp only [encL, Nat.add_right_cancel_iff, Nat.pair_eq_pair] at h
      rw [enc_inj x y h.1, encL_inj r r' h.2]
theorem encK_inj : (a b : List (Val × Val)) → encK a = encK b → a = b
  | [], [], _ => rfl
  | [], _ :: _, h => by simp [encK] at h
  | _ :: _, [], h => by simp [encK] at h
  | (k, v) :: r, (k', v') :: r', h => by
      simp only [encK, Nat.add_right_cancel_iff, Nat.pair_eq_pair] at h
      rw [enc_inj k k' h.1.1, enc_inj v v' h.1.2, encK_inj r r' h.2]
end

/-- a collision-free hash -/
def godelHash : PyHash where
  atom v := (3 * enc v : Nat)
  pairs l := (3 * encNats (l.map fun p => Nat.pair (encInt p.1) (encInt p.2)) + 1 : Nat)
  ints l := (3 * encNats (l.map encInt) + 2 : Nat)

theorem godelHash_injective : HashInjective godelHash where
  atom a b h := enc_inj _ _ (by simp only [godelHash] at h; omega)
  pairs a b h := by
    simp only [godelHash] at h
    apply map_inj_of_inj (f := fun p : Int × Int => Nat.pair (encInt p.1) (encInt p.2)) _ a b
      (encNats_inj _ _ (by omega))
    rintro ⟨a1, a2⟩ ⟨b1, b2⟩ h
    simp only [Nat.pair_eq_pair] at h
    rw [encInt_inj _ _ h.1, encInt_inj _ _ h.2]
  ints a b h := by
    simp only [godelHash] at h
    exact map_inj_of_inj encInt_inj a b (encNats_inj _ _ (by omega))
  atom_pairs a b h := by simp only [godelHash] at h; omega
  atom_ints a b h := by simp only [godelHash] at h; omega
  pairs_ints a b h := by simp only [godelHash] at h; omega
end Encode

def exOpts1 : List (String × Val) :=
  [("a", .dict [(.int 2, .int 1), (.int 1, .none)]), ("b", .dict [(.str "x", .int 1), (.str "y", .list [.int 2])])]
def exOpts2 : List (String × Val) :=
  [("b", .dict [(.str "y", .list [.int 2]), (.str "x", .int 1)]), ("a", .dict [(.int 1, .none), (.int 2, .int 1)])]

example : OptsSortable exOpts1 := by
  refine ⟨by decide, ?_⟩
  intro kv hkv
  simp only [exOpts1, List.mem_cons, List.not_mem_nil, or_false] at hkv
  rcases hkv with rfl | rfl
  · simp [Sortable, SortableKvs, OneKind]
  · simp [Sortable, SortableKvs, SortableList, OneKind]

example : PyEq (optsVal exOpts1) (optsVal exOpts2) :=
  .dict (.refl _) (.cons (.dict (.swap _ _ _) (.cons (.refl _) (.cons (.refl _) .nil)) (.refl _))
    (.cons (.dict (.refl _) (.cons (.refl _) (.cons (.refl _) .nil)) (.swap _ _ _)) .nil)) (.swap _ _ _)

end Hiku
