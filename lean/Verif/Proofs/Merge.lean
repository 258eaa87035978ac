import Verif.Spec.Query

namespace Hiku

/-! ### dedupBy -/
section
variable {α κ : Type} [DecidableEq κ] (f : α → κ)

def dedupBy (seen : List κ) : List α → List α
  | [] => []
  | x :: r => if f x ∈ seen then dedupBy seen r else x :: dedupBy (f x :: seen) r

theorem dedupBy_congr {s t : List κ} (h : ∀ k, k ∈ s ↔ k ∈ t) (l : List α) :
    dedupBy f s l = dedupBy f t l := by
  induction l generalizing s t with
  | nil => rfl
  | cons x r ih =>
    simp only [dedupBy, h (f x)]
    split
    · exact ih h
    · rw [ih (s := f x :: s) (t := f x :: t) (by simp [h])]

theorem dedupBy_append (s : List κ) (a b : List α) :
    dedupBy f s (a ++ b) = dedupBy f s a ++ dedupBy f (a.map f ++ s) b := by
  induction a generalizing s with
  | nil => rfl
  | cons x r ih =>
    simp only [List.cons_append, dedupBy]
    split
    · rename_i h
      rw [ih]
      congr 1
      apply dedupBy_congr
      intro k; simp only [List.mem_append, List.map_cons, List.cons_append, List.mem_cons]
      constructor
      · intro h; exact .inr h
      · rintro (rfl | h1)
        · exact .inr h
        · exact h1
    · rw [ih, List.cons_append]
      congr 2
      apply dedupBy_congr
      intro k; simp only [List.mem_append, List.map_cons, List.cons_append, List.mem_cons]
      grind

theorem mem_of_mem_dedupBy {s : List κ} {l : List α} {x : α} (h : x ∈ dedupBy f s l) : x ∈ l := by
  induction l generalizing s with
  | nil => simp [dedupBy] at h
  | cons y r ih =>
    simp only [dedupBy] at h
    split at h
    · exact List.mem_cons_of_mem _ (ih h)
    · rcases List.mem_cons.1 h with h | h
      · subst h; simp
      · exact List.mem_cons_of_mem _ (ih h)

theorem notMem_seen_of_mem_dedupBy {s : List κ} {l : List α} {x : α} (h : x ∈ dedupBy f s l) :
    f x ∉ s := by
  induction l generalizing s with
  | nil => simp [dedupBy] at h
  | cons y r ih =>
    simp only [dedupBy] at h
    split at h
    · exact ih h
    · rename_i hy
      rcases List.mem_cons.1 h with h | h
      · subst h; exact hy
      · have := ih h; simp at this; exact this.2

theorem mem_keys_dedupBy {s : List κ} {l : List α} {k : κ} :
    k ∈ (dedupBy f s l).map f ↔ k ∈ l.map f ∧ k ∉ s := by
  induction l generalizing s with
  | nil => simp [dedupBy]
  | cons y r ih =>
    simp only [dedupBy]
    split
    · rename_i hy
      rw [ih]; simp only [List.map_cons, List.mem_cons]
      constructor
      · rintro ⟨h1, h2⟩; exact ⟨.inr h1, h2⟩
      · rintro ⟨h1 | h1, h2⟩
        · subst h1; exact absurd hy h2
        · exact ⟨h1, h2⟩
    · rename_i hy
      simp only [List.map_cons, List.mem_cons, ih]
      grind

theorem nodup_dedupBy (s : List κ) (l : List α) : ((dedupBy f s l).map f).Nodup := by
  induction l generalizing s with
  | nil => simp [dedupBy]
  | cons y r ih =>
    simp only [dedupBy]
    split
    · exact ih s
    · simp only [List.map_cons, List.nodup_cons]
      refine ⟨?_, ih _⟩
      rw [mem_keys_dedupBy]; simp

theorem dedupBy_eq_self {s : List κ} {l : List α} (h : (l.map f).Nodup) (hs : ∀ k ∈ l.map f, k ∉ s) :
    dedupBy f s l = l := by
  induction l generalizing s with
  | nil => rfl
  | cons y r ih =>
    simp only [List.map_cons, List.nodup_cons] at h
    simp only [dedupBy, hs (f y) (by simp), if_false]
    rw [ih h.2]
    intro k hk
    have h1 := hs k (by simp at hk ⊢; exact .inr hk)
    simp only [List.mem_cons, not_or]
    refine ⟨?_, h1⟩
    rintro rfl; exact h.1 hk

/-- dedup of a concatenation of dedups -/
theorem dedupBy_flatMap {β : Type} (s : List κ) (L : List β) (g : β → List α) :
    dedupBy f s (L.flatMap fun b => dedupBy f [] (g b)) = dedupBy f s (L.flatMap g) := by
  have inner : ∀ (s t : List κ) (l : List α), (∀ k ∈ t, k ∈ s) →
      dedupBy f s (dedupBy f t l) = dedupBy f s l := by
    intro s t l
    induction l generalizing s t with
    | nil => intro _; rfl
    | cons x r ih =>
      intro ht
      simp only [dedupBy]
      by_cases h1 : f x ∈ t
      · simp only [h1, ht _ h1, if_true]; exact ih _ _ ht
      · simp only [h1, if_false, dedupBy]
        by_cases h2 : f x ∈ s
        · simp only [h2, if_true]; exact ih _ _ (by simp only [List.mem_cons]; grind)
        · simp only [h2, if_false]
          rw [ih _ _ (by simp only [List.mem_cons]; grind)]
  induction L generalizing s with
  | nil => rfl
  | cons b r ih =>
    rw [List.flatMap_cons, List.flatMap_cons, dedupBy_append, dedupBy_append, inner _ _ _ (by simp), ih]
    congr 1
    apply dedupBy_congr
    intro k
    simp only [List.mem_append, mem_keys_dedupBy]; simp

end

/-! ### closed forms of the two loops of `_merge` -/

def fieldItems (l : List QItem) : List QItem := l.filter fun i => !i.isLink
def linkItems (l : List QItem) : List QItem := l.filter fun i => i.isLink

theorem mergeFields_eq (H : PyHash) (seen : List MKey) (l : List QItem) :
    mergeFields H seen l = dedupBy (itemKey H) seen (fieldItems l) := by
  induction l generalizing seen with
  | nil => rfl
  | cons x r ih =>
    cases x with
    | field n o a =>
      have e : fieldItems (QItem.field n o a :: r) = QItem.field n o a :: fieldItems r := rfl
      rw [e]
      simp only [mergeFields, dedupBy]
      by_cases h : itemKey H (QItem.field n o a) ∈ seen
      · have h' : (n, optionsHash H o, a) ∈ seen := h
        rw [if_pos h, if_pos h']; exact ih _
      · have h' : (n, optionsHash H o, a) ∉ seen := h
        rw [if_neg h, if_neg h', ih]; rfl
    | link n q o a =>
      simp only [mergeFields, ih]; rfl

/-- nodes of the links with key `k`, in order -/
def nodesOf (H : PyHash) (k : MKey) (l : List QItem) : List QNode :=
  l.filterMap fun
    | .field .. => none
    | .link n q o a => if (n, optionsHash H o, a) = k then some q else none

theorem nodesOf_append (H : PyHash) (k : MKey) (a b : List QItem) :
    nodesOf H k (a ++ b) = nodesOf H k a ++ nodesOf H k b := by simp [nodesOf]

theorem nodesOf_flatMap {β : Type} (H : PyHash) (k : MKey) (L : List β) (g : β → List QItem) :
    nodesOf H k (L.flatMap g) = L.flatMap fun b => nodesOf H k (g b) := by
  induction L with
  | nil => rfl
  | cons b r ih => simp [nodesOf_append, ih]

theorem mem_nodesOf {H : PyHash} {k : MKey} {l : List QItem} {q : QNode} :
    q ∈ nodesOf H k l ↔ ∃ n o a, QItem.link n q o a ∈ l ∧ (n, optionsHash H o, a) = k := by
  unfold nodesOf
  rw [List.mem_filterMap]
  constructor
  · rintro ⟨x, hx, h⟩
    cases x with
    | field => simp at h
    | link n q' o a =>
      simp only at h
      split at h
      · simp at h; subst h; exact ⟨n, o, a, hx, by assumption⟩
      · simp at h
  · rintro ⟨n, o, a, hx, h⟩
    exact ⟨_, hx, by simp [h]⟩

def mkGroup (H : PyHash) (all : List QItem) : QItem → LinkGroup
  | i => ⟨i.name, i.options, i.alias_, nodesOf H (itemKey H i) all⟩

theorem mkGroup_mkey (H : PyHash) (all : List QItem) (i : QItem) :
    (mkGroup H all i).mkey H = itemKey H i := by
  cases i <;> rfl

theorem addLink_map (H : PyHash) (n : String) (q : QNode) (o : Opts) (a : Option String)
    (all L : List QItem) (hL : (L.map (itemKey H)).Nodup)
    (hall : ∀ i ∈ all, i.isLink = true → itemKey H i ∈ L.map (itemKey H))  :
    addLink H n q o a (L.map (mkGroup H all)) =
      (dedupBy (itemKey H) [] (L ++ [.link n q o a])).map (mkGroup H (all ++ [.link n q o a])) := by
  have hself : ∀ s, dedupBy (itemKey H) s [QItem.link n q o a] =
      if itemKey H (QItem.link n q o a) ∈ s then [] else [QItem.link n q o a] := by
    intro s
    by_cases h : itemKey H (QItem.link n q o a) ∈ s
    · simp only [dedupBy, if_pos h]
    · simp only [dedupBy, if_neg h]
  have key : ∀ (L : List QItem), (L.map (itemKey H)).Nodup →
      addLink H n q o a (L.map (mkGroup H all)) =
      if itemKey H (QItem.link n q o a) ∈ L.map (itemKey H) then
        L.map (mkGroup H (all ++ [.link n q o a]))
      else L.map (mkGroup H (all ++ [.link n q o a])) ++ [⟨n, o, a, [q]⟩] := by
    intro L hL
    induction L with
    | nil => simp [addLink]
    | cons x r ih =>
      simp only [List.map_cons, List.nodup_cons] at hL
      simp only [List.map_cons, addLink, mkGroup_mkey]
      by_cases h : itemKey H x = (n, optionsHash H o, a)
      · have hm : itemKey H (QItem.link n q o a) ∈ itemKey H x :: r.map (itemKey H) := by
          rw [h]; exact List.mem_cons_self ..
        rw [if_pos h, if_pos hm, List.cons.injEq]
        refine ⟨?_, ?_⟩
        · simp only [mkGroup, nodesOf_append, h]
          simp [nodesOf]
        · apply List.map_congr_left
          intro y hy
          have : itemKey H y ≠ (n, optionsHash H o, a) := by
            intro e; rw [← h] at e; exact hL.1 (List.mem_map.2 ⟨y, hy, e⟩)
          simp only [mkGroup, nodesOf_append]
          simp [nodesOf, Ne.symm this]
      · rw [if_neg h, ih hL.2]
        have hx : mkGroup H all x = mkGroup H (all ++ [QItem.link n q o a]) x := by
          simp only [mkGroup, nodesOf_append]
          simp [nodesOf, Ne.symm h]
        rw [hx]
        by_cases hm : itemKey H (QItem.link n q o a) ∈ r.map (itemKey H)
        · rw [if_pos hm, if_pos (List.mem_cons_of_mem _ hm)]
        · have hm' : itemKey H (QItem.link n q o a) ∉ itemKey H x :: r.map (itemKey H) := by
            rw [List.mem_cons, not_or]; exact ⟨fun e => h e.symm, hm⟩
          rw [if_neg hm, if_neg hm', List.cons_append]
  rw [key L hL, dedupBy_append, dedupBy_eq_self _ hL (by simp), hself]
  simp only [List.append_nil, List.map_append]
  split
  · simp
  · rename_i h
    congr 1
    simp only [List.map_cons, List.map_nil, mkGroup, nodesOf_append, QItem.name, QItem.options,
      QItem.alias_]
    have h0 : nodesOf H (itemKey H (QItem.link n q o a)) all = [] := by
      rw [List.eq_nil_iff_forall_not_mem]
      intro q' hq'
      obtain ⟨n', o', a', hm, he⟩ := mem_nodesOf.1 hq'
      apply h
      have := hall _ hm rfl
      simp only [itemKey] at this he ⊢
      rw [← he]; exact this
    rw [h0]
    simp [nodesOf, itemKey]

theorem linkGroups_append (H : PyHash) (gs : List LinkGroup) (a b : List QItem) :
    linkGroups H gs (a ++ b) = linkGroups H (linkGroups H gs a) b := by
  induction a generalizing gs with
  | nil => rfl
  | cons x r ih => cases x <;> simp [linkGroups, ih]

theorem snocInduction {α : Type} {P : List α → Prop} (h0 : P [])
    (h1 : ∀ l x, P l → P (l ++ [x])) (l : List α) : P l := by
  have : ∀ l : List α, P l.reverse := by
    intro l
    induction l with
    | nil => exact h0
    | cons x r ih => rw [List.reverse_cons]; exact h1 _ _ ih
  have := this l.reverse
  simpa using this

theorem linkGroups_eq (H : PyHash) (l : List QItem) :
    linkGroups H [] l = (dedupBy (itemKey H) [] (linkItems l)).map (mkGroup H l) := by
  induction l using snocInduction with
  | h0 => rfl
  | h1 l x ih =>
    rw [linkGroups_append, ih]
    cases x with
    | field n o a =>
      have : linkItems (l ++ [QItem.field n o a]) = linkItems l := by
        simp [linkItems, QItem.isLink]
      rw [this]
      simp only [linkGroups]
      apply List.map_congr_left
      intro y _
      simp only [mkGroup, nodesOf_append]
      simp [nodesOf]
    | link n q o a =>
      have : linkItems (l ++ [QItem.link n q o a]) = linkItems l ++ [QItem.link n q o a] := by
        simp [linkItems, QItem.isLink]
      rw [this]
      simp only [linkGroups]
      rw [addLink_map H n q o a l _ (nodup_dedupBy _ _ _)]
      · congr 1
        simp only [dedupBy_append]
        have e : dedupBy (itemKey H) [] (dedupBy (itemKey H) [] (linkItems l)) =
          dedupBy (itemKey H) [] (linkItems l) := dedupBy_eq_self _ (nodup_dedupBy _ _ _) (by simp)
        rw [e]
        congr 1
        apply dedupBy_congr
        intro k
        simp only [List.append_nil, mem_keys_dedupBy]; simp
      · intro i hi hl
        rw [mem_keys_dedupBy]
        refine ⟨List.mem_map.2 ⟨i, ?_, rfl⟩, by simp⟩
        simp [linkItems, hi, hl]

/-! ### `merge` satisfies the recursive equation of the code -/

theorem depthItems_mem {l : List QItem} {i : QItem} (h : i ∈ l) : i.depth ≤ depthItems l := by
  induction l with
  | nil => simp at h
  | cons x r ih =>
    simp only [depthItems]
    rcases List.mem_cons.1 h with h | h
    · subst h; omega
    · have := ih h; omega

theorem depthNodes_mem {l : List QNode} {q : QNode} (h : q ∈ l) : q.depth ≤ depthNodes l := by
  induction l with
  | nil => simp at h
  | cons x r ih =>
    simp only [depthNodes]
    rcases List.mem_cons.1 h with h | h
    · subst h; omega
    · have := ih h; omega

theorem depthNodes_le {l : List QNode} {d : Nat} (h : ∀ q ∈ l, q.depth ≤ d) : depthNodes l ≤ d := by
  induction l with
  | nil => simp [depthNodes]
  | cons x r ih =>
    simp only [depthNodes]
    have := ih (fun q hq => h q (List.mem_cons_of_mem _ hq))
    have := h x (by simp)
    omega

theorem QNode.depth_eq (q : QNode) : q.depth = depthItems q.fields := by
  cases q; simp [QNode.depth, QNode.fields]

theorem group_depth {H : PyHash} {nodes : List QNode} {g : LinkGroup}
    (h : g ∈ linkGroups H [] (nodes.flatMap QNode.fields)) :
    depthNodes g.nodes + 1 ≤ depthNodes nodes := by
  rw [linkGroups_eq] at h
  obtain ⟨i, hi, rfl⟩ := List.mem_map.1 h
  have bound : ∀ (n : String) (q : QNode) (o : Opts) (a : Option String),
      QItem.link n q o a ∈ nodes.flatMap QNode.fields → q.depth + 1 ≤ depthNodes nodes := by
    intro n q o a hm
    obtain ⟨nd, hnd, hin⟩ := List.mem_flatMap.1 hm
    have h1 := depthItems_mem hin
    have h2 := depthNodes_mem hnd
    rw [QNode.depth_eq] at h2
    simp only [QItem.depth] at h1
    omega
  have hi' := mem_of_mem_dedupBy _ hi
  simp only [linkItems, List.mem_filter] at hi'
  cases i with
  | field => simp [QItem.isLink] at hi'
  | link n q o a =>
    have := bound _ _ _ _ hi'.1
    have : depthNodes (mkGroup H (nodes.flatMap QNode.fields) (.link n q o a)).nodes ≤
        depthNodes nodes - 1 := by
      apply depthNodes_le
      intro q' hq'
      obtain ⟨n', o', a', hm, _⟩ := mem_nodesOf.1 hq'
      have := bound _ _ _ _ hm
      omega
    omega

theorem mergeF_fuel (H : PyHash) (k : Nat) (nodes : List QNode) (h : depthNodes nodes + 1 ≤ k) :
    mergeF H k nodes = merge H nodes := by
  have main : ∀ (k k' : Nat) (nodes : List QNode), depthNodes nodes + 1 ≤ k →
      depthNodes nodes + 1 ≤ k' → mergeF H k nodes = mergeF H k' nodes := by
    intro k
    induction k with
    | zero => intro k' nodes h; omega
    | succ k ih =>
      intro k' nodes h h'
      cases k' with
      | zero => omega
      | succ k' =>
        simp only [mergeF]
        congr 2
        apply List.map_congr_left
        intro g hg
        have := group_depth hg
        rw [ih k' g.nodes (by omega) (by omega)]
  exact main _ _ _ h (Nat.le_refl _)

/-- `merge` satisfies the equation of the code, query.py:174-205 -/
theorem merge_eq (H : PyHash) (nodes : List QNode) :
    merge H nodes =
      .mk (mergeFields H [] (nodes.flatMap QNode.fields) ++
            (linkGroups H [] (nodes.flatMap QNode.fields)).map
              fun g => .link g.name (merge H g.nodes) g.options g.alias_)
          (nodes.any QNode.ordered) := by
  conv => lhs; unfold merge
  simp only [mergeF]
  congr 2
  apply List.map_congr_left
  intro g hg
  have := group_depth hg
  rw [mergeF_fuel H _ g.nodes (by omega)]

/-- induction over the recursion of `merge` -/
theorem merge_induction (H : PyHash) {P : List QNode → Prop}
    (h : ∀ nodes, (∀ g ∈ linkGroups H [] (nodes.flatMap QNode.fields), P g.nodes) → P nodes)
    (nodes : List QNode) : P nodes := by
  have : ∀ d nodes, depthNodes nodes ≤ d → P nodes := by
    intro d
    induction d with
    | zero =>
      intro nodes hd
      apply h
      intro g hg
      have := group_depth hg; omega
    | succ d ih =>
      intro nodes hd
      apply h
      intro g hg
      exact ih _ (by have := group_depth hg; omega)
  exact this _ nodes (Nat.le_refl _)

/-- closed form used by all proofs about `merge` -/
theorem merge_closed (H : PyHash) (nodes : List QNode) :
    merge H nodes =
      .mk (dedupBy (itemKey H) [] (fieldItems (nodes.flatMap QNode.fields)) ++
            (dedupBy (itemKey H) [] (linkItems (nodes.flatMap QNode.fields))).map
              fun i => .link i.name
                (merge H (nodesOf H (itemKey H i) (nodes.flatMap QNode.fields))) i.options i.alias_)
          (nodes.any QNode.ordered) := by
  rw [merge_eq, mergeFields_eq, linkGroups_eq, List.map_map]
  rfl

/-- induction over nesting depth, with the closed form -/
theorem merge_induction' (H : PyHash) {P : List QNode → Prop}
    (h : ∀ nodes, (∀ i ∈ linkItems (nodes.flatMap QNode.fields),
        P (nodesOf H (itemKey H i) (nodes.flatMap QNode.fields))) → P nodes)
    (nodes : List QNode) : P nodes := by
  have : ∀ d nodes, depthNodes nodes ≤ d → P nodes := by
    intro d
    have step : ∀ (nodes : List QNode) (i : QItem), i ∈ linkItems (nodes.flatMap QNode.fields) →
        depthNodes (nodesOf H (itemKey H i) (nodes.flatMap QNode.fields)) + 1 ≤ depthNodes nodes := by
      intro nodes i hi
      have : itemKey H i ∈ (dedupBy (itemKey H) [] (linkItems (nodes.flatMap QNode.fields))).map
          (itemKey H) := by
        rw [mem_keys_dedupBy]; exact ⟨List.mem_map.2 ⟨i, hi, rfl⟩, by simp⟩
      obtain ⟨j, hj, hk⟩ := List.mem_map.1 this
      have hg : mkGroup H (nodes.flatMap QNode.fields) j ∈
          linkGroups H [] (nodes.flatMap QNode.fields) := by
        rw [linkGroups_eq]; exact List.mem_map.2 ⟨j, hj, rfl⟩
      have := group_depth hg
      simpa [mkGroup, hk] using this
    induction d with
    | zero =>
      intro nodes hd
      apply h
      intro i hi
      have := step nodes i hi; omega
    | succ d ih =>
      intro nodes hd
      apply h
      intro i hi
      exact ih _ (by have := step nodes i hi; omega)
  exact this _ nodes (Nat.le_refl _)

end Hiku
