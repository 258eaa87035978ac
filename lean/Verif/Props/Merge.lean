import Verif.Proofs.Merge

/-! # C01, C02, C03: `hiku.query.merge` -/

namespace Hiku

theorem QNode.eta (q : QNode) : q = .mk q.fields q.ordered := by cases q; rfl

theorem requests_mk_iff (H : PyHash) (q : QNode) (p : List ItemKey) (b : Bool) (k : ItemKey) :
    Requests H q p b k ↔
      (p = [] ∧ ∃ i ∈ q.fields, i.isLink = b ∧ itemKey H i = k) ∨
      (∃ k' p', p = k' :: p' ∧ ∃ n q' o a, QItem.link n q' o a ∈ q.fields ∧
          (n, optionsHash H o, a) = k' ∧ Requests H q' p' b k) := by
  constructor
  · intro h
    cases h with
    | field hm => exact .inl ⟨rfl, _, hm, rfl, rfl⟩
    | link hm => exact .inl ⟨rfl, _, hm, rfl, rfl⟩
    | under hm hr => exact .inr ⟨_, _, rfl, _, _, _, _, hm, rfl, hr⟩
  · rw [q.eta]
    rintro (⟨rfl, i, hi, rfl, rfl⟩ | ⟨_, p', rfl, n, q', o, a, hm, rfl, hr⟩)
    · cases i with
      | field n o a => exact .field hi
      | link n q' o a => exact .link hi
    · exact .under hm hr

theorem mem_linkItems {l : List QItem} {i : QItem} :
    i ∈ linkItems l ↔ i ∈ l ∧ i.isLink = true := by simp [linkItems]
theorem mem_fieldItems {l : List QItem} {i : QItem} :
    i ∈ fieldItems l ↔ i ∈ l ∧ i.isLink = false := by simp [fieldItems]

theorem itemKey_eq (H : PyHash) (i : QItem) : itemKey H i = (i.name, optionsHash H i.options, i.alias_) := by
  cases i <;> rfl

/-- **C01** (first half).  A path is requested by the merged query iff it is requested by one of
the merged queries. -/
theorem c01_merge_requests (H : PyHash) (nodes : List QNode) (p : List ItemKey) (b : Bool)
    (k : ItemKey) :
    Requests H (merge H nodes) p b k ↔ ∃ q ∈ nodes, Requests H q p b k := by
  induction nodes using merge_induction' H generalizing p with
  | h nodes ih =>
  have items : ∀ i, i ∈ nodes.flatMap QNode.fields ↔ ∃ q ∈ nodes, i ∈ q.fields := by
    intro i; exact List.mem_flatMap
  constructor
  · intro h
    rw [requests_mk_iff, merge_closed] at h
    simp only [QNode.fields, List.mem_append] at h
    rcases h with ⟨rfl, i, hi | hi, hb, hk⟩ | ⟨k', p', rfl, n, q', o, a, hm | hm, hk', hr⟩
    · have hi := mem_of_mem_dedupBy _ hi
      rw [mem_fieldItems, items] at hi
      obtain ⟨⟨q, hq, hiq⟩, -⟩ := hi
      exact ⟨q, hq, (requests_mk_iff ..).2 (.inl ⟨rfl, i, hiq, hb, hk⟩)⟩
    · obtain ⟨j, hj, rfl⟩ := List.mem_map.1 hi
      have hj := mem_of_mem_dedupBy _ hj
      rw [mem_linkItems, items] at hj
      obtain ⟨⟨q, hq, hjq⟩, hl⟩ := hj
      refine ⟨q, hq, (requests_mk_iff ..).2 (.inl ⟨rfl, j, hjq, ?_, ?_⟩)⟩
      · rw [hl, ← hb]; rfl
      · rw [← hk, itemKey_eq]; rfl
    · have hm := mem_of_mem_dedupBy _ hm
      rw [mem_fieldItems] at hm
      simp [QItem.isLink] at hm
    · obtain ⟨j, hj, hjl⟩ := List.mem_map.1 hm
      simp only [QItem.link.injEq] at hjl
      obtain ⟨rfl, rfl, rfl, rfl⟩ := hjl
      have hj := mem_of_mem_dedupBy _ hj
      rw [ih j hj] at hr
      obtain ⟨q', hq', hr⟩ := hr
      obtain ⟨n', o', a', hm', hk''⟩ := mem_nodesOf.1 hq'
      rw [items] at hm'
      obtain ⟨q, hq, hiq⟩ := hm'
      refine ⟨q, hq, (requests_mk_iff ..).2 (.inr ⟨_, _, rfl, _, _, _, _, hiq, ?_, hr⟩)⟩
      rw [hk'', ← hk', itemKey_eq]
  · rintro ⟨q, hq, h⟩
    rw [requests_mk_iff] at h
    rw [requests_mk_iff, merge_closed]
    simp only [QNode.fields, List.mem_append]
    rcases h with ⟨rfl, i, hi, hb, hk⟩ | ⟨k', p', rfl, n, q', o, a, hm, hk', hr⟩
    · left
      refine ⟨rfl, ?_⟩
      have hmem : i ∈ nodes.flatMap QNode.fields := (items _).2 ⟨q, hq, hi⟩
      cases hl : i.isLink with
      | false =>
        have : itemKey H i ∈ (dedupBy (itemKey H) [] (fieldItems (nodes.flatMap QNode.fields))).map
            (itemKey H) := by
          rw [mem_keys_dedupBy]
          exact ⟨List.mem_map.2 ⟨i, mem_fieldItems.2 ⟨hmem, hl⟩, rfl⟩, by simp⟩
        obtain ⟨j, hj, hjk⟩ := List.mem_map.1 this
        refine ⟨j, .inl hj, ?_, by rw [hjk, hk]⟩
        rw [← hb, hl]
        exact (mem_fieldItems.1 (mem_of_mem_dedupBy _ hj)).2
      | true =>
        have : itemKey H i ∈ (dedupBy (itemKey H) [] (linkItems (nodes.flatMap QNode.fields))).map
            (itemKey H) := by
          rw [mem_keys_dedupBy]
          exact ⟨List.mem_map.2 ⟨i, mem_linkItems.2 ⟨hmem, hl⟩, rfl⟩, by simp⟩
        obtain ⟨j, hj, hjk⟩ := List.mem_map.1 this
        refine ⟨_, .inr (List.mem_map.2 ⟨j, hj, rfl⟩), ?_, ?_⟩
        · rw [← hb, hl]; rfl
        · rw [← hk, ← hjk, itemKey_eq H j]; rfl
    · right
      have hmem : QItem.link n q' o a ∈ nodes.flatMap QNode.fields := (items _).2 ⟨q, hq, hm⟩
      have : itemKey H (.link n q' o a) ∈
          (dedupBy (itemKey H) [] (linkItems (nodes.flatMap QNode.fields))).map (itemKey H) := by
        rw [mem_keys_dedupBy]
        exact ⟨List.mem_map.2 ⟨_, mem_linkItems.2 ⟨hmem, rfl⟩, rfl⟩, by simp⟩
      obtain ⟨j, hj, hjk⟩ := List.mem_map.1 this
      refine ⟨k', p', rfl, j.name, _, j.options, j.alias_, .inr (List.mem_map.2 ⟨j, hj, rfl⟩), ?_, ?_⟩
      · rw [← hk', ← itemKey_eq, hjk]; rfl
      · rw [ih j (mem_of_mem_dedupBy _ hj)]
        refine ⟨q', mem_nodesOf.2 ⟨n, o, a, hmem, ?_⟩, hr⟩
        rw [hjk]; rfl

/-- **C01** (second half).  In the merged query, at every depth, no two fields and no two links have
the same name, options hash and alias. -/
theorem c01_merge_nodup (H : PyHash) (nodes : List QNode) (q : QNode)
    (h : Below (merge H nodes) q) : NodeNoDup H q := by
  induction nodes using merge_induction' H with
  | h nodes ih =>
  rw [merge_closed] at h
  have filt : ∀ (A : List QItem) (B : List QItem), (∀ i ∈ A, i.isLink = false) →
      (∀ i ∈ B, i.isLink = true) →
      (A ++ B).filter (fun i => !i.isLink) = A ∧ (A ++ B).filter (fun i => i.isLink) = B := by
    intro A B hA hB
    rw [List.filter_append, List.filter_append]
    refine ⟨?_, ?_⟩
    · rw [List.filter_eq_self.2 (by simpa using hA), List.filter_eq_nil_iff.2 (by simpa using hB)]
      simp
    · rw [List.filter_eq_nil_iff.2 (by simpa using hA), List.filter_eq_self.2 (by simpa using hB)]
      simp
  generalize hA : dedupBy (itemKey H) [] (fieldItems (nodes.flatMap QNode.fields)) = A at h
  generalize hB : dedupBy (itemKey H) [] (linkItems (nodes.flatMap QNode.fields)) = B at h
  generalize ho : nodes.any QNode.ordered = ord at h
  cases h with
  | refl =>
    obtain ⟨f1, f2⟩ := filt A (B.map fun i => QItem.link i.name
        (merge H (nodesOf H (itemKey H i) (nodes.flatMap QNode.fields))) i.options i.alias_)
      (by subst hA; intro i hi; exact (mem_fieldItems.1 (mem_of_mem_dedupBy _ hi)).2)
      (by intro i hi; obtain ⟨j, _, rfl⟩ := List.mem_map.1 hi; rfl)
    unfold NodeNoDup
    simp only [QNode.fields]
    rw [f1, f2]
    refine ⟨by subst hA; exact nodup_dedupBy _ _ _, ?_⟩
    have e : (fun i : QItem => itemKey H (QItem.link i.name
        (merge H (nodesOf H (itemKey H i) (nodes.flatMap QNode.fields))) i.options i.alias_)) =
        itemKey H := by
      funext i; rw [itemKey_eq H i]; rfl
    rw [List.map_map]
    change (B.map (fun i : QItem => itemKey H (QItem.link i.name
        (merge H (nodesOf H (itemKey H i) (nodes.flatMap QNode.fields))) i.options i.alias_))).Nodup
    rw [e]
    subst hB; exact nodup_dedupBy _ _ _
  | step hm hb =>
    rw [List.mem_append] at hm
    rcases hm with hm | hm
    · subst hA
      have := (mem_fieldItems.1 (mem_of_mem_dedupBy _ hm)).2
      simp [QItem.isLink] at this
    · obtain ⟨j, hj, hjl⟩ := List.mem_map.1 hm
      simp only [QItem.link.injEq] at hjl
      obtain ⟨rfl, rfl, rfl, rfl⟩ := hjl
      subst hB
      exact ih j (mem_of_mem_dedupBy _ hj) hb

/-- **C01** (what is kept).  Every field of the merged query is, with its options and alias, a field
of one of the merged queries, and every link has the name, the options and the alias of a link of
one of them. -/
theorem c01_merge_kept (H : PyHash) (nodes : List QNode) (i : QItem)
    (hi : i ∈ (merge H nodes).fields) :
    ∃ q ∈ nodes, ∃ j ∈ q.fields, j.isLink = i.isLink ∧ j.name = i.name ∧
      j.options = i.options ∧ j.alias_ = i.alias_ := by
  rw [merge_closed] at hi
  simp only [QNode.fields, List.mem_append] at hi
  rcases hi with hi | hi
  · have := (mem_fieldItems.1 (mem_of_mem_dedupBy _ hi)).1
    obtain ⟨q, hq, hm⟩ := List.mem_flatMap.1 this
    exact ⟨q, hq, i, hm, rfl, rfl, rfl, rfl⟩
  · obtain ⟨j, hj, rfl⟩ := List.mem_map.1 hi
    have := mem_linkItems.1 (mem_of_mem_dedupBy _ hj)
    obtain ⟨q, hq, hm⟩ := List.mem_flatMap.1 this.1
    exact ⟨q, hq, j, hm, this.2, rfl, rfl, rfl⟩

/-! ## C02 -/

section
variable {α β κ : Type} [DecidableEq κ]
theorem dedupBy_map (f : β → κ) (g : α → β) (s : List κ) (l : List α) :
    dedupBy f s (l.map g) = (dedupBy (fun a => f (g a)) s l).map g := by
  induction l generalizing s with
  | nil => rfl
  | cons x r ih =>
    simp only [List.map_cons, dedupBy]
    split
    · exact ih _
    · rw [ih]; rfl
end

/-- name, options and alias of an item -/
def QItem.trip (i : QItem) : String × Opts × Option String := (i.name, i.options, i.alias_)
def tripKey (H : PyHash) (t : String × Opts × Option String) : MKey := (t.1, optionsHash H t.2.1, t.2.2)

theorem tripKey_trip (H : PyHash) (i : QItem) : tripKey H i.trip = itemKey H i := by
  cases i <;> rfl

theorem tripKey_trip' (H : PyHash) : (fun i : QItem => tripKey H i.trip) = itemKey H := by
  funext i; exact tripKey_trip H i

/-- `merge` written with triples -/
theorem merge_trip (H : PyHash) (nodes : List QNode) :
    merge H nodes =
      .mk (dedupBy (itemKey H) [] (fieldItems (nodes.flatMap QNode.fields)) ++
            (dedupBy (tripKey H) [] ((linkItems (nodes.flatMap QNode.fields)).map QItem.trip)).map
              fun t => .link t.1
                (merge H (nodesOf H (tripKey H t) (nodes.flatMap QNode.fields))) t.2.1 t.2.2)
          (nodes.any QNode.ordered) := by
  rw [merge_closed, dedupBy_map, tripKey_trip', List.map_map]
  congr 2
  apply List.map_congr_left
  intro i _
  simp only [Function.comp, tripKey_trip]
  rfl

@[simp] theorem QNode.fields_mk (fs : List QItem) (o : Bool) : (QNode.mk fs o).fields = fs := rfl
@[simp] theorem QNode.ordered_mk (fs : List QItem) (o : Bool) : (QNode.mk fs o).ordered = o := rfl

theorem partition_items (A B : List QItem) (hA : ∀ i ∈ A, i.isLink = false)
    (hB : ∀ i ∈ B, i.isLink = true) : fieldItems (A ++ B) = A ∧ linkItems (A ++ B) = B := by
  unfold fieldItems linkItems
  rw [List.filter_append, List.filter_append]
  refine ⟨?_, ?_⟩
  · rw [List.filter_eq_self.2 (by simpa using hA), List.filter_eq_nil_iff.2 (by simpa using hB)]
    simp
  · rw [List.filter_eq_nil_iff.2 (by simpa using hA), List.filter_eq_self.2 (by simpa using hB)]
    simp

theorem linkItems_merge (H : PyHash) (nodes : List QNode) :
    linkItems (merge H nodes).fields =
      (dedupBy (tripKey H) [] ((linkItems (nodes.flatMap QNode.fields)).map QItem.trip)).map
              fun t => .link t.1
                (merge H (nodesOf H (tripKey H t) (nodes.flatMap QNode.fields))) t.2.1 t.2.2 := by
  rw [merge_trip]
  refine (partition_items _ _ ?_ ?_).2
  · intro i hi; exact (mem_fieldItems.1 (mem_of_mem_dedupBy _ hi)).2
  · intro i hi; obtain ⟨j, _, rfl⟩ := List.mem_map.1 hi; rfl

theorem fieldItems_merge (H : PyHash) (nodes : List QNode) :
    fieldItems (merge H nodes).fields =
      dedupBy (itemKey H) [] (fieldItems (nodes.flatMap QNode.fields)) := by
  rw [merge_trip]
  refine (partition_items _ _ ?_ ?_).1
  · intro i hi; exact (mem_fieldItems.1 (mem_of_mem_dedupBy _ hi)).2
  · intro i hi; obtain ⟨j, _, rfl⟩ := List.mem_map.1 hi; rfl

theorem nodesOf_linkItems (H : PyHash) (k : MKey) (l : List QItem) :
    nodesOf H k (linkItems l) = nodesOf H k l := by
  induction l with
  | nil => rfl
  | cons x r ih =>
    cases x with
    | field => simpa [linkItems, QItem.isLink, nodesOf] using ih
    | link n q o a =>
      have e : linkItems (QItem.link n q o a :: r) = QItem.link n q o a :: linkItems r := rfl
      have e2 : ∀ l, nodesOf H k (QItem.link n q o a :: l) =
          nodesOf H k [QItem.link n q o a] ++ nodesOf H k l := fun l => nodesOf_append H k [_] l
      rw [e, e2, e2 r, ih]

theorem nodesOf_trips (H : PyHash) (k : MKey) (T : List (String × Opts × Option String))
    (hT : (T.map (tripKey H)).Nodup) (g : MKey → QNode) :
    nodesOf H k (T.map fun t => .link t.1 (g (tripKey H t)) t.2.1 t.2.2) =
      if k ∈ T.map (tripKey H) then [g k] else [] := by
  induction T with
  | nil => rfl
  | cons t r ih =>
    simp only [List.map_cons, List.nodup_cons] at hT
    have e2 : ∀ (x : QItem) l, x :: l = [x] ++ l := fun _ _ => rfl
    rw [List.map_cons, e2, nodesOf_append, ih hT.2]
    have e : (t.1, optionsHash H t.2.1, t.2.2) = tripKey H t := rfl
    by_cases h : tripKey H t = k
    · subst h
      rw [if_neg hT.1, if_pos (by simp)]
      simp [nodesOf, e]
    · have : k ∈ List.map (tripKey H) (t :: r) ↔ k ∈ List.map (tripKey H) r := by
        simp only [List.map_cons, List.mem_cons]
        constructor
        · rintro (h1 | h1)
          · exact absurd h1.symm h
          · exact h1
        · exact .inr
      by_cases h2 : k ∈ List.map (tripKey H) r
      · rw [if_pos h2, if_pos (this.2 h2)]; simp [nodesOf, e, h]
      · rw [if_neg h2, if_neg (fun h => h2 (this.1 h))]; simp [nodesOf, e, h]

theorem nodesOf_merge (H : PyHash) (k : MKey) (nodes : List QNode) :
    nodesOf H k (merge H nodes).fields =
      if nodesOf H k (nodes.flatMap QNode.fields) = [] then []
      else [merge H (nodesOf H k (nodes.flatMap QNode.fields))] := by
  rw [← nodesOf_linkItems, linkItems_merge,
    nodesOf_trips H k _ (nodup_dedupBy _ _ _)
      (fun k => merge H (nodesOf H k (nodes.flatMap QNode.fields)))]
  have key : k ∈ (dedupBy (tripKey H) []
      ((linkItems (nodes.flatMap QNode.fields)).map QItem.trip)).map (tripKey H) ↔
      nodesOf H k (nodes.flatMap QNode.fields) ≠ [] := by
    rw [mem_keys_dedupBy]
    constructor
    · rintro ⟨h, -⟩ hnil
      simp only [List.mem_map, mem_linkItems] at h
      obtain ⟨t, ⟨i, ⟨hi, hl⟩, rfl⟩, hk⟩ := h
      cases i with
      | field => simp [QItem.isLink] at hl
      | link n q o a =>
        have : q ∈ nodesOf H k (nodes.flatMap QNode.fields) :=
          mem_nodesOf.2 ⟨n, o, a, hi, by rw [← hk]; rfl⟩
        rw [hnil] at this; simp at this
    · intro h
      obtain ⟨q, hq⟩ := List.exists_mem_of_ne_nil _ h
      obtain ⟨n, o, a, hi, hk⟩ := mem_nodesOf.1 hq
      refine ⟨?_, by simp⟩
      simp only [List.mem_map, mem_linkItems]
      exact ⟨_, ⟨_, ⟨hi, rfl⟩, rfl⟩, by rw [← hk]; rfl⟩
  by_cases h : nodesOf H k (nodes.flatMap QNode.fields) = []
  · rw [if_pos h, if_neg (fun hh => (key.1 hh) h)]
  · rw [if_neg h, if_pos (key.2 h)]

theorem nodesOf_depth (H : PyHash) (k : MKey) (nodes : List QNode) (d : Nat)
    (h : depthNodes nodes ≤ d) (hne : nodesOf H k (nodes.flatMap QNode.fields) ≠ []) :
    depthNodes (nodesOf H k (nodes.flatMap QNode.fields)) + 1 ≤ d := by
  have bound : ∀ (q : QNode), q ∈ nodesOf H k (nodes.flatMap QNode.fields) →
      q.depth + 1 ≤ d := by
    intro q hq
    obtain ⟨n, o, a, hm, -⟩ := mem_nodesOf.1 hq
    obtain ⟨nd, hnd, hin⟩ := List.mem_flatMap.1 hm
    have h1 := depthItems_mem hin
    have h2 := depthNodes_mem hnd
    rw [QNode.depth_eq] at h2
    simp only [QItem.depth] at h1
    omega
  obtain ⟨q, hq⟩ := List.exists_mem_of_ne_nil _ hne
  have := bound q hq
  have : depthNodes (nodesOf H k (nodes.flatMap QNode.fields)) ≤ d - 1 :=
    depthNodes_le fun q hq => by have := bound q hq; omega
  omega

/-- **C02** (grouping).  Merging groups of queries and then the results is merging all of them. -/
theorem c02_merge_grouping (H : PyHash) (groups : List (List QNode)) :
    merge H (groups.map (merge H)) = merge H groups.flatten := by
  suffices h : ∀ d (groups : List (List QNode)), depthNodes groups.flatten < d →
      merge H (groups.map (merge H)) = merge H groups.flatten from h _ groups (Nat.lt_succ_self _)
  intro d
  induction d with
  | zero => intro groups hd; omega
  | succ d ih =>
    intro groups hd
    have hflat : groups.flatten.flatMap QNode.fields =
        groups.flatMap (fun g => g.flatMap QNode.fields) := by
      rw [List.flatten_eq_flatMap, List.flatMap_assoc]; simp
    have hord : (groups.map (merge H)).any QNode.ordered = groups.flatten.any QNode.ordered := by
      rw [List.any_map, List.any_flatten]
      congr 1
    have hF : dedupBy (itemKey H) [] (fieldItems ((groups.map (merge H)).flatMap QNode.fields)) =
        dedupBy (itemKey H) [] (fieldItems (groups.flatten.flatMap QNode.fields)) := by
      rw [hflat, List.flatMap_map]
      have e1 : fieldItems (groups.flatMap fun g => (merge H g).fields) =
          groups.flatMap fun g => dedupBy (itemKey H) [] (fieldItems (g.flatMap QNode.fields)) := by
        rw [fieldItems, List.filter_flatMap]
        congr 1
        funext g
        exact fieldItems_merge H g
      have e2 : fieldItems (groups.flatMap fun g => g.flatMap QNode.fields) =
          groups.flatMap fun g => fieldItems (g.flatMap QNode.fields) := by
        rw [fieldItems, List.filter_flatMap]; rfl
      rw [e1, e2, dedupBy_flatMap]
    have hL : dedupBy (tripKey H) []
          ((linkItems ((groups.map (merge H)).flatMap QNode.fields)).map QItem.trip) =
        dedupBy (tripKey H) []
          ((linkItems (groups.flatten.flatMap QNode.fields)).map QItem.trip) := by
      rw [hflat, List.flatMap_map]
      have e1 : (linkItems (groups.flatMap fun g => (merge H g).fields)).map QItem.trip =
          groups.flatMap fun g =>
            dedupBy (tripKey H) [] ((linkItems (g.flatMap QNode.fields)).map QItem.trip) := by
        rw [linkItems, List.filter_flatMap, List.map_flatMap]
        congr 1
        funext g
        have := linkItems_merge H g
        rw [linkItems] at this
        rw [this, List.map_map]
        have e : (QItem.trip ∘ fun t : String × Opts × Option String => QItem.link t.1
            (merge H (nodesOf H (tripKey H t) (g.flatMap QNode.fields))) t.2.1 t.2.2) = id := by
          funext t; rfl
        rw [e, List.map_id]
      have e2 : (linkItems (groups.flatMap fun g => g.flatMap QNode.fields)).map QItem.trip =
          groups.flatMap fun g => (linkItems (g.flatMap QNode.fields)).map QItem.trip := by
        rw [linkItems, List.filter_flatMap, List.map_flatMap]; rfl
      rw [e1, e2, dedupBy_flatMap]
    have hN : ∀ k, merge H (nodesOf H k ((groups.map (merge H)).flatMap QNode.fields)) =
        merge H (nodesOf H k (groups.flatten.flatMap QNode.fields)) := by
      intro k
      by_cases hne : nodesOf H k (groups.flatten.flatMap QNode.fields) = []
      · rw [hne]
        have : nodesOf H k ((groups.map (merge H)).flatMap QNode.fields) = [] := by
          rw [List.flatMap_map, nodesOf_flatMap, List.flatMap_eq_nil_iff]
          intro g hg
          rw [nodesOf_merge, if_pos]
          rw [hflat, nodesOf_flatMap, List.flatMap_eq_nil_iff] at hne
          exact hne g hg
        rw [this]
      · have e1 : nodesOf H k ((groups.map (merge H)).flatMap QNode.fields) =
            ((groups.map fun g => nodesOf H k (g.flatMap QNode.fields)).filter
              fun l => !l.isEmpty).map (merge H) := by
          rw [List.flatMap_map, nodesOf_flatMap]
          clear hne hd hflat hord hF hL
          induction groups with
          | nil => rfl
          | cons g r ihr =>
            rw [List.flatMap_cons, ihr, nodesOf_merge, List.map_cons, List.filter_cons]
            cases nodesOf H k (g.flatMap QNode.fields) with
            | nil => simp
            | cons a b => simp
        have e2 : nodesOf H k (groups.flatten.flatMap QNode.fields) =
            ((groups.map fun g => nodesOf H k (g.flatMap QNode.fields)).filter
              fun l => !l.isEmpty).flatten := by
          rw [hflat, nodesOf_flatMap]
          clear hne hd hflat hord hF hL e1
          induction groups with
          | nil => rfl
          | cons g r ihr =>
            rw [List.flatMap_cons, ihr, List.map_cons, List.filter_cons]
            cases nodesOf H k (g.flatMap QNode.fields) with
            | nil => simp
            | cons a b => simp
        have := nodesOf_depth H k groups.flatten d (by omega) hne
        rw [e2] at this
        rw [e1, e2]
        exact ih _ (by omega)
    rw [merge_trip H (groups.map (merge H)), merge_trip H groups.flatten, hF, hL, hord]
    congr 2
    apply List.map_congr_left
    intro t _
    rw [hN]

/-- **C02** (idempotence).  Merging a merged query changes nothing. -/
theorem c02_merge_idempotent (H : PyHash) (nodes : List QNode) :
    merge H [merge H nodes] = merge H nodes := by
  have := c02_merge_grouping H [nodes]
  simpa using this

/-! ## C03 -/

/-- no field comes after a link -/
def FieldsFirst (q : QNode) : Prop :=
  ∃ fs ls, q.fields = fs ++ ls ∧ (∀ i ∈ fs, i.isLink = false) ∧ (∀ i ∈ ls, i.isLink = true)

/-- **C03, partial** (what holds).  The readers pass an ordered node through `merge([node])`.  The
relative order of the fields and the relative order of the links is the order of the document, and
if the document has no field after a link and no duplicates the items are exactly the items of the
document in document order (and the node stays ordered).  Missing: the order between a link and a
later field, which the code does not keep (`c03_counterexample`). -/
theorem c03_merge_order_partial (H : PyHash) (q : QNode) :
    (((merge H [q]).fields.filter fun i => !i.isLink).map QItem.trip).Sublist
        ((q.fields.filter fun i => !i.isLink).map QItem.trip) ∧
    (((merge H [q]).fields.filter fun i => i.isLink).map QItem.trip).Sublist
        ((q.fields.filter fun i => i.isLink).map QItem.trip) ∧
    (merge H [q]).ordered = q.ordered ∧
    (FieldsFirst q → NodeNoDup H q → (merge H [q]).fields.map QItem.trip = q.fields.map QItem.trip) := by
  have sub : ∀ {α κ : Type} [DecidableEq κ] (f : α → κ) (s : List κ) (l : List α),
      (dedupBy f s l).Sublist l := by
    intro α κ _ f s l
    induction l generalizing s with
    | nil => exact .slnil
    | cons x r ih =>
      simp only [dedupBy]
      split
      · exact .cons _ (ih _)
      · exact .cons₂ _ (ih _)
  have hid : ∀ (T : List (String × Opts × Option String)) (g : String × Opts × Option String → QNode),
      (T.map fun t => QItem.link t.1 (g t) t.2.1 t.2.2).map QItem.trip = T := by
    intro T g
    rw [List.map_map]
    have e : (QItem.trip ∘ fun t : String × Opts × Option String =>
        QItem.link t.1 (g t) t.2.1 t.2.2) = id := by
      funext t; rfl
    rw [e, List.map_id]
  have hf := fieldItems_merge H [q]
  have hl := linkItems_merge H [q]
  simp only [List.flatMap_cons, List.flatMap_nil, List.append_nil] at hf hl
  have hl' : (linkItems (merge H [q]).fields).map QItem.trip =
      dedupBy (tripKey H) [] ((linkItems q.fields).map QItem.trip) := by
    rw [hl, hid]
  refine ⟨?_, ?_, ?_, ?_⟩
  · change ((fieldItems (merge H [q]).fields).map QItem.trip).Sublist _
    rw [hf]; exact (sub _ _ _).map _
  · change ((linkItems (merge H [q]).fields).map QItem.trip).Sublist _
    rw [hl']; exact sub _ _ _
  · rw [merge_closed]; simp [QNode.ordered]
  · rintro ⟨fs, ls, hq, h1, h2⟩ ⟨hn1, hn2⟩
    obtain ⟨hfs, hls⟩ := partition_items fs ls h1 h2
    rw [← hq] at hfs hls
    change ((fieldItems q.fields).map (itemKey H)).Nodup at hn1
    change ((linkItems q.fields).map (itemKey H)).Nodup at hn2
    have hm := merge_trip H [q]
    simp only [List.flatMap_cons, List.flatMap_nil, List.append_nil] at hm
    have hn3 : (((linkItems q.fields).map QItem.trip).map (tripKey H)).Nodup := by
      rw [List.map_map]
      change ((linkItems q.fields).map (fun i : QItem => tripKey H i.trip)).Nodup
      rw [tripKey_trip']; exact hn2
    rw [hm]
    simp only [QNode.fields_mk, List.map_append]
    rw [hid, dedupBy_eq_self _ hn1 (by simp), dedupBy_eq_self _ hn3 (by simp), hfs, hls, hq,
      List.map_append]

/-- what an item asks for, without the selection inside of it: whether it is a link, its name, options and alias -/
def QItem.head (i : QItem) : Bool × String × Opts × Option String := (i.isLink, i.name, i.options, i.alias_)

/-- **C03, exactly when it holds.**  The items are read in the order of the document if and only if no field follows
a link (and nothing is repeated: repeated items are merged). -/
theorem c03_order_iff (H : PyHash) (q : QNode) :
    (merge H [q]).fields.map QItem.head = q.fields.map QItem.head ↔ FieldsFirst q ∧ NodeNoDup H q := by
  have htrip : ∀ i : QItem, i.trip = i.head.2 := by intro i; cases i <;> rfl
  have hlink : ∀ i : QItem, i.isLink = i.head.1 := by intro i; rfl
  constructor
  · intro h
    have hkey : ∀ i : QItem, itemKey H i = tripKey H i.head.2 := by
      intro i; rw [← htrip]; exact (congrFun (tripKey_trip' H) i).symm
    constructor
    · have hm := merge_trip H [q]
      rw [hm] at h
      rw [QNode.fields_mk, List.map_append] at h
      obtain ⟨fs, ls, hq, h1, h2⟩ := List.map_eq_append_iff.1 h.symm
      refine ⟨fs, ls, hq, ?_, ?_⟩
      · intro i hi
        have : i.head ∈ fs.map QItem.head := List.mem_map_of_mem hi
        rw [h1] at this
        obtain ⟨j, hj, e⟩ := List.mem_map.1 this
        rw [hlink, ← e]
        have := mem_of_mem_dedupBy _ hj
        exact (mem_fieldItems.1 this).2
      · intro i hi
        have : i.head ∈ ls.map QItem.head := List.mem_map_of_mem hi
        rw [h2] at this
        obtain ⟨j, hj, e⟩ := List.mem_map.1 this
        obtain ⟨t, _, rfl⟩ := List.mem_map.1 hj
        rw [hlink, ← e]; rfl
    · have hn := c01_merge_nodup H [q] _ (.refl _)
      have fil : ∀ (p : Bool → Bool) (l l' : List QItem), l.map QItem.head = l'.map QItem.head →
          (l.filter fun i => p i.isLink).map (itemKey H) = (l'.filter fun i => p i.isLink).map (itemKey H) := by
        intro p l
        induction l with
        | nil => intro l' h; cases l' with
          | nil => rfl
          | cons => cases h
        | cons i l ih => intro l' h; cases l' with
          | nil => cases h
          | cons i' l' =>
            simp only [List.map_cons, List.cons.injEq] at h
            have e1 : i.isLink = i'.isLink := by rw [hlink, hlink, h.1]
            have e2 : itemKey H i = itemKey H i' := by rw [hkey, hkey, h.1]
            simp only [List.filter_cons, e1]
            split
            · simp only [List.map_cons, e2, ih l' h.2]
            · exact ih l' h.2
      exact ⟨by rw [← fil (fun b => !b) _ _ h]; exact hn.1, by rw [← fil (fun b => b) _ _ h]; exact hn.2⟩
  · rintro ⟨hf, hn⟩
    obtain ⟨hn1, hn2⟩ := hn
    obtain ⟨fs, ls, hq, h1, h2⟩ := hf
    obtain ⟨hfs, hls⟩ := partition_items fs ls h1 h2
    rw [← hq] at hfs hls
    change ((fieldItems q.fields).map (itemKey H)).Nodup at hn1
    change ((linkItems q.fields).map (itemKey H)).Nodup at hn2
    have hm := merge_trip H [q]
    simp only [List.flatMap_cons, List.flatMap_nil, List.append_nil] at hm
    have hn3 : (((linkItems q.fields).map QItem.trip).map (tripKey H)).Nodup := by
      rw [List.map_map]
      change ((linkItems q.fields).map (fun i : QItem => tripKey H i.trip)).Nodup
      rw [tripKey_trip']; exact hn2
    rw [hm]
    simp only [QNode.fields_mk, List.map_append]
    rw [dedupBy_eq_self _ hn1 (by simp), dedupBy_eq_self _ hn3 (by simp), hfs, hls, hq, List.map_append]
    congr 1
    rw [List.map_map, List.map_map]
    apply List.map_congr_left
    intro i hi
    have := h2 i hi
    cases i with
    | field => cases this
    | link => rfl

/-- **C03, counterexample** (finding 2).  The document `{ a {x} b }` of an ordered (mutation) query
is read as `{ b a {x} }`: the mutation `b` runs before `a`. -/
theorem c03_counterexample (H : PyHash) :
    ∃ q : QNode, q.ordered = true ∧ q.fields.map QItem.name = ["a", "b"] ∧
      (merge H [q]).fields.map QItem.name = ["b", "a"] := by
  refine ⟨.mk [.link "a" (.mk [.field "x" none none] false) none none, .field "b" none none] true,
    rfl, rfl, ?_⟩
  rfl

/-! ## Non-vacuity -/

/-- a concrete hash, used only in examples -/
def exHash : PyHash where
  atom := fun
    | .atom (.int i) => i
    | .atom (.str s) => s.length
    | _ => 0
  pairs := fun l => l.foldl (fun acc p => acc * 31 + p.1 * 7 + p.2) 1
  ints := fun l => l.foldl (fun acc p => acc * 31 + p) 2

def exQ1 : QNode := .mk [.field "a" none none, .link "u" (.mk [.field "x" none none] false) none none,
  .link "u" (.mk [.field "y" none none, .field "x" none none] false) none none] false
def exQ2 : QNode := .mk [.link "u" (.mk [.field "z" none (some "w")] true) none none,
  .field "a" none none, .field "a" (some [("k", .int 1)]) none] false

example : (merge exHash [exQ1, exQ2]).fields.map QItem.name = ["a", "a", "u"] := by decide
example : Requests exHash (merge exHash [exQ1, exQ2]) [("u", none, none)] false ("z", none, some "w") := by
  rw [c01_merge_requests]
  refine ⟨exQ2, by simp, ?_⟩
  exact .under (List.mem_cons_self ..) (.field (List.mem_cons_self ..))
example : Below (merge exHash [exQ1, exQ2]) (merge exHash [exQ1, exQ2]) := .refl _
example : FieldsFirst exQ1 :=
  ⟨[.field "a" none none], _, rfl, by simp [QItem.isLink], by simp [QItem.isLink]⟩

end Hiku
