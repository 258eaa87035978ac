import Verif.Spec.Define
import Verif.Proofs.SemMerge
import Verif.Props.ExprTypes

/-! Lemmas for C57 -/

namespace Hiku.Expr

/-- a link is not followed by anything of the same name -/
def LinksLast (items : List QItem) : Prop := items.Pairwise fun i j => i.isLink = true → i.name ≠ j.name

inductive Settled : QNode → Prop
  | mk (items ord) : LinksLast items → (∀ n q o a, QItem.link n q o a ∈ items → Settled q) → Settled (.mk items ord)

theorem merge_settled (H : PyHash) {ns : List QNode} (hp : ∀ q ∈ ns, q.Plain) : Settled (merge H ns) := by
  refine subMerge_induction H (P := fun ns => Settled (merge H ns)) ?_ ns hp
  intro ns hp ih
  have hsub : ∀ n q o a, QItem.link n q o a ∈ (merge H ns).fields → Settled q := by
    intro n q o a hm
    rcases mem_merge hp hm with ⟨_, h, _⟩ | ⟨m, h, h'⟩
    · cases h
    · cases h
      exact ih n h'
  have hfp := flat_plain hp
  rw [merge_closed] at hsub ⊢
  refine .mk _ _ ?_ hsub
  unfold LinksLast
  rw [List.pairwise_append]
  refine ⟨?_, ?_, ?_⟩
  · refine List.Pairwise.imp_of_mem (R := fun _ _ => True) ?_ ?_
    · intro i j hi _ _ hl
      have := mem_of_mem_dedupBy (itemKey H) hi
      simp only [fieldItems, List.mem_filter] at this
      rw [hl] at this
      simp at this
    · exact List.pairwise_of_forall fun _ _ => trivial
  · rw [List.pairwise_map]
    have := nodup_dedupBy (itemKey H) [] (linkItems (ns.flatMap QNode.fields))
    rw [List.Nodup, List.pairwise_map] at this
    refine List.Pairwise.imp_of_mem ?_ this
    intro i j hi hj hne _ he
    have he : i.name = j.name := he
    have hi' := mem_of_mem_dedupBy (itemKey H) hi
    have hj' := mem_of_mem_dedupBy (itemKey H) hj
    simp only [linkItems, List.mem_filter] at hi' hj'
    apply hne
    rw [(QItem.Plain.key (H := H) (hfp i hi'.1)).2.2.1, (QItem.Plain.key (H := H) (hfp j hj'.1)).2.2.1, he]
  · intro i hi j _ hl
    have := mem_of_mem_dedupBy (itemKey H) hi
    simp only [fieldItems, List.mem_filter] at this
    rw [hl] at this
    simp at this

theorem itemsToTypes_eq : ∀ items : List QItem, itemsToTypes items = items.map itemToType
  | [] => rfl
  | i :: r => by simp only [itemsToTypes, List.map_cons, itemsToTypes_eq r]

theorem itemToType_fst (i : QItem) : (itemToType i).1 = i.name := by cases i <;> simp only [itemToType, QItem.name]

theorem types_names (items : List QItem) (n : String) :
    n ∈ (dmk (itemsToTypes items)).map (·.1) ↔ ∃ i ∈ items, i.name = n := by
  rw [mem_keys_dmk, itemsToTypes_eq, List.map_map]
  simp only [List.mem_map, Function.comp, itemToType_fst]

/-- the type of a link is the record of its query -/
theorem types_link : ∀ {items : List QItem}, LinksLast items → ∀ {n q o a}, QItem.link n q o a ∈ items →
    dget (dmk (itemsToTypes items)) n = some (queryToTypes q) := by
  intro items h n q o a hm
  rw [dget_dmk, itemsToTypes_eq]
  induction items with
  | nil => cases hm
  | cons i r ih =>
    unfold LinksLast at h
    rw [List.pairwise_cons] at h
    rw [List.map_cons, List.reverse_cons, dget_append]
    rcases List.mem_cons.1 hm with rfl | hm
    · have : dget (r.map itemToType).reverse n = none := by
        rw [dget_eq_none_iff]
        intro hx
        simp only [List.map_reverse, List.mem_reverse, List.map_map, List.mem_map, Function.comp, itemToType_fst] at hx
        obtain ⟨j, hj, hx⟩ := hx
        exact h.1 j hj rfl hx.symm
      rw [this]
      simp [itemToType, dget]
    · rw [ih h.2 hm]
      rfl

/-- the type of everything else is `Any` -/
theorem types_field : ∀ {items : List QItem} {n : String} {t : Ty}, dget (dmk (itemsToTypes items)) n = some t →
    t = .any ∨ ∃ q o a, QItem.link n q o a ∈ items ∧ t = queryToTypes q := by
  intro items n t h
  rw [dget_dmk, itemsToTypes_eq] at h
  have := dget_mem h
  rw [List.mem_reverse, List.mem_map] at this
  obtain ⟨i, hi, h⟩ := this
  cases i with
  | field m o a =>
    simp only [itemToType, Prod.mk.injEq] at h
    exact .inl h.2.symm
  | link m q o a =>
    simp only [itemToType, Prod.mk.injEq] at h
    obtain ⟨rfl, rfl⟩ := h
    exact .inr ⟨q, o, a, hi, rfl⟩

theorem mem_fieldsToQuery : ∀ {fs : List (String × Ty)} {i : QItem}, i ∈ fieldsToQuery fs ↔
    ∃ kv ∈ fs, i = (match typeToQuery kv.2 with
      | some q => QItem.link kv.1 q none none
      | none => QItem.field kv.1 none none)
  | [], i => by simp [fieldsToQuery]
  | (k, t) :: r, i => by
    simp only [fieldsToQuery, List.mem_cons, mem_fieldsToQuery (fs := r)]
    constructor
    · rintro (h | ⟨kv, h, h'⟩)
      · exact ⟨(k, t), .inl rfl, h⟩
      · exact ⟨kv, .inr h, h'⟩
    · rintro ⟨kv, rfl | h, h'⟩
      · exact .inl h'
      · exact .inr ⟨kv, h, h'⟩

/-- the query of the types -/
def backQuery (items : List QItem) : QNode := .mk (fieldsToQuery (dmk (itemsToTypes items))) false

theorem back_eq (items : List QItem) (ord : Bool) : typeToQuery (queryToTypes (.mk items ord)) = some (backQuery items) := by
  simp only [queryToTypes, typeToQuery, backQuery]

theorem back_names {items : List QItem} {n : String} :
    (∃ i ∈ (backQuery items).fields, i.name = n) ↔ ∃ i ∈ items, i.name = n := by
  refine Iff.trans ?_ (types_names items n)
  simp only [backQuery, QNode.fields, List.mem_map]
  constructor
  · rintro ⟨i, hi, rfl⟩
    obtain ⟨kv, hkv, rfl⟩ := mem_fieldsToQuery.1 hi
    refine ⟨kv, hkv, ?_⟩
    cases typeToQuery kv.2 <;> rfl
  · rintro ⟨kv, hkv, rfl⟩
    refine ⟨_, mem_fieldsToQuery.2 ⟨kv, hkv, rfl⟩, ?_⟩
    cases typeToQuery kv.2 <;> rfl

theorem back_link {items : List QItem} (hl : LinksLast items) {n : String} {q1 : QNode} {o a} :
    QItem.link n q1 o a ∈ (backQuery items).fields ↔ o = none ∧ a = none ∧
      ∃ q0 o0 a0, QItem.link n q0 o0 a0 ∈ items ∧ typeToQuery (queryToTypes q0) = some q1 := by
  simp only [backQuery, QNode.fields]
  rw [mem_fieldsToQuery]
  constructor
  · rintro ⟨⟨k, t⟩, hkv, h⟩
    have hg := dget_of_mem_nodup (nodup_dmk _) hkv
    rcases types_field hg with rfl | ⟨q, o', a', hm, rfl⟩
    · simp [typeToQuery] at h
    · cases q with
      | mk its ord =>
        simp only [back_eq] at h
        cases h
        exact ⟨rfl, rfl, _, o', a', hm, back_eq _ _⟩
  · rintro ⟨rfl, rfl, q0, o0, a0, hm, h⟩
    have hg := dget_mem (types_link hl hm)
    exact ⟨_, hg, by simp only [h]⟩

theorem back_plain : ∀ (q : QNode), ∀ q', typeToQuery (queryToTypes q) = some q' → q'.Plain := by
  intro q
  induction q using QNode.ind with
  | h items ord ih =>
    intro q' h
    rw [back_eq] at h
    cases h
    rw [QNode.plain_iff]
    refine ⟨rfl, fun i hi => ?_⟩
    simp only [backQuery, QNode.fields] at hi
    obtain ⟨⟨k, t⟩, hkv, rfl⟩ := mem_fieldsToQuery.1 hi
    have hg := dget_of_mem_nodup (nodup_dmk _) hkv
    rcases types_field hg with rfl | ⟨q, o', a', hm, rfl⟩
    · simp [typeToQuery, QItem.Plain]
    · cases hq : typeToQuery (queryToTypes q) with
      | none => simp [QItem.Plain]
      | some q1 =>
        simp only [QItem.Plain, true_and]
        exact ih _ _ _ _ hm _ hq

theorem asksFor_iff {q : QNode} {p : List String} : AsksFor q p ↔
    (∃ i ∈ q.fields, p = [i.name]) ∨ ∃ n q' o a p', QItem.link n q' o a ∈ q.fields ∧ AsksFor q' p' ∧ p = n :: p' := by
  constructor
  · intro h
    cases h with
    | item _ i hi => exact .inl ⟨i, hi, rfl⟩
    | deeper _ n q' o a p' h1 h2 => exact .inr ⟨n, q', o, a, p', h1, h2, rfl⟩
  · rintro (⟨i, hi, rfl⟩ | ⟨n, q', o, a, p', h1, h2, rfl⟩)
    · exact .item _ i hi
    · exact .deeper _ n q' o a p' h1 h2

theorem asksObject_iff {q : QNode} {p : List String} : AsksObject q p ↔
    p = [] ∨ ∃ n q' o a p', QItem.link n q' o a ∈ q.fields ∧ AsksObject q' p' ∧ p = n :: p' := by
  constructor
  · intro h
    cases h with
    | top => exact .inl rfl
    | deeper _ n q' o a p' h1 h2 => exact .inr ⟨n, q', o, a, p', h1, h2, rfl⟩
  · rintro (rfl | ⟨n, q', o, a, p', h1, h2, rfl⟩)
    · exact .top _
    · exact .deeper _ n q' o a p' h1 h2

/-- the types of a settled query ask for the same -/
theorem back_asks : ∀ (q : QNode), Settled q → ∀ q', typeToQuery (queryToTypes q) = some q' → ∀ p,
    (AsksFor q' p ↔ AsksFor q p) ∧ (AsksObject q' p ↔ AsksObject q p) := by
  intro q
  induction q using QNode.ind with
  | h items ord ih =>
    intro hs q' h p
    cases hs with
    | mk _ _ hl hsub =>
      rw [back_eq] at h
      cases h
      constructor
      · rw [asksFor_iff, asksFor_iff]
        refine or_congr ?_ ?_
        · constructor
          · rintro ⟨i, hi, rfl⟩
            obtain ⟨j, hj, he⟩ := back_names.1 ⟨i, hi, rfl⟩
            exact ⟨j, hj, by rw [he]⟩
          · rintro ⟨i, hi, rfl⟩
            obtain ⟨j, hj, he⟩ := back_names.2 ⟨i, hi, rfl⟩
            exact ⟨j, hj, by rw [he]⟩
        · constructor
          · rintro ⟨n, q1, o, a, p', h1, h2, rfl⟩
            obtain ⟨_, _, q0, o0, a0, hm, h3⟩ := (back_link hl).1 h1
            exact ⟨n, q0, o0, a0, p', hm, ((ih n q0 o0 a0 hm (hsub _ _ _ _ hm) q1 h3 p').1).1 h2, rfl⟩
          · rintro ⟨n, q0, o0, a0, p', hm, h2, rfl⟩
            obtain ⟨its, ord0⟩ := q0
            have h3 := back_eq its ord0
            exact ⟨n, _, none, none, p', (back_link hl).2 ⟨rfl, rfl, _, o0, a0, hm, h3⟩,
              ((ih n _ o0 a0 hm (hsub _ _ _ _ hm) _ h3 p').1).2 h2, rfl⟩
      · rw [asksObject_iff, asksObject_iff]
        refine or_congr Iff.rfl ?_
        constructor
        · rintro ⟨n, q1, o, a, p', h1, h2, rfl⟩
          obtain ⟨_, _, q0, o0, a0, hm, h3⟩ := (back_link hl).1 h1
          exact ⟨n, q0, o0, a0, p', hm, ((ih n q0 o0 a0 hm (hsub _ _ _ _ hm) q1 h3 p').2).1 h2, rfl⟩
        · rintro ⟨n, q0, o0, a0, p', hm, h2, rfl⟩
          obtain ⟨its, ord0⟩ := q0
          have h3 := back_eq its ord0
          exact ⟨n, _, none, none, p', (back_link hl).2 ⟨rfl, rfl, _, o0, a0, hm, h3⟩,
            ((ih n _ o0 a0 hm (hsub _ _ _ _ hm) _ h3 p').2).2 h2, rfl⟩

/-! ### merge -/

theorem link_merge (H : PyHash) {ns : List QNode} (hp : ∀ q ∈ ns, q.Plain) {q : QNode} (hq : q ∈ ns) {n q' o a}
    (hm : QItem.link n q' o a ∈ q.fields) :
    QItem.link n (merge H (subMerge H ns n)) none none ∈ (merge H ns).fields ∧ q' ∈ subMerge H ns n := by
  have hpl := (QNode.plain_iff.1 (hp q hq)).2 _ hm
  simp only [QItem.Plain] at hpl
  obtain ⟨rfl, rfl, _⟩ := hpl
  refine ⟨?_, (mem_subMerge hp).2 ⟨q, hq, hm⟩⟩
  obtain ⟨it, h1, h2, h3⟩ := merge_cover (H := H) hp hq hm
  rcases mem_merge hp h1 with ⟨m, rfl, _⟩ | ⟨m, rfl, _⟩
  · simp [QItem.isLink] at h3
  · simp only [QItem.name] at h2
    subst h2
    exact h1

theorem asks_merge (H : PyHash) {ns : List QNode} (hp : ∀ q ∈ ns, q.Plain) : ∀ p,
    (AsksFor (merge H ns) p ↔ ∃ q ∈ ns, AsksFor q p) := by
  refine subMerge_induction H (P := fun ns => ∀ p, (AsksFor (merge H ns) p ↔ ∃ q ∈ ns, AsksFor q p)) ?_ ns hp
  intro ns hp ih p
  constructor
  · rw [asksFor_iff]
    rintro (⟨i, hi, rfl⟩ | ⟨n, q', o, a, p', h1, h2, rfl⟩)
    · rcases mem_merge hp hi with ⟨n, rfl, q, hq, hm⟩ | ⟨n, rfl, q, hq, q', hm⟩
      · exact ⟨q, hq, .item _ _ hm⟩
      · exact ⟨q, hq, .item _ (.link n q' none none) hm⟩
    · rcases mem_merge hp h1 with ⟨_, h, _⟩ | ⟨m, h, h'⟩
      · cases h
      · cases h
        obtain ⟨q'', h3, h4⟩ := (ih n h' p').1 h2
        obtain ⟨q, hq, hm⟩ := (mem_subMerge hp).1 h3
        exact ⟨q, hq, .deeper _ n _ _ _ p' hm h4⟩
  · rintro ⟨q, hq, h⟩
    cases h with
    | item _ i hi =>
      obtain ⟨it, h1, h2, h3⟩ := merge_cover (H := H) hp hq hi
      rw [← h2]
      exact .item _ _ h1
    | deeper _ n q' o a p' h1 h2 =>
      obtain ⟨h3, h4⟩ := link_merge H hp hq h1
      have h5 : ∃ q ∈ ns, ∃ q', QItem.link n q' none none ∈ q.fields := by
        obtain ⟨q0, hq0, hm⟩ := (mem_subMerge hp).1 h4
        exact ⟨q0, hq0, _, hm⟩
      exact .deeper _ n _ _ _ p' h3 ((ih n h5 p').2 ⟨q', h4, h2⟩)

theorem asksObject_merge (H : PyHash) {ns : List QNode} (hp : ∀ q ∈ ns, q.Plain) : ns ≠ [] → ∀ p,
    (AsksObject (merge H ns) p ↔ ∃ q ∈ ns, AsksObject q p) := by
  refine subMerge_induction H (P := fun ns => ns ≠ [] → ∀ p, (AsksObject (merge H ns) p ↔ ∃ q ∈ ns, AsksObject q p)) ?_ ns hp
  intro ns hp ih hne p
  constructor
  · rw [asksObject_iff]
    rintro (rfl | ⟨n, q', o, a, p', h1, h2, rfl⟩)
    · obtain ⟨q, hq⟩ := List.exists_mem_of_ne_nil _ hne
      exact ⟨q, hq, .top _⟩
    · rcases mem_merge hp h1 with ⟨_, h, _⟩ | ⟨m, h, h'⟩
      · cases h
      · cases h
        have hne' : subMerge H ns n ≠ [] := by
          obtain ⟨q, hq, q', hm⟩ := h'
          exact List.ne_nil_of_mem ((mem_subMerge hp).2 ⟨q, hq, hm⟩)
        obtain ⟨q'', h3, h4⟩ := (ih n h' hne' p').1 h2
        obtain ⟨q, hq, hm⟩ := (mem_subMerge hp).1 h3
        exact ⟨q, hq, .deeper _ n _ _ _ p' hm h4⟩
  · rintro ⟨q, hq, h⟩
    cases h with
    | top => exact .top _
    | deeper _ n q' o a p' h1 h2 =>
      obtain ⟨h3, h4⟩ := link_merge H hp hq h1
      have h5 : ∃ q ∈ ns, ∃ q', QItem.link n q' none none ∈ q.fields := by
        obtain ⟨q0, hq0, hm⟩ := (mem_subMerge hp).1 h4
        exact ⟨q0, hq0, _, hm⟩
      exact .deeper _ n _ _ _ p' h3 ((ih n h5 (List.ne_nil_of_mem h4) p').2 ⟨q', h4, h2⟩)

end Hiku.Expr
