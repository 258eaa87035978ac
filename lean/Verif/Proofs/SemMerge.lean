import Verif.Proofs.SemRead
import Verif.Props.Merge

/-! Merged requirements ask for everything which the single requirements ask for. -/

namespace Hiku

variable {H : PyHash} {U : String → Opts → Prop} {g : Graph} {ns : List QNode}

theorem plainItems_iff {l : List QItem} : PlainItems l ↔ ∀ i ∈ l, i.Plain := by
  induction l with
  | nil => simp [PlainItems]
  | cons x r ih => simp [PlainItems, ih]

theorem QNode.plain_iff {q : QNode} : q.Plain ↔ q.ordered = false ∧ ∀ i ∈ q.fields, i.Plain := by
  cases q with
  | mk fs ord => simp only [QNode.Plain, plainItems_iff, QNode.ordered, QNode.fields]

theorem QItem.Plain.key {i : QItem} (h : i.Plain) : i.options = none ∧ i.alias_ = none ∧
    itemKey H i = (i.name, none, none) ∧ i.resultKey = i.name := by
  cases i with
  | field n o a =>
    simp only [QItem.Plain] at h
    obtain ⟨rfl, rfl⟩ := h
    exact ⟨rfl, rfl, rfl, rfl⟩
  | link n q o a =>
    simp only [QItem.Plain] at h
    obtain ⟨rfl, rfl, _⟩ := h
    exact ⟨rfl, rfl, rfl, rfl⟩

theorem flat_plain (hp : ∀ q ∈ ns, q.Plain) : ∀ i ∈ ns.flatMap QNode.fields, i.Plain := by
  intro i hi
  obtain ⟨q, hq, hi⟩ := List.mem_flatMap.1 hi
  exact (QNode.plain_iff.1 (hp q hq)).2 i hi

/-- the node below the link `n` of the merged query -/
def subMerge (H : PyHash) (ns : List QNode) (n : String) : List QNode :=
  nodesOf H (n, none, none) (ns.flatMap QNode.fields)

theorem mem_subMerge (hp : ∀ q ∈ ns, q.Plain) {n : String} {q' : QNode} :
    q' ∈ subMerge H ns n ↔ ∃ q ∈ ns, QItem.link n q' none none ∈ q.fields := by
  unfold subMerge
  rw [mem_nodesOf]
  constructor
  · rintro ⟨n', o, a, hm, he⟩
    have := flat_plain hp _ hm
    simp only [QItem.Plain] at this
    obtain ⟨rfl, rfl, _⟩ := this
    obtain ⟨q, hq, hm⟩ := List.mem_flatMap.1 hm
    simp only [Prod.mk.injEq] at he
    obtain ⟨rfl, _⟩ := he
    exact ⟨q, hq, hm⟩
  · rintro ⟨q, hq, hm⟩
    exact ⟨n, none, none, List.mem_flatMap.2 ⟨q, hq, hm⟩, rfl⟩

theorem subMerge_plain (hp : ∀ q ∈ ns, q.Plain) (n : String) : ∀ q ∈ subMerge H ns n, q.Plain := by
  intro q' hq'
  obtain ⟨q, hq, hm⟩ := (mem_subMerge hp).1 hq'
  have := (QNode.plain_iff.1 (hp q hq)).2 _ hm
  simp only [QItem.Plain] at this
  exact this.2.2

theorem mem_merge (hp : ∀ q ∈ ns, q.Plain) {it : QItem} (h : it ∈ (merge H ns).fields) :
    (∃ n, it = .field n none none ∧ ∃ q ∈ ns, it ∈ q.fields) ∨
    ∃ n, it = .link n (merge H (subMerge H ns n)) none none ∧
      ∃ q ∈ ns, ∃ q', QItem.link n q' none none ∈ q.fields := by
  have hfp := flat_plain hp
  rw [merge_closed] at h
  simp only [QNode.fields, List.mem_append] at h
  rcases h with h | h
  · left
    have h1 := mem_fieldItems.1 (mem_of_mem_dedupBy _ h)
    have h2 := hfp it h1.1
    obtain ⟨q, hq, hm⟩ := List.mem_flatMap.1 h1.1
    cases it with
    | field n o a =>
      simp only [QItem.Plain] at h2
      obtain ⟨rfl, rfl⟩ := h2
      exact ⟨n, rfl, q, hq, hm⟩
    | link => simp [QItem.isLink] at h1
  · right
    obtain ⟨j, hj, rfl⟩ := List.mem_map.1 h
    have h1 := mem_linkItems.1 (mem_of_mem_dedupBy _ hj)
    have h2 := hfp j h1.1
    obtain ⟨q, hq, hm⟩ := List.mem_flatMap.1 h1.1
    cases j with
    | field => simp [QItem.isLink] at h1
    | link n q' o a =>
      simp only [QItem.Plain] at h2
      obtain ⟨rfl, rfl, _⟩ := h2
      exact ⟨n, rfl, q, hq, q', hm⟩

theorem merge_cover (hp : ∀ q ∈ ns, q.Plain) {q : QNode} (hq : q ∈ ns) {it : QItem} (h : it ∈ q.fields) :
    ∃ it' ∈ (merge H ns).fields, it'.name = it.name ∧ it'.isLink = it.isLink := by
  have hfl : it ∈ ns.flatMap QNode.fields := List.mem_flatMap.2 ⟨q, hq, h⟩
  have hfp := flat_plain hp
  have hk : itemKey H it = (it.name, none, none) := (QItem.Plain.key (hfp _ hfl)).2.2.1
  rw [merge_closed]
  simp only [QNode.fields]
  cases hl : it.isLink with
  | false =>
    have : itemKey H it ∈ (dedupBy (itemKey H) [] (fieldItems (ns.flatMap QNode.fields))).map (itemKey H) := by
      rw [mem_keys_dedupBy]
      exact ⟨List.mem_map.2 ⟨it, mem_fieldItems.2 ⟨hfl, hl⟩, rfl⟩, by simp⟩
    obtain ⟨j, hj, hjk⟩ := List.mem_map.1 this
    have h1 := mem_fieldItems.1 (mem_of_mem_dedupBy _ hj)
    refine ⟨j, List.mem_append_left _ hj, ?_, h1.2⟩
    rw [hk, (QItem.Plain.key (H := H) (hfp _ h1.1)).2.2.1] at hjk
    simpa using hjk
  | true =>
    have : itemKey H it ∈ (dedupBy (itemKey H) [] (linkItems (ns.flatMap QNode.fields))).map (itemKey H) := by
      rw [mem_keys_dedupBy]
      exact ⟨List.mem_map.2 ⟨it, mem_linkItems.2 ⟨hfl, hl⟩, rfl⟩, by simp⟩
    obtain ⟨j, hj, hjk⟩ := List.mem_map.1 this
    have h1 := mem_linkItems.1 (mem_of_mem_dedupBy _ hj)
    refine ⟨_, List.mem_append_right _ (List.mem_map.2 ⟨j, hj, rfl⟩), ?_, rfl⟩
    rw [hk, (QItem.Plain.key (H := H) (hfp _ h1.1)).2.2.1] at hjk
    simpa [QItem.name] using hjk

theorem merge_ordered (hp : ∀ q ∈ ns, q.Plain) : (merge H ns).ordered = false := by
  rw [merge_closed]
  simp only [QNode.ordered_mk, List.any_eq_false]
  intro q hq
  rw [(QNode.plain_iff.1 (hp q hq)).1]
  simp

/-- induction over `merge` of plain queries -/
theorem subMerge_induction (H : PyHash) {P : List QNode → Prop}
    (h : ∀ ns, (∀ q ∈ ns, q.Plain) →
      (∀ n, (∃ q ∈ ns, ∃ q', QItem.link n q' none none ∈ q.fields) → P (subMerge H ns n)) → P ns)
    (ns : List QNode) (hp : ∀ q ∈ ns, q.Plain) : P ns := by
  refine merge_induction' H (P := fun ns => (∀ q ∈ ns, q.Plain) → P ns) ?_ ns hp
  intro ns ih hp
  refine h ns hp ?_
  rintro n ⟨q, hq, q', hm⟩
  have := ih (.link n q' none none) (mem_linkItems.2 ⟨List.mem_flatMap.2 ⟨q, hq, hm⟩, rfl⟩)
  exact this (subMerge_plain hp n)

theorem itemOk_merge (hp : ∀ q ∈ ns, q.Plain) : ∀ gn nm,
    (∀ q ∈ ns, ∀ it ∈ q.fields, it.name = nm → ItemOk U g gn it) →
    ∀ it ∈ (merge H ns).fields, it.name = nm → ItemOk U g gn it := by
  refine subMerge_induction H (P := fun ns => ∀ gn nm,
    (∀ q ∈ ns, ∀ it ∈ q.fields, it.name = nm → ItemOk U g gn it) →
    ∀ it ∈ (merge H ns).fields, it.name = nm → ItemOk U g gn it) ?_ ns hp
  intro ns hp ih gn nm hok it hit hnm
  rcases mem_merge hp hit with ⟨n, _, q, hq, hm⟩ | ⟨n, rfl, q, hq, q', hm⟩
  · exact hok q hq it hm hnm
  · simp only [QItem.name] at hnm
    subst hnm
    have hi := hok q hq _ hm rfl
    simp only [ItemOk] at hi ⊢
    obtain ⟨hu, ⟨gl, t, h1, h2, h3⟩ | h⟩ := hi
    · refine ⟨hu, .inl ⟨gl, t, h1, h2, ?_⟩⟩
      rw [nodeOk_iff]
      refine ⟨?_, ?_⟩
      · intro it' hit'
        refine ih n ⟨q, hq, q', hm⟩ t it'.name ?_ it' hit' rfl
        intro q2 hq2 it2 hit2 _
        obtain ⟨q3, hq3, hm3⟩ := (mem_subMerge hp).1 hq2
        have hi3 := hok q3 hq3 _ hm3 rfl
        simp only [ItemOk] at hi3
        obtain ⟨_, ⟨gl', t', e1, e2, e3⟩ | ⟨gf, e1, _⟩⟩ := hi3
        · rw [h1] at e1; cases e1
          rw [h2] at e2; cases e2
          exact (nodeOk_iff.1 e3).1 it2 hit2
        · rw [h1] at e1; cases e1
      · intro ho
        rw [merge_ordered (subMerge_plain hp n)] at ho
        cases ho
    · exact ⟨hu, .inr h⟩

theorem nodeOk_merge (hp : ∀ q ∈ ns, q.Plain) {gn : GNode} (h : ∀ q ∈ ns, NodeOk U g gn q) :
    NodeOk U g gn (merge H ns) := by
  rw [nodeOk_iff]
  refine ⟨?_, fun ho => ?_⟩
  · intro it hit
    refine itemOk_merge hp gn it.name ?_ it hit rfl
    intro q hq it' hit' _
    exact (nodeOk_iff.1 (h q hq)).1 it' hit'
  · rw [merge_ordered hp] at ho; cases ho

theorem includesAll_iff {q1 : QNode} {l : List QItem} : IncludesAll q1 l ↔ ∀ i ∈ l, IncludesItem q1 i := by
  induction l with
  | nil => simp [IncludesAll]
  | cons x r ih => simp [IncludesAll, ih]

theorem includes_iff {q1 q : QNode} : Includes q1 q ↔ ∀ i ∈ q.fields, IncludesItem q1 i := by
  cases q with
  | mk fs o => rw [Includes, includesAll_iff]; rfl

/-- merged nodes request what the single nodes request -/
theorem includes_merge (hp : ∀ q ∈ ns, q.Plain) : ∀ q ∈ ns, Includes (merge H ns) q := by
  refine subMerge_induction H (P := fun ns => ∀ q ∈ ns, Includes (merge H ns) q) ?_ ns hp
  intro ns hp ih q hq
  rw [includes_iff]
  intro it hit
  obtain ⟨it', h1, h2, h3⟩ := merge_cover (H := H) hp hq hit
  cases it with
  | field n o a =>
    cases it' with
    | field n' o' a' =>
      cases h2
      exact ⟨_, _, h1⟩
    | link => cases h3
  | link n q' o a =>
    have hpl := (QNode.plain_iff.1 (hp q hq)).2 _ hit
    simp only [QItem.Plain] at hpl
    obtain ⟨rfl, rfl, _⟩ := hpl
    rw [IncludesItem]
    refine ⟨?_, ?_⟩
    · cases it' with
      | field => cases h3
      | link n' q2 o' a' => cases h2; exact ⟨_, _, _, h1⟩
    · intro q2 o2 a2 hm
      rcases mem_merge hp hm with ⟨_, e, _⟩ | ⟨n', e, _⟩
      · cases e
      · cases e
        exact ih n ⟨q, hq, q', hit⟩ q' ((mem_subMerge hp).2 ⟨q, hq, hit⟩)

theorem merge_plain (hp : ∀ q ∈ ns, q.Plain) : (merge H ns).Plain := by
  refine subMerge_induction H (P := fun ns => (merge H ns).Plain) ?_ ns hp
  intro ns hp ih
  rw [QNode.plain_iff]
  refine ⟨merge_ordered hp, ?_⟩
  intro it hit
  rcases mem_merge hp hit with ⟨n, rfl, _⟩ | ⟨n, rfl, q, hq, q', hm⟩
  · exact ⟨rfl, rfl⟩
  · rw [QItem.Plain]
    exact ⟨rfl, rfl, ih n ⟨q, hq, q', hm⟩⟩

/-- merged requirements of fields computed by one sub-graph -/
theorem reqs_merge {t : GNode} (hne : ns ≠ []) (hr : ∀ q ∈ ns, ReqsOk U g t q) :
    dget (merge H ns).fieldsMap THIS = some (.link THIS (merge H (subMerge H ns THIS)) none none) ∧
    dget (merge H ns).resultMap THIS = some (.link THIS (merge H (subMerge H ns THIS)) none none) ∧
    NodeOk U g t (merge H (subMerge H ns THIS)) ∧
    NodeOk U g g.root (.mk ((merge H ns).fields.filter fun r => r.name ≠ THIS) false) ∧
    ∀ q ∈ ns, ∃ q0, dget q.fieldsMap THIS = some (.link THIS q0 none none) ∧
      Includes (merge H (subMerge H ns THIS)) q0 ∧ (merge H (subMerge H ns THIS)).Plain ∧
      Includes (.mk ((merge H ns).fields.filter fun r => r.name ≠ THIS) false)
        (.mk (q.fields.filter fun r => r.name ≠ THIS) false) ∧
      QNode.Plain (.mk ((merge H ns).fields.filter fun r => r.name ≠ THIS) false) := by
  have hp : ∀ q ∈ ns, q.Plain := fun q hq => (hr q hq).1
  have hthis : ∀ q ∈ ns, ∀ it ∈ q.fields, it.name = THIS →
      ∃ q0, it = .link THIS q0 none none ∧ NodeOk U g t q0 := by
    intro q hq it hit hn
    have := (hr q hq).2.2 it hit
    rw [if_pos hn] at this
    exact this
  have hother : ∀ q ∈ ns, ∀ it ∈ q.fields, it.name ≠ THIS → ItemOk U g g.root it := by
    intro q hq it hit hn
    have := (hr q hq).2.2 it hit
    rw [if_neg hn] at this
    exact this
  have hkey : ∀ {ns : List QNode}, (∀ q ∈ ns, q.Plain) → ∀ y ∈ (merge H ns).fields, y.resultKey = y.name := by
    intro ns hp y hy
    rcases mem_merge hp hy with ⟨_, rfl, _⟩ | ⟨_, rfl, _⟩ <;> rfl
  -- the only item called `this`
  have honly : ∀ it ∈ (merge H ns).fields, it.name = THIS →
      it = .link THIS (merge H (subMerge H ns THIS)) none none := by
    intro it hit hn
    rcases mem_merge hp hit with ⟨n, rfl, q, hq, hm⟩ | ⟨n, rfl, _⟩
    · obtain ⟨q0, e, _⟩ := hthis q hq _ hm hn
      cases e
    · simp only [QItem.name] at hn
      subst hn; rfl
  obtain ⟨q1, hq1⟩ := List.exists_mem_of_ne_nil _ hne
  obtain ⟨it1, hit1, hn1⟩ := (hr q1 hq1).2.1
  obtain ⟨it2, hit2, hn2, _⟩ := merge_cover (H := H) hp hq1 hit1
  have hlook : ∀ (f : QItem → String), (∀ it ∈ (merge H ns).fields, f it = it.name) →
      dget (dmk ((merge H ns).fields.map fun x => (f x, x))) THIS =
        some (.link THIS (merge H (subMerge H ns THIS)) none none) := by
    intro f hf
    have hsome : (dget (dmk ((merge H ns).fields.map fun x => (f x, x))) THIS).isSome := by
      rw [dget_isSome_iff, mem_keys_dmk]
      simp only [List.map_map, List.mem_map]
      exact ⟨it2, hit2, by simp only [Function.comp]; rw [hf it2 hit2, hn2, hn1]⟩
    obtain ⟨v, hv⟩ := Option.isSome_iff_exists.1 hsome
    rw [hv]
    rw [dget_dmk] at hv
    have := dget_mem hv
    simp only [List.mem_reverse, List.mem_map, Prod.mk.injEq] at this
    obtain ⟨x, h1, h2, rfl⟩ := this
    rw [honly x h1 (by rw [← hf x h1]; exact h2)]
  have hsubok : ∀ q0 ∈ subMerge H ns THIS, NodeOk U g t q0 := by
    intro q0 hq0
    obtain ⟨q, hq, hm⟩ := (mem_subMerge hp).1 hq0
    obtain ⟨q0', e, h⟩ := hthis q hq _ hm rfl
    cases e; exact h
  refine ⟨hlook _ fun _ _ => rfl, hlook _ (hkey hp), nodeOk_merge (subMerge_plain hp _) hsubok, ?_, ?_⟩
  · rw [nodeOk_iff]
    refine ⟨?_, fun h => by cases h⟩
    intro it hit
    simp only [QNode.fields, List.mem_filter] at hit
    have hne : it.name ≠ THIS := by simpa using hit.2
    refine itemOk_merge (H := H) hp g.root it.name ?_ it hit.1 rfl
    intro q hq it' hit' e
    exact hother q hq it' hit' (by rw [e]; exact hne)
  · intro q hq
    obtain ⟨it3, hit3, hn3⟩ := (hr q hq).2.1
    have hq0 : ∃ q0, dget q.fieldsMap THIS = some (.link THIS q0 none none) ∧
        QItem.link THIS q0 none none ∈ q.fields := by
      have hsome : (dget q.fieldsMap THIS).isSome := by
        unfold QNode.fieldsMap
        rw [dget_isSome_iff, mem_keys_dmk]
        simp only [List.map_map, List.mem_map]
        exact ⟨it3, hit3, hn3⟩
      obtain ⟨v, hv⟩ := Option.isSome_iff_exists.1 hsome
      have hv' := hv
      unfold QNode.fieldsMap at hv
      rw [dget_dmk] at hv
      have := dget_mem hv
      simp only [List.mem_reverse, List.mem_map, Prod.mk.injEq] at this
      obtain ⟨x, h1, h2, rfl⟩ := this
      obtain ⟨q0, e, _⟩ := hthis q hq x h1 h2
      subst e
      exact ⟨q0, hv', h1⟩
    obtain ⟨q0, h1, h2⟩ := hq0
    refine ⟨q0, h1, ?_, merge_plain (subMerge_plain hp THIS), ?_, ?_⟩
    · exact includes_merge (subMerge_plain hp THIS) q0 ((mem_subMerge hp).2 ⟨q, hq, h2⟩)
    · rw [includes_iff]
      intro x hx
      simp only [QNode.fields, List.mem_filter] at hx
      have hne : x.name ≠ THIS := by simpa using hx.2
      have hreq := includes_iff.1 (includes_merge (H := H) hp q hq) x hx.1
      cases x with
      | field n o a =>
        rw [IncludesItem] at hreq ⊢
        obtain ⟨o', a', hm⟩ := hreq
        exact ⟨o', a', List.mem_filter.2 ⟨hm, hx.2⟩⟩
      | link n q' o a =>
        rw [IncludesItem] at hreq ⊢
        obtain ⟨⟨q2, o', a', hm⟩, hall⟩ := hreq
        refine ⟨⟨q2, o', a', List.mem_filter.2 ⟨hm, hx.2⟩⟩, ?_⟩
        intro q3 o3 a3 h3
        exact hall q3 o3 a3 (List.mem_filter.1 h3).1
    · rw [QNode.plain_iff]
      refine ⟨rfl, ?_⟩
      intro x hx
      exact (QNode.plain_iff.1 (merge_plain (H := H) hp)).2 x (List.mem_filter.1 hx).1

/-- what is under a key of the value of a plain query -/
theorem semNode_get (H : PyHash) {D : Data} {sub : SubSem} {gn : GNode} {i : Val} {q : QNode} (hp : q.Plain) {n : String}
    (h : ∃ it ∈ q.fields, it.name = n) :
    ∃ kvs, semNode D sub g gn i q = .dict kvs ∧ ∃ it ∈ q.fields, it.name = n ∧
      dget kvs (.str n) = some (semItem D sub g gn i it) := by
  have hk := (QNode.plain_iff.1 hp).2
  cases q with
  | mk fs ord =>
    refine ⟨_, by rw [semNode], ?_⟩
    simp only [QNode.fields] at h hk ⊢
    rw [semItems_map]
    have hsome : (dget (dmk (fs.map fun it => (Val.str it.resultKey, semItem D sub g gn i it))) (.str n)).isSome := by
      rw [dget_isSome_iff, mem_keys_dmk]
      obtain ⟨it, h1, h2⟩ := h
      simp only [List.map_map, List.mem_map]
      exact ⟨it, h1, by simp only [Function.comp, (hk it h1).key (H := H) |>.2.2.2, h2]⟩
    obtain ⟨v, hv⟩ := Option.isSome_iff_exists.1 hsome
    rw [hv]
    rw [dget_dmk] at hv
    have := dget_mem hv
    simp only [List.mem_reverse, List.mem_map, Prod.mk.injEq] at this
    obtain ⟨it, h1, h2, rfl⟩ := this
    refine ⟨it, h1, ?_, rfl⟩
    rw [← (hk it h1).key (H := H) |>.2.2.2]
    simpa using h2

theorem semItem_field {D : Data} {sub : SubSem} {gn : GNode} {i : Val} {it : QItem} {gf : GField}
    (h : gn.get it.name = some (.field gf)) : semItem D sub g gn i it = semName D sub gn i it.name it.options := by
  cases it with
  | field n o a => simp [semItem, QItem.name, QItem.options]
  | link n q o a =>
    simp only [QItem.name] at h
    simp [semItem, h, QItem.name, QItem.options]

/-- fields of the graph which are requested by a plain query -/
theorem semNode_field (H : PyHash) {D : Data} {sub : SubSem} {gn : GNode} {i : Val} {q : QNode} (hp : q.Plain) {n : String} {gf : GField}
    (hgf : gn.get n = some (.field gf)) (h : ∃ it ∈ q.fields, it.name = n) :
    ∃ kvs, semNode D sub g gn i q = .dict kvs ∧ dget kvs (.str n) = some (semName D sub gn i n none) := by
  obtain ⟨kvs, h1, it, h2, h3, h4⟩ := semNode_get (D := D) (sub := sub) (g := g) (gn := gn) (i := i) H hp h
  refine ⟨kvs, h1, ?_⟩
  rw [h4, semItem_field (by rw [h3]; exact hgf), h3,
    (((QNode.plain_iff.1 hp).2 it h2).key (H := H)).1]

end Hiku
