import Verif.Spec.Parts
import Verif.Props.Merge
import Verif.Props.EndpointData
import Verif.Props.Semantics
import Verif.Props.Denormalize

/-! # C67: executing merged queries -/

namespace Hiku.Parts

open Hiku.Endpoint (forall2_mem_left forall2_mem_right init_item_link uniqueKeysItems_iff linksOnlyItems_iff
  init_linksOnly init_unique)

/-! ### what `merge` keeps -/

section
variable {H : PyHash} {nodes : List QNode}

theorem mem_field {n : String} {o : Opts} {a : Option String} (h : .field n o a ∈ (merge H nodes).fields) :
    .field n o a ∈ nodes.flatMap QNode.fields := by
  rw [merge_closed] at h
  simp only [QNode.fields, List.mem_append] at h
  rcases h with h | h
  · exact (mem_fieldItems.1 (mem_of_mem_dedupBy _ h)).1
  · obtain ⟨j, _, e⟩ := List.mem_map.1 h
    cases e

theorem mem_link {n : String} {Q : QNode} {o : Opts} {a : Option String}
    (h : .link n Q o a ∈ (merge H nodes).fields) :
    Q = merge H (nodesOf H (n, optionsHash H o, a) (nodes.flatMap QNode.fields)) ∧
      ∃ q, .link n q o a ∈ nodes.flatMap QNode.fields := by
  rw [merge_closed] at h
  simp only [QNode.fields, List.mem_append] at h
  rcases h with h | h
  · have := (mem_fieldItems.1 (mem_of_mem_dedupBy _ h)).2
    cases this
  · obtain ⟨j, hj, e⟩ := List.mem_map.1 h
    have hj := mem_linkItems.1 (mem_of_mem_dedupBy _ hj)
    cases j with
    | field => cases hj.2
    | link n' q' o' a' => cases e; exact ⟨rfl, q', hj.1⟩

theorem rep_field {n : String} {o : Opts} {a : Option String} (h : .field n o a ∈ nodes.flatMap QNode.fields) :
    ∃ o', .field n o' a ∈ (merge H nodes).fields ∧ optionsHash H o' = optionsHash H o := by
  have : itemKey H (.field n o a) ∈
      (dedupBy (itemKey H) [] (fieldItems (nodes.flatMap QNode.fields))).map (itemKey H) := by
    rw [mem_keys_dedupBy]
    exact ⟨List.mem_map.2 ⟨_, mem_fieldItems.2 ⟨h, rfl⟩, rfl⟩, by simp⟩
  obtain ⟨j, hj, e⟩ := List.mem_map.1 this
  have hl := (mem_fieldItems.1 (mem_of_mem_dedupBy _ hj)).2
  cases j with
  | link => cases hl
  | field n' o' a' =>
    simp only [itemKey, Prod.mk.injEq] at e
    obtain ⟨rfl, e2, rfl⟩ := e
    refine ⟨o', ?_, e2⟩
    rw [merge_closed]
    exact List.mem_append_left _ hj

theorem rep_link {n : String} {q : QNode} {o : Opts} {a : Option String}
    (h : .link n q o a ∈ nodes.flatMap QNode.fields) :
    ∃ Q o', .link n Q o' a ∈ (merge H nodes).fields ∧ optionsHash H o' = optionsHash H o := by
  have : itemKey H (.link n q o a) ∈
      (dedupBy (itemKey H) [] (linkItems (nodes.flatMap QNode.fields))).map (itemKey H) := by
    rw [mem_keys_dedupBy]
    exact ⟨List.mem_map.2 ⟨_, mem_linkItems.2 ⟨h, rfl⟩, rfl⟩, by simp⟩
  obtain ⟨j, hj, e⟩ := List.mem_map.1 this
  have hl := (mem_linkItems.1 (mem_of_mem_dedupBy _ hj)).2
  cases j with
  | field => cases hl
  | link n' q' o' a' =>
    simp only [itemKey, Prod.mk.injEq] at e
    obtain ⟨rfl, e2, rfl⟩ := e
    refine ⟨merge H (nodesOf H (n', optionsHash H o', a') (nodes.flatMap QNode.fields)), o', ?_, e2⟩
    rw [merge_closed]
    refine List.mem_append_right _ (List.mem_map.2 ⟨_, hj, rfl⟩)

end

/-! ### options -/

theorem indexKey_of_hash {H : PyHash} {n : String} {o o' : Opts} (h : optionsHash H o = optionsHash H o') :
    indexKey H n o = indexKey H n o' := by
  simp only [indexKey, h]

theorem yieldOptions_congr {declared : List GOption} {l l' : List (String × Val)} (h : ∀ k, dget l k = dget l' k) :
    yieldOptions declared l = yieldOptions declared l' := by
  induction declared with
  | nil => rfl
  | cons op r ih => simp only [yieldOptions, h, ih]

theorem getOptions_congr {D : Data} {declared : List GOption} {o o' : Opts} (h : OptsEquiv D o o') :
    getOptions declared o = getOptions declared o' := by
  simp only [getOptions, yieldOptions_congr h.2.2]

theorem semField_equiv {D : Data} {sub : SubSem} {gn : GNode} {gf : GField} {i : Val} {o o' : Opts}
    (h : OptsEquiv D o o') : semField D sub gn gf o i = semField D sub gn gf o' i := by
  unfold semField
  cases gf.func with
  | plain f => exact h.1 _ _ _
  | checked sg reqs p => simp only [h.2.2]

section
variable {g : Graph} {D : Data} {sub : SubSem} {gn : GNode} {H : PyHash}

/-- equivalent fields have the same value -/
theorem field_value {n : String} {o o' : Opts} {a : Option String} {i i' : QItem} (he : OptsEquiv D o o')
    (h1 : initItem g gn (.field n o a) = .ok i) (h2 : initItem g gn (.field n o' a) = .ok i') (x : Val) :
    semItem D sub g gn x i = semItem D sub g gn x i' := by
  simp only [initItem] at h1 h2
  cases hget : gn.get n with
  | none => rw [hget] at h1; cases h1
  | some gi =>
    rw [hget] at h1 h2
    simp only at h1 h2
    by_cases hem : gi.options.isEmpty
    · rw [if_pos hem] at h1 h2
      cases h1; cases h2
      simp only [semItem, semName, hget]
      cases gi with
      | link => rfl
      | field gf => exact semField_equiv he
    · rw [if_neg hem] at h1 h2
      rw [getOptions_congr he, bind_ok_iff] at h1
      rw [bind_ok_iff] at h2
      obtain ⟨o1, e1, h1⟩ := h1
      obtain ⟨o2, e2, h2⟩ := h2
      rw [e1] at e2
      cases e2
      cases h1; cases h2
      rfl

/-- how `InitOptions` treats a link of the graph -/
theorem init_link {n : String} {o : Opts} {a : Option String} {q : QNode} {i : QItem} {gl : GLink}
    (hget : gn.get n = some (.link gl)) :
    initItem g gn (.link n q o a) = .ok i ↔ ∃ t q' o', g.node gl.node = some t ∧ initNode g t q = .ok q' ∧
      i = .link n q' o' a ∧ (if gl.options.isEmpty then o' = none else ∃ l, getOptions gl.options o = .ok l ∧ o' = some l) := by
  simp only [initItem, hget]
  cases ht : g.node gl.node with
  | none => simp
  | some t =>
    simp only [bind_ok_iff]
    constructor
    · rintro ⟨q', hq, h⟩
      by_cases hem : gl.options.isEmpty
      · rw [if_pos hem] at h
        cases h
        exact ⟨t, q', none, rfl, hq, rfl, by rw [if_pos hem]⟩
      · rw [if_neg hem, bind_ok_iff] at h
        obtain ⟨l, hl, h⟩ := h
        cases h
        exact ⟨t, q', some l, rfl, hq, rfl, by rw [if_neg hem]; exact ⟨l, hl, rfl⟩⟩
    · rintro ⟨t', q', o', e, hq, rfl, ho⟩
      cases e
      refine ⟨q', hq, ?_⟩
      by_cases hem : gl.options.isEmpty
      · rw [if_pos hem] at ho ⊢
        rw [ho]
      · rw [if_neg hem] at ho ⊢
        obtain ⟨l, hl, rfl⟩ := ho
        rw [hl]; rfl

/-- how `InitOptions` treats a selection on a (complex) field -/
theorem init_complex {n : String} {o : Opts} {a : Option String} {q : QNode} {i : QItem} {gf : GField}
    (hget : gn.get n = some (.field gf)) :
    initItem g gn (.link n q o a) = .ok i ↔ ∃ o', i = .link n q o' a ∧
      (if gf.options.isEmpty then o' = none else ∃ l, getOptions gf.options o = .ok l ∧ o' = some l) := by
  simp only [initItem, hget]
  by_cases hem : gf.options.isEmpty
  · simp only [if_pos hem]
    constructor
    · intro h; cases h; exact ⟨none, rfl, rfl⟩
    · rintro ⟨o', rfl, rfl⟩; rfl
  · simp only [if_neg hem, bind_ok_iff]
    constructor
    · rintro ⟨l, hl, h⟩
      cases h
      exact ⟨some l, rfl, l, hl, rfl⟩
    · rintro ⟨o', rfl, l, hl, rfl⟩
      exact ⟨l, hl, rfl⟩

/-- **C67** (acceptance): if the options of every query are accepted, so are those of the merged query. -/
theorem init_merge (H : PyHash) (nodes : List QNode) : ∀ gn, (∀ q ∈ nodes, ∃ q', initNode g gn q = .ok q') →
    ∃ Q', initNode g gn (merge H nodes) = .ok Q' := by
  induction nodes using merge_induction' H with
  | h nodes ih =>
    intro gn hp
    have hitem : ∀ i ∈ nodes.flatMap QNode.fields, ∃ i', initItem g gn i = .ok i' := by
      intro i hi
      obtain ⟨q, hq, hiq⟩ := List.mem_flatMap.1 hi
      obtain ⟨q', hq'⟩ := hp q hq
      obtain ⟨i', _, h⟩ := forall2_mem_left (initNode_ok.1 hq').1 hiq
      exact ⟨i', h⟩
    have hall : ∀ j ∈ (merge H nodes).fields, ∃ j', initItem g gn j = .ok j' := by
      intro j hj
      cases j with
      | field n o a => exact hitem _ (mem_field hj)
      | link n Q o a =>
        obtain ⟨rfl, q, hm⟩ := mem_link hj
        obtain ⟨i', hi'⟩ := hitem _ hm
        cases hget : gn.get n with
        | none => simp only [initItem, hget] at hi'; cases hi'
        | some gi =>
          cases gi with
          | field gf =>
            obtain ⟨o', _, ho⟩ := (init_complex hget).1 hi'
            exact ⟨_, (init_complex hget).2 ⟨o', rfl, ho⟩⟩
          | link gl =>
            obtain ⟨t, q', o', ht, _, _, ho⟩ := (init_link hget).1 hi'
            have hk : itemKey H (.link n q o a) = (n, optionsHash H o, a) := rfl
            obtain ⟨Q', hQ'⟩ := ih _ (mem_linkItems.2 ⟨hm, rfl⟩) t (by
              intro p hp
              obtain ⟨n2, o2, a2, hm2, e⟩ := mem_nodesOf.1 hp
              rw [hk] at e
              simp only [Prod.mk.injEq] at e
              obtain ⟨rfl, _, rfl⟩ := e
              obtain ⟨i2, hi2⟩ := hitem _ hm2
              obtain ⟨t2, q2, _, ht2, hq2, _, _⟩ := (init_link hget).1 hi2
              rw [ht] at ht2
              cases ht2
              exact ⟨q2, hq2⟩)
            exact ⟨_, (init_link hget).2 ⟨t, Q', o', ht, hQ', rfl, ho⟩⟩
    have : ∀ l : List QItem, (∀ j ∈ l, ∃ j', initItem g gn j = .ok j') →
        ∃ l', List.Forall₂ (fun i i' => initItem g gn i = .ok i') l l' := by
      intro l
      induction l with
      | nil => intro _; exact ⟨[], .nil⟩
      | cons x r ihr =>
        intro h
        obtain ⟨x', hx⟩ := h x (by simp)
        obtain ⟨r', hr⟩ := ihr fun j hj => h j (by simp [hj])
        exact ⟨x' :: r', .cons hx hr⟩
    obtain ⟨l', hl'⟩ := this _ hall
    exact ⟨.mk l' (merge H nodes).ordered, initNode_ok.2 ⟨hl', rfl⟩⟩

/-- the values of the nodes `nodes`, as executed, on the object `x` -/
def Values (D : Data) (sub : SubSem) (g : Graph) (gn : GNode) (x : Val) (nodes : List QNode) (v : Val) : Prop :=
  ∃ q ∈ nodes, ∃ q', initNode g gn q = .ok q' ∧ v = semNode D sub g gn x q'

theorem node_value {gn : GNode} {x : Val} {q q' : QNode} (hi : initNode g gn q = .ok q') (hu : (q.fields.map QItem.resultKey).Nodup) :
    ∃ kvs, semNode D sub g gn x q' = .dict kvs ∧ ∀ k y, dget kvs k = some y ↔
      ∃ i ∈ q.fields, ∃ i', initItem g gn i = .ok i' ∧ k = .str i.resultKey ∧ y = semItem D sub g gn x i' := by
  obtain ⟨fs', ord'⟩ := q'
  obtain ⟨hf, _⟩ := initNode_ok.1 hi
  have hf : List.Forall₂ (fun i i' => initItem g gn i = .ok i') q.fields fs' := hf
  refine ⟨_, by rw [semNode], ?_⟩
  intro k y
  have hk : fs'.map QItem.resultKey = q.fields.map QItem.resultKey := by
    have key : ∀ l l' : List QItem, List.Forall₂ (fun i i' => initItem g gn i = .ok i') l l' →
        l'.map QItem.resultKey = l.map QItem.resultKey := by
      intro l l' hll
      induction hll with
      | nil => rfl
      | cons h _ ihr => rw [List.map_cons, List.map_cons, (init_item_link h).2.1, ihr]
    exact key _ _ hf
  have hn : ((semItems D sub g gn x fs').map (·.1)).Nodup := by
    rw [semItems_map, List.map_map]
    have : ((fun p : Val × Val => p.1) ∘ fun it : QItem => (Val.str it.resultKey, semItem D sub g gn x it)) =
        Val.str ∘ QItem.resultKey := rfl
    rw [this, ← List.map_map, hk]
    exact hu.map (fun a b e => by simpa using e)
  rw [dget_dmk_nodup _ hn]
  constructor
  · intro h
    have h := dget_mem h
    rw [semItems_map] at h
    obtain ⟨i', hi', e⟩ := List.mem_map.1 h
    cases e
    obtain ⟨i, him, hii⟩ := forall2_mem_right hf hi'
    exact ⟨i, him, i', hii, by rw [(init_item_link hii).2.1], rfl⟩
  · rintro ⟨i, him, i', hii, rfl, rfl⟩
    obtain ⟨i2, hi2, h2⟩ := forall2_mem_left hf him
    rw [hii] at h2
    cases h2
    apply dget_of_mem_nodup hn
    rw [semItems_map]
    exact List.mem_map.2 ⟨i', hi2, by rw [(init_item_link hii).2.1]⟩

theorem Asked.mono {nodes ns : List QNode} (h : ∀ q ∈ ns, ∃ p ∈ nodes, Below p q) {n : String} {o : Opts}
    (ha : Asked ns n o) : Asked nodes n o := by
  obtain ⟨q, hq, q', hb, i, hi, h1, h2⟩ := ha
  obtain ⟨p, hp, hpq⟩ := h q hq
  have trans : ∀ {a b c : QNode}, Below a b → Below b c → Below a c := by
    intro a b c h1 h2
    induction h1 with
    | refl => exact h2
    | step hm _ ih => exact .step hm (ih h2)
  exact ⟨p, hp, q', trans hpq hb, i, hi, h1, h2⟩

/-- **C67** (semantics): the value of the merged query is put together from the values of the queries. -/
theorem union_merge (H : PyHash) (nodes : List QNode) : ∀ gn Q', nodes ≠ [] → Faithful H D (Asked nodes) →
    (∀ q ∈ nodes, ∃ q', initNode g gn q = .ok q') → (∀ q ∈ nodes, UniqueKeys q) → UniqueKeys (merge H nodes) →
    initNode g gn (merge H nodes) = .ok Q' →
    ∀ x, Union (semNode D sub g gn x Q') (Values D sub g gn x nodes) := by
  induction nodes using merge_induction' H with
  | h nodes ih =>
    intro gn Q' hne hH hp hu hU hQ' x
    have huk : ∀ q ∈ nodes, (q.fields.map QItem.resultKey).Nodup := by
      intro q hq
      have := hu q hq
      cases q with
      | mk fs ord => rw [UniqueKeys] at this; exact this.1
    have hUk : ((merge H nodes).fields.map QItem.resultKey).Nodup := by
      cases hm : merge H nodes with
      | mk fs ord => rw [hm, UniqueKeys] at hU; exact hU.1
    have hUl : ∀ n q o a, .link n q o a ∈ (merge H nodes).fields → UniqueKeys q := by
      cases hm : merge H nodes with
      | mk fs ord => rw [hm, UniqueKeys, uniqueKeysItems_iff] at hU; exact hU.2
    have hul : ∀ p ∈ nodes, ∀ n q o a, .link n q o a ∈ p.fields → UniqueKeys q := by
      intro p hp
      have := hu p hp
      cases p with
      | mk fs ord => rw [UniqueKeys, uniqueKeysItems_iff] at this; exact this.2
    have hasked : ∀ i ∈ nodes.flatMap QNode.fields, Asked nodes i.name i.options := by
      intro i hi
      obtain ⟨q, hq, hiq⟩ := List.mem_flatMap.1 hi
      exact ⟨q, hq, q, .refl q, i, hiq, rfl, rfl⟩
    -- the item of the merged query with the given result key
    have hrep : ∀ i ∈ nodes.flatMap QNode.fields, ∀ j ∈ (merge H nodes).fields, i.resultKey = j.resultKey →
        i.isLink = j.isLink ∧ itemKey H i = itemKey H j := by
      intro i hi j hj e
      have hr : ∃ j' ∈ (merge H nodes).fields, j'.isLink = i.isLink ∧ itemKey H j' = itemKey H i := by
        cases i with
        | field n o a =>
          obtain ⟨o', h1, h2⟩ := rep_field (H := H) hi
          exact ⟨_, h1, rfl, by simp only [itemKey, h2]⟩
        | link n q o a =>
          obtain ⟨Q, o', h1, h2⟩ := rep_link (H := H) hi
          exact ⟨_, h1, rfl, by simp only [itemKey, h2]⟩
      obtain ⟨j', hj', h1, h2⟩ := hr
      have hk : j'.resultKey = i.resultKey := by
        rw [itemKey_eq, itemKey_eq] at h2
        simp only [Prod.mk.injEq] at h2
        rw [QItem.resultKey, QItem.resultKey, h2.1, h2.2.2]
      have : j' = j := List.inj_on_of_nodup_map hUk hj' hj (hk.trans e)
      subst this
      exact ⟨h1.symm, h2.symm⟩
    -- a part which contains the item
    have hpart : ∀ i ∈ nodes.flatMap QNode.fields, ∃ q ∈ nodes, ∃ q', initNode g gn q = .ok q' ∧ i ∈ q.fields ∧
        ∃ i', initItem g gn i = .ok i' := by
      intro i hi
      obtain ⟨q, hq, hiq⟩ := List.mem_flatMap.1 hi
      obtain ⟨q', hq'⟩ := hp q hq
      obtain ⟨i', _, h⟩ := forall2_mem_left (initNode_ok.1 hq').1 hiq
      exact ⟨q, hq, q', hq', hiq, i', h⟩
    obtain ⟨kvs, hv, hkvs⟩ := node_value (D := D) (sub := sub) (x := x) hQ' hUk
    rw [hv]
    -- the values of the parts under a key
    have hvals : ∀ k y, (∃ kvs', Values D sub g gn x nodes (.dict kvs') ∧ dget kvs' k = some y) ↔
        ∃ i ∈ nodes.flatMap QNode.fields, ∃ i', initItem g gn i = .ok i' ∧ k = .str i.resultKey ∧
          y = semItem D sub g gn x i' := by
      intro k y
      constructor
      · rintro ⟨kvs', ⟨q, hq, q', hq', e⟩, hd⟩
        obtain ⟨kvs2, hv2, hk2⟩ := node_value (D := D) (sub := sub) (x := x) hq' (huk q hq)
        rw [hv2] at e
        cases e
        obtain ⟨i, hi, i', hii, h1, h2⟩ := (hk2 k y).1 hd
        exact ⟨i, List.mem_flatMap.2 ⟨q, hq, hi⟩, i', hii, h1, h2⟩
      · rintro ⟨i, hi, i', hii, h1, h2⟩
        obtain ⟨q, hq, hiq⟩ := List.mem_flatMap.1 hi
        obtain ⟨q', hq'⟩ := hp q hq
        obtain ⟨kvs2, hv2, hk2⟩ := node_value (D := D) (sub := sub) (x := x) hq' (huk q hq)
        exact ⟨kvs2, ⟨q, hq, q', hq', hv2.symm⟩, (hk2 k y).2 ⟨i, hiq, i', hii, h1, h2⟩⟩
    refine .dict ?_ ?_ ?_ ?_
    · cases nodes with
      | nil => exact absurd rfl hne
      | cons q r =>
        obtain ⟨q', hq'⟩ := hp q (by simp)
        exact ⟨_, q, by simp, q', hq', rfl⟩
    · rintro y ⟨q, hq, q', hq', rfl⟩
      obtain ⟨kvs2, hv2, _⟩ := node_value (D := D) (sub := sub) (x := x) hq' (huk q hq)
      exact ⟨kvs2, hv2⟩
    · intro k v hk
      have hS : (fun y => ∃ kvs', Values D sub g gn x nodes (.dict kvs') ∧ dget kvs' k = some y) = fun y =>
          ∃ i ∈ nodes.flatMap QNode.fields, ∃ i', initItem g gn i = .ok i' ∧ k = .str i.resultKey ∧
          y = semItem D sub g gn x i' := by
        funext y; exact propext (hvals k y)
      rw [hS]
      obtain ⟨j, hj, j', hjj, rfl, rfl⟩ := (hkvs k v).1 hk
      cases j with
      | field n o a =>
        have hall := mem_field hj
        refine .same ⟨_, _, hall, _, hjj, rfl, rfl⟩ ?_
        rintro y ⟨i, hi, i', hii, e, rfl⟩
        obtain ⟨h1, h2⟩ := hrep i hi _ hj (by simpa using e.symm)
        cases i with
        | link => cases h1
        | field n2 o2 a2 =>
          simp only [itemKey, Prod.mk.injEq] at h2
          obtain ⟨rfl, h2, rfl⟩ := h2
          have := (hH _ _ _ _ (hasked _ hi) (hasked _ hall) (indexKey_of_hash h2)).2
          exact field_value this hii hjj x
      | link n Q o a =>
        obtain ⟨rfl, q, hall⟩ := mem_link hj
        have heq : ∀ i ∈ nodes.flatMap QNode.fields, Val.str (QItem.link n (merge H (nodesOf H (n, optionsHash H o, a)
            (nodes.flatMap QNode.fields))) o a).resultKey = .str i.resultKey → ∃ q2 o2, i = .link n q2 o2 a ∧
            optionsHash H o2 = optionsHash H o ∧ OptsEquiv D o2 o := by
          intro i hi e
          obtain ⟨h1, h2⟩ := hrep i hi _ hj (by simpa using e.symm)
          cases i with
          | field => cases h1
          | link n2 q2 o2 a2 =>
            simp only [itemKey, Prod.mk.injEq] at h2
            obtain ⟨rfl, h2, rfl⟩ := h2
            exact ⟨q2, o2, rfl, h2, (hH _ _ _ _ (hasked _ hi) (hasked _ hall) (indexKey_of_hash h2)).2⟩
        cases hget : gn.get n with
        | none => simp only [initItem, hget] at hjj; cases hjj
        | some gi =>
          cases gi with
          | field gf =>
            obtain ⟨o', rfl, ho⟩ := (init_complex hget).1 hjj
            refine .same ?_ ?_
            · exact ⟨_, _, hall, _, (init_complex hget).2 ⟨o', rfl, ho⟩, rfl, rfl⟩
            · rintro y ⟨i, hi, i', hii, e, rfl⟩
              obtain ⟨q2, o2, rfl, _, heq⟩ := heq i hi e
              obtain ⟨o3, rfl, ho3⟩ := (init_complex hget).1 hii
              have : o3 = o' := by
                by_cases hem : gf.options.isEmpty
                · rw [if_pos hem] at ho ho3; rw [ho, ho3]
                · rw [if_neg hem] at ho ho3
                  obtain ⟨l, hl, rfl⟩ := ho
                  obtain ⟨l3, hl3, rfl⟩ := ho3
                  rw [getOptions_congr heq, hl] at hl3
                  cases hl3; rfl
              subst this
              simp only [semItem, hget]
          | link gl =>
            obtain ⟨t, QS, o', ht, hQS, rfl, ho⟩ := (init_link hget).1 hjj
            have hk : itemKey H (.link n q o a) = (n, optionsHash H o, a) := rfl
            have hqs : ∀ p ∈ nodesOf H (n, optionsHash H o, a) (nodes.flatMap QNode.fields),
                ∃ o2, .link n p o2 a ∈ nodes.flatMap QNode.fields ∧ optionsHash H o2 = optionsHash H o := by
              intro p hp
              obtain ⟨n2, o2, a2, hm2, e⟩ := mem_nodesOf.1 hp
              simp only [Prod.mk.injEq] at e
              obtain ⟨rfl, h2, rfl⟩ := e
              exact ⟨o2, hm2, h2⟩
            have hsub := ih _ (mem_linkItems.2 ⟨hall, rfl⟩) t QS
              (by
                intro e
                have : q ∈ nodesOf H (n, optionsHash H o, a) (nodes.flatMap QNode.fields) :=
                  mem_nodesOf.2 ⟨n, o, a, hall, rfl⟩
                rw [hk] at e
                rw [e] at this
                cases this)
              (by
                intro n1 p1 n2 p2 h1 h2
                have hb : ∀ q ∈ nodesOf H (n, optionsHash H o, a) (nodes.flatMap QNode.fields), ∃ p ∈ nodes, Below p q := by
                  intro p hp
                  obtain ⟨o2, hm, _⟩ := hqs p hp
                  obtain ⟨r, hr, hrm⟩ := List.mem_flatMap.1 hm
                  refine ⟨r, hr, ?_⟩
                  rw [r.eta]
                  exact .step hrm (.refl _)
                exact hH _ _ _ _ (Asked.mono hb h1) (Asked.mono hb h2))
              (by
                intro p hp
                obtain ⟨o2, hm, _⟩ := hqs p hp
                obtain ⟨_, _, _, _, _, i2, hi2⟩ := hpart _ hm
                obtain ⟨t2, q2, _, ht2, hq2, _, _⟩ := (init_link hget).1 hi2
                rw [ht] at ht2; cases ht2
                exact ⟨q2, hq2⟩)
              (by
                intro p hp
                obtain ⟨o2, hm, _⟩ := hqs p hp
                obtain ⟨r, hr, hrm⟩ := List.mem_flatMap.1 hm
                exact hul r hr _ _ _ _ hrm)
              (hUl _ _ _ _ hj) hQS
            rw [hk] at hsub
            -- the values of the parts under the key
            have hS2 : ∀ y, (∃ i ∈ nodes.flatMap QNode.fields, ∃ i', initItem g gn i = .ok i' ∧
                Val.str (QItem.link n (merge H (nodesOf H (n, optionsHash H o, a) (nodes.flatMap QNode.fields))) o a).resultKey
                  = .str i.resultKey ∧ y = semItem D sub g gn x i') ↔
                ∃ p ∈ nodesOf H (n, optionsHash H o, a) (nodes.flatMap QNode.fields), ∃ p', initNode g t p = .ok p' ∧
                  y = semItem D sub g gn x (.link n p' o' a) := by
              intro y
              constructor
              · rintro ⟨i, hi, i', hii, e, rfl⟩
                obtain ⟨q2, o2, rfl, hh, heq⟩ := heq i hi e
                obtain ⟨t3, q3, o3, ht3, hq3, rfl, ho3⟩ := (init_link hget).1 hii
                rw [ht] at ht3; cases ht3
                have : o3 = o' := by
                  by_cases hem : gl.options.isEmpty
                  · rw [if_pos hem] at ho ho3; rw [ho, ho3]
                  · rw [if_neg hem] at ho ho3
                    obtain ⟨l, hl, rfl⟩ := ho
                    obtain ⟨l3, hl3, rfl⟩ := ho3
                    rw [getOptions_congr heq, hl] at hl3
                    cases hl3; rfl
                subst this
                exact ⟨q2, mem_nodesOf.2 ⟨n, o2, a, hi, by rw [hh]⟩, q3, hq3, rfl⟩
              · rintro ⟨p, hp, p', hp', rfl⟩
                obtain ⟨o2, hm, hh⟩ := hqs p hp
                have heq2 := (hH _ _ _ _ (hasked _ hm) (hasked _ hall) (indexKey_of_hash hh)).2
                refine ⟨_, hm, .link n p' o' a, (init_link hget).2 ⟨t, p', o', ht, hp', rfl, ?_⟩, rfl, rfl⟩
                have heq2 : OptsEquiv D o2 o := heq2
                by_cases hem : gl.options.isEmpty
                · rw [if_pos hem] at ho ⊢; exact ho
                · rw [if_neg hem] at ho ⊢
                  rw [getOptions_congr heq2]; exact ho
            rw [show (fun y => _) = _ from funext fun y => propext (hS2 y)]
            simp only [semItem, hget, ht]
            obtain ⟨p0, hp0, p0', hp0'⟩ : ∃ p ∈ nodesOf H (n, optionsHash H o, a) (nodes.flatMap QNode.fields),
                ∃ p', initNode g t p = .ok p' := by
              obtain ⟨_, _, _, _, _, i2, hi2⟩ := hpart _ hall
              obtain ⟨t2, q2, _, ht2, hq2, _, _⟩ := (init_link hget).1 hi2
              rw [ht] at ht2; cases ht2
              exact ⟨q, mem_nodesOf.2 ⟨n, o, a, hall, rfl⟩, q2, hq2⟩
            cases hte : gl.typeEnum with
            | maybe =>
              simp only
              by_cases hno : semLink D sub gn x gl o' = .nothing
              · simp only [if_pos hno]
                refine .same ⟨_, p0, hp0, p0', hp0', rfl⟩ ?_
                rintro y ⟨_, _, _, _, rfl⟩
                rfl
              · simp only [if_neg hno]
                exact hsub _
            | one => exact hsub _
            | many =>
              simp only
              generalize targets .many (semLink D sub gn x gl o') = ts
              refine .list ⟨_, p0, hp0, p0', hp0', rfl⟩ ?_ ?_
              · rintro y ⟨_, _, _, _, rfl⟩
                exact ⟨_, rfl, by simp⟩
              · intro j v hjv
                rw [List.getElem?_map, Option.map_eq_some_iff] at hjv
                obtain ⟨tj, htj, rfl⟩ := hjv
                have e : (fun y => ∃ l', (∃ p ∈ nodesOf H (n, optionsHash H o, a) (nodes.flatMap QNode.fields),
                    ∃ p', initNode g t p = .ok p' ∧ Val.list l' = .list (ts.map fun i => semNode D sub g t i p')) ∧
                      l'[j]? = some y) = Values D sub g t tj (nodesOf H (n, optionsHash H o, a) (nodes.flatMap QNode.fields)) := by
                  funext y
                  apply propext
                  constructor
                  · rintro ⟨l', ⟨p, hp, p', hp', e⟩, hy⟩
                    cases e
                    rw [List.getElem?_map, htj] at hy
                    cases hy
                    exact ⟨p, hp, p', hp', rfl⟩
                  · rintro ⟨p, hp, p', hp', rfl⟩
                    exact ⟨_, ⟨p, hp, p', hp', rfl⟩, by rw [List.getElem?_map, htj]; rfl⟩
                rw [e]
                exact hsub tj
    · intro k kvs' hk hS
      cases hd : dget kvs' k with
      | none => rfl
      | some y =>
        obtain ⟨i, hi, i', hii, rfl, rfl⟩ := (hvals k y).1 ⟨kvs', hS, hd⟩
        exfalso
        have hr : ∃ j' ∈ (merge H nodes).fields, j'.resultKey = i.resultKey := by
          cases i with
          | field n o a =>
            obtain ⟨o', h1, _⟩ := rep_field (H := H) hi
            exact ⟨_, h1, rfl⟩
          | link n q o a =>
            obtain ⟨Q, o', h1, _⟩ := rep_link (H := H) hi
            exact ⟨_, h1, rfl⟩
        obtain ⟨j, hj, e⟩ := hr
        obtain ⟨j', _, hjj⟩ := forall2_mem_left (initNode_ok.1 hQ').1 hj
        have := (hkvs (.str i.resultKey) _).2 ⟨j, hj, j', hjj, by rw [e], rfl⟩
        rw [hk] at this
        cases this

end

/-- what is put together contains each of its parts -/
theorem Union.extends {v : Val} {S : Val → Prop} (h : Union v S) : ∀ x, S x → Extends v x := by
  induction h with
  | same _ h => intro x hx; rw [h x hx]; exact .refl _
  | dict _ h1 _ h3 ih =>
    intro x hx
    obtain ⟨kvs', rfl⟩ := h1 x hx
    refine .dict ?_ ?_
    · intro k hk
      rw [Option.isSome_iff_ne_none] at hk ⊢
      exact fun e => hk (h3 k kvs' e hx)
    · intro k v y hv hy
      exact ih k v hv y ⟨kvs', hx, hy⟩
  | @list l S _ h1 _ ih =>
    intro x hx
    obtain ⟨l', rfl, hlen⟩ := h1 x hx
    refine .list ?_
    rw [List.forall₂_iff_get]
    refine ⟨hlen.symm, ?_⟩
    intro j hj hj'
    exact ih j _ (List.getElem?_eq_getElem hj) _ ⟨l', hx, List.getElem?_eq_getElem hj'⟩

section
variable {g : Graph} {U : String → Opts → Prop}

theorem linksOnly_merge (H : PyHash) (nodes : List QNode) : ∀ gn, (∀ q ∈ nodes, LinksOnly g gn q) →
    LinksOnly g gn (merge H nodes) := by
  induction nodes using merge_induction' H with
  | h nodes ih =>
    intro gn hp
    have hitem : ∀ i ∈ nodes.flatMap QNode.fields, (gn.get i.name).isSome ∧ ∀ n q o a, i = .link n q o a →
        ∃ gl t, gn.get n = some (.link gl) ∧ g.node gl.node = some t ∧ LinksOnly g t q := by
      intro i hi
      obtain ⟨q, hq, hiq⟩ := List.mem_flatMap.1 hi
      have := hp q hq
      rw [q.eta, LinksOnly, linksOnlyItems_iff] at this
      exact this i hiq
    rw [(merge H nodes).eta, LinksOnly, linksOnlyItems_iff]
    intro j hj
    cases j with
    | field n o a => exact ⟨(hitem _ (mem_field hj)).1, by intro _ _ _ _ e; cases e⟩
    | link n Q o a =>
      obtain ⟨rfl, q, hm⟩ := mem_link hj
      refine ⟨(hitem _ hm).1, ?_⟩
      intro n' q' o' a' e
      cases e
      obtain ⟨gl, t, h1, h2, _⟩ := (hitem _ hm).2 n q o a rfl
      refine ⟨gl, t, h1, h2, ?_⟩
      apply ih _ (mem_linkItems.2 ⟨hm, rfl⟩)
      intro p hp
      obtain ⟨n2, o2, a2, hm2, e⟩ := mem_nodesOf.1 hp
      simp only [itemKey, Prod.mk.injEq] at e
      obtain ⟨rfl, _, rfl⟩ := e
      obtain ⟨gl2, t2, h3, h4, h5⟩ := (hitem _ hm2).2 _ _ _ _ rfl
      rw [h1] at h3; cases h3
      rw [h2] at h4; cases h4
      exact h5

theorem nodeOk_merge (H : PyHash) (nodes : List QNode) : ∀ gn Q', (∀ q ∈ nodes, LinksOnly g gn q) →
    (∀ q ∈ nodes, ∃ q', initNode g gn q = .ok q' ∧ NodeOk U g gn q') → initNode g gn (merge H nodes) = .ok Q' →
    NodeOk U g gn Q' := by
  induction nodes using merge_induction' H with
  | h nodes ih =>
    intro gn Q' hl hp hQ'
    have hitem : ∀ i ∈ nodes.flatMap QNode.fields, ∃ i', initItem g gn i = .ok i' ∧ ItemOk U g gn i' := by
      intro i hi
      obtain ⟨q, hq, hiq⟩ := List.mem_flatMap.1 hi
      obtain ⟨q', h1, h2⟩ := hp q hq
      obtain ⟨i', hi', h⟩ := forall2_mem_left (initNode_ok.1 h1).1 hiq
      exact ⟨i', h, (nodeOk_iff.1 h2).1 i' hi'⟩
    have hlo := init_linksOnly _ gn Q' hQ' (linksOnly_merge H nodes gn hl)
    rw [Q'.eta, LinksOnly, linksOnlyItems_iff] at hlo
    rw [nodeOk_iff]
    refine ⟨?_, ?_⟩
    · intro j' hj'
      obtain ⟨j, hj, hjj⟩ := forall2_mem_right (initNode_ok.1 hQ').1 hj'
      cases j with
      | field n o a =>
        obtain ⟨i', h1, h2⟩ := hitem _ (mem_field hj)
        rw [hjj] at h1
        cases h1
        exact h2
      | link n Q o a =>
        obtain ⟨rfl, q, hm⟩ := mem_link hj
        obtain ⟨i', h1, h2⟩ := hitem _ hm
        have hlk : ∃ gl t, gn.get n = some (.link gl) ∧ g.node gl.node = some t := by
          obtain ⟨p, hpn, hpm⟩ := List.mem_flatMap.1 hm
          have := hl p hpn
          rw [p.eta, LinksOnly, linksOnlyItems_iff] at this
          obtain ⟨gl, t, h1, h2, _⟩ := (this _ hpm).2 _ _ _ _ rfl
          exact ⟨gl, t, h1, h2⟩
        obtain ⟨gl, t, hget, ht⟩ := hlk
        obtain ⟨t1, q1, o1, ht1, hq1, rfl, ho1⟩ := (init_link hget).1 h1
        obtain ⟨t2, Q2, o2, ht2, hQ2, rfl, ho2⟩ := (init_link hget).1 hjj
        rw [ht] at ht1 ht2; cases ht1; cases ht2
        have : o2 = o1 := by
          by_cases hem : gl.options.isEmpty
          · rw [if_pos hem] at ho1 ho2; rw [ho1, ho2]
          · rw [if_neg hem] at ho1 ho2
            obtain ⟨l, hl, rfl⟩ := ho1
            obtain ⟨l3, hl3, rfl⟩ := ho2
            rw [hl] at hl3
            cases hl3; rfl
        subst this
        rw [ItemOk] at h2 ⊢
        refine ⟨h2.1, .inl ⟨gl, t, hget, ht, ?_⟩⟩
        have hmem : ∀ p ∈ nodesOf H (n, optionsHash H o, a) (nodes.flatMap QNode.fields),
            ∃ o2, .link n p o2 a ∈ nodes.flatMap QNode.fields := by
          intro p hp
          obtain ⟨n2, o2, a2, hm2, e⟩ := mem_nodesOf.1 hp
          simp only [Prod.mk.injEq] at e
          obtain ⟨rfl, _, rfl⟩ := e
          exact ⟨o2, hm2⟩
        refine ih _ (mem_linkItems.2 ⟨hm, rfl⟩) t Q2 ?_ ?_ hQ2
        · intro p hp
          obtain ⟨o3, hm3⟩ := hmem p hp
          obtain ⟨r, hr, hrm⟩ := List.mem_flatMap.1 hm3
          have := hl r hr
          rw [r.eta, LinksOnly, linksOnlyItems_iff] at this
          obtain ⟨gl3, t3, e1, e2, h3⟩ := (this _ hrm).2 _ _ _ _ rfl
          rw [hget] at e1; cases e1
          rw [ht] at e2; cases e2
          exact h3
        · intro p hp
          obtain ⟨o3, hm3⟩ := hmem p hp
          obtain ⟨i3, h3, h4⟩ := hitem _ hm3
          obtain ⟨t3, q3, o4, ht3, hq3, rfl, _⟩ := (init_link hget).1 h3
          rw [ht] at ht3; cases ht3
          refine ⟨q3, hq3, ?_⟩
          rw [ItemOk] at h4
          rcases h4.2 with ⟨gl4, t4, e1, e2, h5⟩ | ⟨gf, e1, _⟩
          · rw [hget] at e1; cases e1
            rw [ht] at e2; cases e2
            exact h5
          · rw [hget] at e1; cases e1
    · intro _ i hi hlk
      cases i with
      | field => cases hlk
      | link n q o a =>
        obtain ⟨gl, t, h1, _⟩ := (hlo _ hi).2 _ _ _ _ rfl
        exact ⟨gl, h1⟩

end

section
variable {env : Env} {D : Data} {U : String → Opts → Prop}

theorem Gives.unique {choose : Nat → List Nat → List Nat} {gi : Nat} {g : Graph} {q : QNode} {v v' : Val}
    (h : Gives env choose gi g q v) (h' : Gives env choose gi g q v') : v = v' := by
  obtain ⟨N, h⟩ := h
  obtain ⟨N', h'⟩ := h'
  obtain ⟨i, q1, e1, e2⟩ := h (N + N' + 1) (N + N' + 1) (by omega) (by omega)
  obtain ⟨i', q1', e1', e2'⟩ := h' (N + N' + 1) (N + N' + 1) (by omega) (by omega)
  rw [e1] at e1'
  cases e1'
  rw [e2] at e2'
  cases e2'
  rfl

theorem gives_value (hgood : GoodSys U env.sys) (hH : Faithful env.H D U) (hconf : Conforms env D U)
    {choose : Nat → List Nat → List Nat} (hch : ValidChoice choose)
    {gi : Nat} {g : Graph} {q q' : QNode} (hg : env.sys.graphs[gi]? = some g)
    (hi : initOptions g q = .ok q') (hq : NodeOk U g g.root q') (hu : UniqueKeys q) (hl : LinksOnly g g.root q) :
    Gives env choose gi g q (semQuery env.sys D gi q') := by
  refine ⟨1 + costQuery env.sys 1 0 gi q + costQuery env.sys 0 1 gi q, ?_⟩
  intro fuel inner hf hin
  have hf : costQuery env.sys 1 0 gi q < fuel := by omega
  have hin : 1 + costQuery env.sys 0 1 gi q < inner := by omega
  obtain ⟨idx, he, _⟩ := c06_result hgood hH hconf hch hg hi hq hf hin
  exact ⟨idx, q', he, c20_value hgood hH hconf hch hg hi hq (init_unique _ _ _ hi hl hu)
    (init_linksOnly _ _ _ hi hl) hf hin he⟩

/-- **C67**: queries which select on links only are merged and executed together, with any schedule: if the
queries are valid, no two things with the same result key are asked for in the merged query, and there are no
hash collisions among the options, then the execution succeeds and its result is put together from the results
which the queries give when each is executed alone, with any other schedule. -/
theorem c67_union (hgood : GoodSys U env.sys) (hH : Faithful env.H D U) (hconf : Conforms env D U)
    {choose choose' : Nat → List Nat → List Nat} (hch : ValidChoice choose) (hch' : ValidChoice choose')
    {gi : Nat} {g : Graph} (hg : env.sys.graphs[gi]? = some g) {nodes : List QNode} (hne : nodes ≠ [])
    (hq : ∀ q ∈ nodes, LinksOnly g g.root q ∧ UniqueKeys q ∧ ∃ q', initOptions g q = .ok q' ∧ NodeOk U g g.root q')
    (hH0 : Faithful env.H D (Asked nodes)) (hu : UniqueKeys (merge env.H nodes)) :
    ∃ v, Gives env choose gi g (merge env.H nodes) v ∧
      Union v fun x => ∃ q ∈ nodes, Gives env choose' gi g q x := by
  obtain ⟨Q', hQ'⟩ := init_merge env.H nodes g.root fun q h => (hq q h).2.2.imp fun _ h => h.1
  have hl := linksOnly_merge env.H nodes g.root fun q h => (hq q h).1
  have hok : NodeOk U g g.root Q' := nodeOk_merge env.H nodes g.root Q' (fun q h => (hq q h).1)
    (fun q h => (hq q h).2.2) hQ'
  refine ⟨_, gives_value hgood hH hconf hch hg hQ' hok hu hl, ?_⟩
  have := union_merge (g := g) (D := D) (sub := semSub env.sys D gi) env.H nodes g.root Q' hne hH0
    (fun q h => (hq q h).2.2.imp fun _ h => h.1) (fun q h => (hq q h).2.1) hu hQ' rootIdent
  have e : (fun x => ∃ q ∈ nodes, Gives env choose' gi g q x) =
      Values D (semSub env.sys D gi) g g.root rootIdent nodes := by
    funext x
    apply propext
    constructor
    · rintro ⟨q, hm, hx⟩
      obtain ⟨hl, hu, q', hi, hok⟩ := hq q hm
      refine ⟨q, hm, q', hi, ?_⟩
      rw [hx.unique (gives_value hgood hH hconf hch' hg hi hok hu hl), semQuery, hg]
    · rintro ⟨q, hm, q', hi, rfl⟩
      obtain ⟨hl, hu, q2, hi2, hok⟩ := hq q hm
      have hi : initOptions g q = .ok q' := hi
      rw [hi] at hi2
      cases hi2
      have := gives_value hgood hH hconf hch' hg hi hok hu hl
      rw [semQuery, hg] at this
      exact ⟨q, hm, this⟩
  rw [e, semQuery, hg]
  exact this

/-- **C67**: the result of the merged query contains the result of each of the queries, executed alone. -/
theorem c67_parts (hgood : GoodSys U env.sys) (hH : Faithful env.H D U) (hconf : Conforms env D U)
    {choose choose' : Nat → List Nat → List Nat} (hch : ValidChoice choose) (hch' : ValidChoice choose')
    {gi : Nat} {g : Graph} (hg : env.sys.graphs[gi]? = some g) {nodes : List QNode}
    (hq : ∀ q ∈ nodes, LinksOnly g g.root q ∧ UniqueKeys q ∧ ∃ q', initOptions g q = .ok q' ∧ NodeOk U g g.root q')
    (hH0 : Faithful env.H D (Asked nodes)) (hu : UniqueKeys (merge env.H nodes)) {q : QNode} (hmem : q ∈ nodes) :
    ∃ v x, Gives env choose gi g (merge env.H nodes) v ∧ Gives env choose' gi g q x ∧ Extends v x := by
  obtain ⟨v, h1, h2⟩ := c67_union hgood hH hconf hch hch' hg (by rintro rfl; cases hmem) hq hH0 hu
  obtain ⟨hl, hu, q', hi, hok⟩ := hq q hmem
  have hx := gives_value hgood hH hconf hch' hg hi hok hu hl
  exact ⟨v, _, h1, hx, h2.extends _ ⟨q, hmem, hx⟩⟩

end

/-! ### example -/

def exA : QNode := .mk [.link "tracks" (.mk [.field "label" none none] false) none none] false
def exB : QNode :=
  .mk [.link "tracks" (.mk [.link "album" (.mk [.field "name" none none] false) none none] false) none none] false

theorem exMerge : merge exEnv.H [exA, exB] = exQuery := rfl

theorem plain_items {fs : List QItem} : PlainItems fs ↔ ∀ i ∈ fs, i.Plain := by
  induction fs with
  | nil => simp [PlainItems]
  | cons i r ih => simp [PlainItems, ih]

/-- queries without options ask for nothing with options -/
theorem asked_plain {nodes : List QNode} (h : ∀ q ∈ nodes, q.Plain) {n : String} {o : Opts} (ha : Asked nodes n o) :
    o = none := by
  obtain ⟨q, hq, q', hb, i, hi, _, rfl⟩ := ha
  have hp : q'.Plain := by
    have := h q hq
    clear hq hi
    induction hb with
    | refl => exact this
    | step hm _ ih =>
      rw [QNode.Plain, plain_items] at this
      have := this.2 _ hm
      rw [QItem.Plain] at this
      exact ih this.2.2
  rw [q'.eta, QNode.Plain, plain_items] at hp
  have := hp.2 i hi
  cases i with
  | field => rw [QItem.Plain] at this; exact this.1
  | link => rw [QItem.Plain] at this; exact this.1

theorem exParts : ∀ q ∈ [exA, exB], LinksOnly exHigh exHigh.root q ∧ UniqueKeys q ∧
    ∃ q', initOptions exHigh q = .ok q' ∧ NodeOk exU exHigh exHigh.root q' := by
  intro q hq
  simp only [List.mem_cons, List.not_mem_nil, or_false] at hq
  rcases hq with rfl | rfl
  · refine ⟨?_, by simp [exA, UniqueKeys, UniqueKeysItems], exA, rfl, ?_⟩
    · rw [exA, LinksOnly, LinksOnlyItems, LinksOnlyItems]
      refine ⟨⟨exTracks, exHighTrack, rfl, rfl, ?_⟩, trivial⟩
      rw [LinksOnly, LinksOnlyItems, LinksOnlyItems]
      exact ⟨rfl, trivial⟩
    · rw [exA, NodeOk, ItemsOk, ItemOk, ItemsOk]
      refine ⟨⟨⟨rfl, .inl ⟨exTracks, exHighTrack, rfl, rfl, ?_⟩⟩, trivial⟩, by simp⟩
      rw [NodeOk, ItemsOk, ItemOk, ItemsOk]
      exact ⟨⟨⟨rfl, exLabel, rfl, by simp [OptsGiven, exLabel]⟩, trivial⟩, by simp⟩
  · refine ⟨?_, by simp [exB, UniqueKeys, UniqueKeysItems], exB, rfl, ?_⟩
    · rw [exB, LinksOnly, LinksOnlyItems, LinksOnlyItems]
      refine ⟨⟨exTracks, exHighTrack, rfl, rfl, ?_⟩, trivial⟩
      rw [LinksOnly, LinksOnlyItems, LinksOnlyItems]
      refine ⟨⟨exAlbumLink, exAlbum, rfl, rfl, ?_⟩, trivial⟩
      rw [LinksOnly, LinksOnlyItems, LinksOnlyItems]
      exact ⟨rfl, trivial⟩
    · rw [exB, NodeOk, ItemsOk, ItemOk, ItemsOk]
      refine ⟨⟨⟨rfl, .inl ⟨exTracks, exHighTrack, rfl, rfl, ?_⟩⟩, trivial⟩, by simp⟩
      rw [NodeOk, ItemsOk, ItemOk, ItemsOk]
      refine ⟨⟨⟨rfl, .inl ⟨exAlbumLink, exAlbum, rfl, rfl, ?_⟩⟩, trivial⟩, by simp⟩
      rw [NodeOk, ItemsOk, ItemOk, ItemsOk]
      exact ⟨⟨⟨rfl, exName, rfl, by simp [OptsGiven, exName]⟩, trivial⟩, by simp⟩

theorem exAsked : Faithful exEnv.H exData (Asked [exA, exB]) := by
  have hp : ∀ q ∈ [exA, exB], q.Plain := by
    simp [exA, exB, QNode.Plain, PlainItems, QItem.Plain]
  intro n o n' o' h h'
  exact exFaithful n o n' o' (asked_plain hp h) (asked_plain hp h')

/-- the hypotheses of C67 hold for two queries about tracks: one asks for labels, the other for albums -/
theorem exUnion : ∃ v, Gives exEnv (fun _ l => l.take 1) 1 exHigh exQuery v ∧
    Union v fun x => ∃ q ∈ [exA, exB], Gives exEnv (fun _ l => l) 1 exHigh q x :=
  c67_union exGood exFaithful exConforms validChoice_first validChoice_all (g := exHigh) rfl (by simp) exParts exAsked
    (by rw [exMerge]; exact exQuery_unique)

/-! ### without unique result keys -/

def exC : QNode := .mk [.link "tracks" (.mk [.field "label" none (some "t")] false) none none] false
def exD : QNode := .mk [.link "tracks" (.mk [.field "albumId" none (some "t")] false) none none] false

def exCVal : Val := .dict [(.str "tracks", .list [
  .dict [(.str "t", .tup [.tup [.str "title", .int 10]])], .dict [(.str "t", .tup [.tup [.str "title", .int 20]])]])]
def exCDVal : Val := .dict [(.str "tracks", .list [
  .dict [(.str "t", .tup [.str "albumId", .int 10])], .dict [(.str "t", .tup [.str "albumId", .int 20])]])]

/-- The condition on result keys is needed, and `merge` does not check it: of two fields with the same alias the
merged query returns one only, without an error, although each query alone is valid. -/
theorem c67_conflict :
    (∃ idx q, execute exEnv (fun _ l => l) 20 20 1 exC = .ok (idx, q) ∧ denormalize exEnv.H idx exHigh q = .ok exCVal) ∧
    (∃ idx q, execute exEnv (fun _ l => l) 20 20 1 (merge exEnv.H [exC, exD]) = .ok (idx, q) ∧
      denormalize exEnv.H idx exHigh q = .ok exCDVal) ∧ ¬ Extends exCDVal exCVal := by
  refine ⟨⟨_, _, rfl, rfl⟩, ⟨_, _, rfl, rfl⟩, ?_⟩
  intro h
  have e1 : ∀ {kvs kvs' : List (Val × Val)} {k v x}, Extends (.dict kvs) (.dict kvs') → dget kvs k = some v →
      dget kvs' k = some x → Extends v x := by
    intro kvs kvs' k v x h h1 h2
    cases h with
    | refl => rw [h1] at h2; cases h2; exact .refl _
    | dict _ h3 => exact h3 k v x h1 h2
  have e2 : ∀ {a b : Val} {l l' : List Val}, Extends (.list (a :: l)) (.list (b :: l')) → Extends a b := by
    intro a b l l' h
    cases h with
    | refl => exact .refl _
    | list h => cases h; assumption
  have h := e1 h (k := .str "tracks") rfl rfl
  have h := e2 h
  have h := e1 h (k := .str "t") rfl rfl
  cases h

end Hiku.Parts
