import Verif.Proofs.SemEngine
import Verif.Proofs.Plan
import Mathlib.Data.List.SplitBy

/-! The groups of fields which the engine makes are the groups of the plan. -/

namespace Hiku

section
variable {U : String → Opts → Prop} {g : Graph} {gn : GNode}

theorem FItem.func {q : QItem} (h : FItem U gn q) : ∃ k, fieldFunc gn q = some k := by
  obtain ⟨_, gf, h1, _⟩ := h
  exact ⟨gf.func.key, by simp only [fieldFunc, h1]⟩

theorem FEntry.func {k : FKey} {x : GItem × QItem} (h : FEntry U gn k x) : fieldFunc gn x.2 = some k := by
  obtain ⟨gf, _, h2, h3, _⟩ := h.field
  simp only [fieldFunc, h2, h3]

theorem LItem.func {gl : GLink} {q : QItem} (h : LItem U g gn gl q) : fieldFunc gn q = none := by
  obtain ⟨nm, q, o, a, t, rfl, _, hget, _⟩ := h
  simp only [fieldFunc, QItem.name, hget]

variable (D : Data) (sub : SubSem) (subp : SubPlan) (ids : Option (List Val))

theorem planItem_link {n : String} {q : QNode} {o : Opts} {a : Option String} {gl : GLink}
    (h : gn.get n = some (.link gl)) :
    planItem D sub subp g gn ids (.link n q o a) = planLinked D sub subp g gn ids gl (.link n q o a) := by
  simp only [planItem, h, planLinked, planAfter, QItem.options]
  rfl

theorem planItem_field {i : QItem} (h : FItem U gn i) : planItem D sub subp g gn ids i = [] := by
  cases i with
  | field => simp [planItem]
  | link n q o a =>
    obtain ⟨_, gf, h1, _⟩ := h
    simp only [QItem.name] at h1
    simp only [planItem, h1]

/-- what the engine loads as fields of an unordered node -/
theorem splitItems_plan (hreq : ReqOk U g gn) {l : List QItem} (h : ∀ i ∈ l, ItemOk U g gn i)
    {fields : List (FKey × GItem × QItem)} {links : List (GLink × QItem)}
    (he : splitItems gn l = .ok (fields, links)) :
    fields.map (·.2.2) = (l.flatMap (loadItem gn)).filter (fun q => (fieldFunc gn q).isSome) ∧
      links.flatMap (fun x => planLinked D sub subp g gn ids x.1 x.2) = planItems D sub subp g gn ids l := by
  induction l generalizing fields links with
  | nil => simp [splitItems] at he; obtain ⟨rfl, rfl⟩ := he; simp [planItems]
  | cons i r ih =>
    have ih' := @ih (fun x hx => h x (by simp [hx]))
    obtain ⟨fs0, ls0, e0, _⟩ := splitItems_spec hreq (fun x hx => h x (by simp [hx]) : ∀ x ∈ r, _)
    obtain ⟨h1, h2⟩ := ih' e0
    have hi := h i (by simp)
    rcases hi.cases with hfi | ⟨gl, hli⟩
    · obtain ⟨k, hk⟩ := hfi.func
      have hpl := planItem_field D sub subp ids (g := g) hfi
      cases i with
      | field n o a =>
        obtain ⟨gf, a1, _⟩ := splitField_of_FItem (name := n) rfl hfi
        simp only [splitItems, a1, ok_bind', e0, Except.ok.injEq, Prod.mk.injEq] at he
        obtain ⟨rfl, rfl⟩ := he
        simp [planItems, planItem, h1, h2, loadItem, hk]
      | link n q o a =>
        obtain ⟨_, gf, a1, _⟩ := hfi
        simp only [QItem.name] at a1
        simp only [splitItems, a1, ok_bind', e0, Except.ok.injEq, Prod.mk.injEq] at he
        obtain ⟨rfl, rfl⟩ := he
        simp [planItems, hpl, h1, h2, loadItem, hk, a1]
    · have hk := hli.func
      obtain ⟨nm, q, o, a, t, rfl, _, hget, _⟩ := hli
      have hpl := planItem_link D sub subp ids (g := g) (q := q) (o := o) (a := a) hget
      rcases reqTruthy_iff hreq hget with ⟨hr, hrt⟩ | ⟨rq, hr, hrt, hfr⟩
      · simp only [splitItems, hget, hrt, ok_bind', e0] at he
        simp [pure, Except.pure] at he
        obtain ⟨rfl, rfl⟩ := he
        simp [planItems, hpl, h1, h2, loadItem, hk, hget, hr]
      · obtain ⟨gf, a1, _⟩ := splitField_of_FItem (name := rq) rfl hfr
        obtain ⟨k, hk'⟩ := hfr.func
        simp only [splitItems, hget, hrt, hr, Option.getD_some, a1, ok_bind', e0, if_true] at he
        simp [pure, Except.pure] at he
        obtain ⟨rfl, rfl⟩ := he
        simp [planItems, hpl, h1, h2, loadItem, hk, hget, hr, hk']

theorem mem_addToGroup_exact {k : FKey} {x : GItem × QItem} {gs : List (FKey × List (GItem × QItem))}
    (hn : (gs.map (·.1)).Nodup) {p : FKey × List (GItem × QItem)} (hp : p ∈ addToGroup k x gs) :
    (p.1 = k ∧ ((∃ xs, (k, xs) ∈ gs ∧ p.2 = xs ++ [x]) ∨ (k ∉ gs.map (·.1) ∧ p.2 = [x]))) ∨
      (p.1 ≠ k ∧ p ∈ gs) := by
  induction gs with
  | nil =>
    simp [addToGroup] at hp; subst hp; simp
  | cons p0 r ih =>
    obtain ⟨k0, xs⟩ := p0
    simp only [List.map_cons, List.nodup_cons] at hn
    simp only [addToGroup] at hp
    by_cases hk : k0 = k
    · rw [if_pos hk] at hp
      subst hk
      rcases List.mem_cons.1 hp with rfl | hp
      · exact .inl ⟨rfl, .inl ⟨xs, by simp, rfl⟩⟩
      · refine .inr ⟨?_, by simp [hp]⟩
        intro e
        exact hn.1 (List.mem_map.2 ⟨p, hp, e⟩)
    · rw [if_neg hk] at hp
      rcases List.mem_cons.1 hp with rfl | hp
      · exact .inr ⟨hk, by simp⟩
      · rcases ih hn.2 hp with ⟨h1, ⟨ys, h2, h3⟩ | ⟨h2, h3⟩⟩ | ⟨h1, h2⟩
        · exact .inl ⟨h1, .inl ⟨ys, by simp [h2], h3⟩⟩
        · refine .inl ⟨h1, .inr ⟨?_, h3⟩⟩
          simp only [List.map_cons, List.mem_cons, not_or]
          exact ⟨fun e => hk e.symm, h2⟩
        · exact .inr ⟨h1, by simp [h2]⟩

theorem groupByFunc_exact (fields : List (FKey × GItem × QItem)) :
    (∀ p ∈ groupByFunc fields, p.2 = (fields.filter fun f => f.1 = p.1).map (·.2)) ∧
    ∀ k, k ∈ (groupByFunc fields).map (·.1) ↔ k ∈ fields.map (·.1) := by
  have hk : ∀ fields : List (FKey × GItem × QItem), ∀ k, k ∈ (groupByFunc fields).map (·.1) ↔ k ∈ fields.map (·.1) := by
    intro fields k
    have gs := groupByFunc_spec fields
    constructor
    · intro h
      obtain ⟨p, hp, rfl⟩ := List.mem_map.1 h
      obtain ⟨y, hy⟩ := List.exists_mem_of_ne_nil _ (gs.ne p hp)
      exact List.mem_map.2 ⟨_, gs.mem p.1 p.2 hp y hy, rfl⟩
    · intro h
      obtain ⟨f, hf, rfl⟩ := List.mem_map.1 h
      obtain ⟨items, h1, _⟩ := gs.cover f hf
      exact List.mem_map.2 ⟨_, h1, rfl⟩
  refine ⟨?_, hk fields⟩
  induction fields using snocInduction with
  | h0 => simp [groupByFunc]
  | h1 l f ih =>
    have e : groupByFunc (l ++ [f]) = addToGroup f.1 (f.2.1, f.2.2) (groupByFunc l) := by
      simp [groupByFunc]
    rw [e]
    intro p hp
    rw [List.filter_append, List.map_append]
    rcases mem_addToGroup_exact (groupByFunc_spec l).nodup hp with ⟨h1, ⟨xs, h2, h3⟩ | ⟨h2, h3⟩⟩ | ⟨h1, h2⟩
    · have := ih _ h2
      simp only at this
      rw [h3, this, h1]; simp
    · rw [hk] at h2
      have : l.filter (fun f' => f'.1 = p.1) = [] := by
        rw [List.filter_eq_nil_iff]
        intro x hx
        simp only [decide_eq_true_eq]
        intro e
        exact h2 (List.mem_map.2 ⟨x, hx, by rw [e, h1]⟩)
      rw [this, h3, h1]; simp
    · have := ih _ h2
      simp [this, Ne.symm h1]

theorem flatMap_filter_of_nil {α β : Type _} {l : List α} {F : α → List β} {p : α → Bool}
    (h : ∀ x ∈ l, p x = false → F x = []) : l.flatMap F = (l.filter p).flatMap F := by
  induction l with
  | nil => rfl
  | cons x r ih =>
    have ih := ih fun y hy => h y (by simp [hy])
    cases hp : p x with
    | true => simp [hp, ih]
    | false => simp [hp, ih, h x (by simp) hp]

/-- the groups of an unordered node -/
theorem groups_plan {fields : List (FKey × GItem × QItem)} {l : List QItem}
    (hf : fields.map (·.2.2) = l.filter (fun q => (fieldFunc gn q).isSome))
    (hk : ∀ f ∈ fields, fieldFunc gn f.2.2 = some f.1) :
    ((groupByFunc fields).flatMap fun p => planFields subp gn ids (p.2.map (·.2))).Perm
      (((l.map (fieldFunc gn)).dedup.map fun k => l.filter fun q => fieldFunc gn q = k).flatMap
        (planFields subp gn ids)) := by
  obtain ⟨gx, gk⟩ := groupByFunc_exact fields
  have gs := groupByFunc_spec fields
  -- a group in terms of the items
  have hgrp : ∀ k : FKey, ((fields.filter fun f => f.1 = k).map (·.2)).map (·.2) =
      l.filter fun q => fieldFunc gn q = some k := by
    intro k
    have e1 : (l.filter fun q => fieldFunc gn q = some k) =
        (l.filter (fun q => (fieldFunc gn q).isSome)).filter fun q => fieldFunc gn q = some k := by
      rw [List.filter_filter]
      apply List.filter_congr
      intro q _
      by_cases h : fieldFunc gn q = some k <;> simp [h]
    rw [e1, ← hf, List.filter_map, List.map_map]
    congr 1
    apply List.filter_congr
    intro f hm
    simp [hk f hm]
  rw [List.flatMap_map]
  rw [flatMap_filter_of_nil (l := (l.map (fieldFunc gn)).dedup) (p := Option.isSome)]
  · have hperm : (((l.map (fieldFunc gn)).dedup).filter Option.isSome).Perm
        (((groupByFunc fields).map (·.1)).map some) := by
      refine (List.perm_ext_iff_of_nodup ((List.nodup_dedup _).filter _)
        (gs.nodup.map (fun _ _ h => Option.some.inj h))).2 ?_
      intro k
      simp only [List.mem_filter, List.mem_dedup]
      constructor
      · rintro ⟨h1, h2⟩
        obtain ⟨q, hq, rfl⟩ := List.mem_map.1 h1
        have : q ∈ fields.map (·.2.2) := by rw [hf]; simp [hq, h2]
        obtain ⟨f, hfm, rfl⟩ := List.mem_map.1 this
        rw [hk f hfm]
        exact List.mem_map.2 ⟨f.1, (gk _).2 (List.mem_map.2 ⟨f, hfm, rfl⟩), rfl⟩
      · intro h
        obtain ⟨k', h1, rfl⟩ := List.mem_map.1 h
        obtain ⟨f, hfm, rfl⟩ := List.mem_map.1 ((gk k').1 h1)
        refine ⟨?_, rfl⟩
        have : f.2.2 ∈ l.filter (fun q => (fieldFunc gn q).isSome) := by
          rw [← hf]; exact List.mem_map.2 ⟨f, hfm, rfl⟩
        exact List.mem_map.2 ⟨f.2.2, (List.mem_filter.1 this).1, hk f hfm⟩
    refine List.Perm.trans ?_ (hperm.flatMap_right _).symm
    rw [List.map_map, List.flatMap_map]
    refine List.Perm.of_eq (flatMap_congr_mem ?_)
    intro p hp
    simp only [Function.comp]
    rw [gx p hp, hgrp]
  · intro k _ hn
    cases k with
    | some k => cases hn
    | none =>
      cases hc : l.filter fun q => fieldFunc gn q = none with
      | nil => simp [planFields]
      | cons q r =>
        have : q ∈ l.filter fun q => fieldFunc gn q = none := by rw [hc]; simp
        have := (List.mem_filter.1 this).2
        simp only [decide_eq_true_eq] at this
        simp only [planFields, this]


/-! ### Ordered nodes -/

theorem expand_eq (hreq : ReqOk U g gn) {l : List QItem} : expand gn l = l.flatMap (loadItem gn) := by
  induction l with
  | nil => rfl
  | cons i r ih =>
    cases i with
    | field n o a => simp [expand, loadItem, ih]
    | link n q o a =>
      simp only [expand, List.flatMap_cons, loadItem, ih]
      cases hg : gn.get n with
      | none => simp
      | some it =>
        cases it with
        | field gf => simp
        | link gl =>
          rcases reqTruthy_iff hreq hg with ⟨hr, hrt⟩ | ⟨rq, hr, hrt, _⟩
          · simp [hr, hrt]
          · simp [hr, hrt]

theorem planItems_flat {l : List QItem} :
    (l.flatMap (loadItem gn)).flatMap (planItem D sub subp g gn ids) = planItems D sub subp g gn ids l := by
  induction l with
  | nil => simp [planItems]
  | cons i r ih =>
    simp only [List.flatMap_cons, List.flatMap_append, planItems, ih]
    congr 1
    cases i with
    | field n o a => simp [loadItem]
    | link n q o a =>
      simp only [loadItem]
      cases hg : gn.get n with
      | none => simp
      | some it =>
        cases it with
        | field gf => simp
        | link gl =>
          cases hr : gl.requires <;> simp [planItem]

theorem steps_together (hreq : ReqOk U g gn) {l : List QItem} {steps : List Step}
    (he : groupItems gn [] none l = .ok steps) (hgood : ∀ s ∈ steps, StepGood U g gn s) :
    together gn true l = steps.map Step.queryItems := by
  have hp := groupItems_plan he
  simp only [together, if_true]
  rw [List.splitBy_eq_iff]
  have hff : ∀ k items, Step.fields k items ∈ steps → ∀ q ∈ items.map (·.2), fieldFunc gn q = some k := by
    intro k items hm q hq
    obtain ⟨x, hx, rfl⟩ := List.mem_map.1 hq
    exact ((hgood _ hm).2 x hx).func
  have hlf : ∀ gl ql, Step.link gl ql ∈ steps → fieldFunc gn ql = none := fun gl ql hm => (hgood _ hm).func
  have hne : ∀ s ∈ steps, s.queryItems ≠ [] := by
    intro s hs
    cases s with
    | fields k items => simpa [Step.queryItems] using (hgood _ hs).1
    | link gl ql => simp [Step.queryItems]
  refine ⟨?_, ?_, ?_, ?_⟩
  · rw [← expand_eq hreq, ← hp.order, List.flatMap_def]
  · intro hm
    obtain ⟨s, hs, e⟩ := List.mem_map.1 hm
    exact hne s hs e
  · intro m hm
    obtain ⟨s, hs, rfl⟩ := List.mem_map.1 hm
    cases s with
    | link gl ql => simp [Step.queryItems]
    | fields k items =>
      refine List.Pairwise.isChain (List.pairwise_of_forall_mem_list ?_)
      intro a ha b hb
      simp [hff k items hs a ha, hff k items hs b hb]
  · have hadj : ∀ {ss : List Step}, (∀ s ∈ ss, s ∈ steps) → Adj ss → (ss.map Step.queryItems).IsChain
        fun a b => ∃ ha hb, ((fieldFunc gn (a.getLast ha)).isSome &&
          fieldFunc gn (a.getLast ha) == fieldFunc gn (b.head hb)) = false := by
      intro ss
      induction ss with
      | nil => intro _ _; simp
      | cons s r ih =>
        intro hs ha
        cases r with
        | nil => simp
        | cons s' r =>
          simp only [List.map_cons, List.isChain_cons_cons]
          refine ⟨⟨hne s (hs s (by simp)), hne s' (hs s' (by simp)), ?_⟩, ?_⟩
          · cases s with
            | link gl ql =>
              simp [Step.queryItems, hlf gl ql (hs _ (by simp))]
            | fields k items =>
              have h1 := hff k items (hs _ (by simp)) _ (List.getLast_mem (hne _ (hs (.fields k items) (by simp))))
              simp only [Step.queryItems] at h1 ⊢
              rw [h1]
              cases s' with
              | link gl ql => simp [hlf gl ql (hs _ (by simp))]
              | fields k' items' =>
                have h2 := hff k' items' (hs _ (by simp)) _ (List.head_mem (hne _ (hs (.fields k' items') (by simp))))
                simp only [Step.queryItems] at h2 ⊢
                rw [h2]
                have := ha [] k items k' items' r rfl
                simpa using this
          · exact ih (fun x hx => hs x (by simp [hx])) (by
              intro pre k a k' b post e
              exact ha (s :: pre) k a k' b post (by rw [e]; rfl))
    exact hadj (fun _ h => h) hp.adjacent

theorem flatMap_append_perm {α β : Type _} (l : List α) (f f' : α → List β) :
    (l.flatMap fun x => f x ++ f' x).Perm (l.flatMap f ++ l.flatMap f') := by
  induction l with
  | nil => simp
  | cons x r ih =>
    simp only [List.flatMap_cons, List.append_assoc]
    refine List.Perm.append_left _ ?_
    refine (ih.append_left _).trans ?_
    rw [← List.append_assoc, ← List.append_assoc]
    exact List.perm_append_comm.append_right _

theorem steps_plan (hreq : ReqOk U g gn) {l : List QItem} {steps : List Step}
    (he : groupItems gn [] none l = .ok steps) (hgood : ∀ s ∈ steps, StepGood U g gn s) :
    (steps.flatMap (planStep D sub subp g gn ids)).Perm
      ((together gn true l).flatMap (planFields subp gn ids) ++ planItems D sub subp g gn ids l) := by
  rw [steps_together hreq he hgood, ← planItems_flat, ← expand_eq hreq, ← (groupItems_plan he).order,
    List.flatMap_map, List.flatMap_assoc]
  refine List.Perm.trans (List.Perm.of_eq ?_) (flatMap_append_perm _ _ _)
  apply flatMap_congr_mem
  intro s hs
  cases s with
  | fields k items =>
    have : (items.map (·.2)).flatMap (planItem D sub subp g gn ids) = [] := by
      rw [List.flatMap_eq_nil_iff]
      intro q hq
      obtain ⟨x, hx, rfl⟩ := List.mem_map.1 hq
      exact planItem_field D sub subp ids ((hgood _ hs).2 x hx).1
    simp only [planStep, Step.queryItems, this, List.append_nil]
  | link gl ql =>
    have hf := (hgood _ hs).func
    obtain ⟨nm, q, o, a, t, rfl, _, hget, _⟩ := hgood _ hs
    simp [planStep, Step.queryItems, planFields, hf, planItem_link D sub subp ids hget]

end

end Hiku
