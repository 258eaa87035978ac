import Verif.Proofs.SemMerge

/-! Calls of sub-graphs. -/

namespace Hiku

theorem forall2_exists {α β : Type} {R : α → β → Prop} {l : List α} (h : ∀ x ∈ l, ∃ y, R x y) :
    ∃ ys, List.Forall₂ R l ys := by
  induction l with
  | nil => exact ⟨[], .nil⟩
  | cons x r ih =>
    obtain ⟨y, hy⟩ := h x (by simp)
    obtain ⟨ys, hys⟩ := ih fun x hx => h x (by simp [hx])
    exact ⟨y :: ys, .cons hy hys⟩

theorem forall2_zip {α β γ : Type} {R : α → β → Prop} {S : α → γ → Prop} {l : List α} {bs : List β}
    {cs : List γ} (h : List.Forall₂ R l bs) (h' : List.Forall₂ S l cs) :
    List.Forall₂ (fun a (p : β × γ) => R a p.1 ∧ S a p.2) l (bs.zip cs) := by
  induction h generalizing cs with
  | nil => simp
  | cons hb _ ih =>
    cases h' with
    | cons hc hr => exact .cons ⟨hb, hc⟩ (ih hr)

theorem forall2_mem_right {α β : Type} {R : α → β → Prop} {l : List α} {bs : List β}
    (h : List.Forall₂ R l bs) {b : β} (hb : b ∈ bs) : ∃ a ∈ l, R a b := by
  induction h with
  | nil => simp at hb
  | cons hab _ ih =>
    rcases List.mem_cons.1 hb with rfl | hb
    · exact ⟨_, by simp, hab⟩
    · obtain ⟨a, h1, h2⟩ := ih hb
      exact ⟨a, by simp [h1], h2⟩

theorem requirements_items {gn : GNode} {sg : Nat} {items : List (GItem × QItem)} {ch : List (QNode × Nat)}
    (h : List.Forall₂ (fun (x : GItem × QItem) (c : QNode × Nat) => ∃ gf, gn.get x.2.name = some (.field gf) ∧
      gf.func = .checked sg c.1 c.2) items ch) :
    (items.map (·.2)).filterMap (requirements gn) = ch.map (·.1) := by
  induction h with
  | nil => rfl
  | @cons x c _ _ hab _ ih =>
    obtain ⟨gf, b2, b3⟩ := hab
    have : requirements gn x.2 = some c.1 := by simp only [requirements, b2, b3]
    simp only [List.map_cons, List.filterMap_cons, this, ih]

variable {env : Env} {D : Data} {U : String → Opts → Prop} {inner : SubCall} {n : Nat}

theorem sem_subGraphCall (C : Setup env D U) (hin : SubS env D U n inner) :
    SubS env D U (n + 1) (subGraphCall env inner) := by
  intro gi g gn sg ids items st dep hgi hg hn hids hne hit hok hdep
  -- the sub-graph
  have hent : ∀ x ∈ items, ∃ gf reqs p, x.1 = .field gf ∧ gn.get x.2.name = some (.field gf) ∧
      gf.func = .checked sg reqs p ∧ OptsGiven gf x.2.options := by
    intro x hx
    obtain ⟨gf, h1, h2, h3, h4⟩ := (hit x hx).field
    obtain ⟨reqs, p, h5⟩ := Func.key_sub h3
    exact ⟨gf, reqs, p, h1, h2, h5, h4⟩
  have hU : ∀ x ∈ items, U x.2.name x.2.options := fun x hx => (hit x hx).1.1
  obtain ⟨x0, hx0⟩ := List.exists_mem_of_ne_nil _ hne
  obtain ⟨gf0, reqs0, p0, _, hget0, hf0, _⟩ := hent x0 hx0
  obtain ⟨hname, s, g', t, hs, hlt, hg', ht, hroot, _⟩ := C.good.subs gi g hg gn hn _ gf0 hget0 sg reqs0 p0 hf0
  obtain ⟨nn, hnn, hnode⟩ : ∃ nn, gn.name = some nn ∧ g.node nn = some gn := by
    rcases hn.cases with ⟨_, h⟩ | h
    · rw [h] at hname; cases hname
    · exact h
  have hobj : ∀ i ∈ ids, D.obj gi nn i := by
    intro i hi
    have := hids.ok i hi
    simpa [IdentOk, hnn] using this
  -- requirements and procedures
  obtain ⟨ch, hch⟩ : ∃ ch, List.Forall₂ (fun (x : GItem × QItem) (c : QNode × Nat) => checkedOf x.1 = .ok c ∧
      ReqsOk U g' t c.1 ∧ U x.2.name x.2.options ∧ ∃ gf, x.1 = .field gf ∧ gn.get x.2.name = some (.field gf) ∧
      gf.func = .checked sg c.1 c.2 ∧ OptsGiven gf x.2.options) items ch := by
    apply forall2_exists
    intro x hx
    obtain ⟨gf, reqs, p, h1, h2, h3, h4⟩ := hent x hx
    refine ⟨(reqs, p), ?_, ?_, hU x hx, gf, h1, h2, h3, h4⟩
    · obtain ⟨nm, fn, os⟩ := gf
      simp only at h3
      subst h3
      rw [h1]; rfl
    · obtain ⟨_, s', g'', t', e1, _, e2, e3, _, e4⟩ := C.good.subs gi g hg gn hn _ gf h2 sg reqs p h3
      rw [hs] at e1; cases e1
      rw [hg'] at e2; cases e2
      rw [ht] at e3; cases e3
      exact e4
  obtain ⟨ops, hops⟩ : ∃ ops, List.Forall₂ (fun (x : GItem × QItem) (o : List Val) => optionValues x.1 x.2 = .ok o ∧
      ∀ gf, x.1 = .field gf → o = gf.options.map fun op => (dget (x.2.options.getD []) op.name).getD .none)
      items ops := by
    apply forall2_exists
    intro x hx
    obtain ⟨gf, reqs, p, h1, h2, h3, h4⟩ := hent x hx
    refine ⟨gf.options.map fun op => (dget (x.2.options.getD []) op.name).getD .none, ?_, ?_⟩
    · unfold optionValues
      rw [mapM_ok_iff, h1]
      simp only [GItem.options]
      rw [List.forall₂_map_right_iff, List.forall₂_same]
      intro op hop
      obtain ⟨l, v, e1, e2⟩ := h4 op hop
      simp [e1, e2]
    · intro gf' e
      rw [h1] at e; cases e; rfl
  have hchM : items.mapM (fun f => checkedOf f.1) = .ok ch := mapM_ok_iff.2 (hch.imp fun _ _ h => h.1)
  have hopM : items.mapM (fun f => optionValues f.1 f.2) = .ok ops := mapM_ok_iff.2 (hops.imp fun _ _ h => h.1)
  have hchne : ch.map (·.1) ≠ [] := by
    intro e
    have : ch = [] := by simpa using e
    rw [this] at hch
    cases hch
    exact hne rfl
  have hreqs : ∀ q ∈ ch.map (·.1), ReqsOk U g' t q := by
    intro q hq
    obtain ⟨c, hc, rfl⟩ := List.mem_map.1 hq
    obtain ⟨x, _, h⟩ := forall2_mem_right hch hc
    exact h.2.1
  obtain ⟨m1, m2, m3, m4, m5⟩ := reqs_merge (H := env.H) hchne hreqs
  generalize hQ : merge env.H (subMerge env.H (ch.map (·.1)) THIS) = Q at *
  generalize hR : merge env.H (ch.map (·.1)) = reqs at *
  -- the new workflow
  let cell : Cell × Val := ((rootName, rootIdent, THIS), .list (ids.map (.ref s.node)))
  let wf0 : Wf := { graph := s.graph, query := reqs, ts := dep, index := [cell] }
  have f1 : SFrame env D U st { st with wfs := st.wfs ++ [wf0] } := by
    refine sframe_pushWf hok (wf := wf0) hg' ?_
    intro gn1 hgn1 i nm o it hu hget
    rw [dget_eq_none_iff]
    simp only [wf0, cell, List.map_cons, List.map_nil, List.mem_singleton, Prod.mk.injEq]
    rintro ⟨e1, e2, e3⟩
    have hgr : gn1 = g'.root := hgn1.inj (C.good.nodes _ _ hg') (.inl rfl) (by
      rw [e1]; rfl)
    subst hgr
    have := (C.faithful nm o THIS none hu C.good.this (by rw [e3]; rfl)).1
    rw [this, hroot] at hget
    cases hget
  have hat1 : At { st with wfs := st.wfs ++ [wf0] } st.wfs.length s.graph dep :=
    ⟨wf0, by simp, rfl, rfl, hdep⟩
  have htn := Graph.node_name ht
  have hids1 : IdsOk D s.graph t (some ids) := by
    refine ⟨by simp [htn], hids.ne, ?_⟩
    intro i hi
    simp only [IdentOk, htn]
    exact C.conf.subObj gi g nn gn x0.2.name gf0 sg reqs0 p0 s i hg hnode hget0 hf0 hs (hobj i hi)
  obtain ⟨st2, h2, f2, c2, ac2⟩ := sem_processNode C hin f1.ok hat1 hg' (by omega) (isNode_of_node ht) hids1 m3
  have hids2 : IdsOk D s.graph g'.root none :=
    ⟨rfl, by simp, by intro i hi; simpa [identsOf, IdentOk, Graph.root_name] using hi⟩
  obtain ⟨st3, h3, f3, c3, ac3⟩ := sem_processNode C hin f2.ok (hat1.mono f2) hg' (by omega) (.inl rfl) hids2 m4
  obtain ⟨wf3, hw3, e1, e2, e3, e4⟩ := (f2.trans f3).le.wfs st.wfs.length wf0 (by simp)
  refine ⟨st3, st.wfs.length, (ch.map (·.2)).zip ops, ?_, f1.trans (f2.trans f3), ?_, ⟨wf3, hw3, e3⟩, ?_⟩
  rotate_right
  · have ac1 : Acct env D st { st with wfs := st.wfs ++ [wf0] } [] := Acct.quiet f1.le.sameGraphs rfl rfl
    have hreqs : (items.map (·.2)).filterMap (requirements gn) = ch.map (·.1) := by
      exact requirements_items (hch.imp fun _ _ ⟨_, _, _, gf, _, b2, b3, _⟩ => ⟨gf, b2, b3⟩)
    rw [hreqs]
    rw [planSub]
    simp only [hs, hlt, dif_pos, hg', ht, hR, m1]
    exact ac1.trans (ac2.trans ac3)
  · have hpl : processLink env inner st.wfs.length g'.root (thisLink s.node) (.link THIS Q none none) none
        (.list ids) { st with wfs := st.wfs ++ [{ graph := s.graph, query := reqs, ts := dep }] } = .ok st2 := by
      have hstore : storeLinks env.H [] g'.root (thisLink s.node) (.link THIS Q none none) none (.list ids) =
          .ok [cell] := rfl
      have hto : linkResultToIds false .many (.list ids) = .ok ids := rfl
      have hidne : ids.isEmpty = false := by
        have := hids.ne
        cases ids with
        | nil => exact absurd rfl this
        | cons => rfl
      simp only [processLink, List.getElem?_concat_length, hstore, ok_bind', setIndex_push]
      have : (thisLink s.node).typeEnum = .many := rfl
      simp only [this, Option.isSome_none, Bool.false_and, hto, ok_bind', hidne, hg']
      have : (thisLink s.node).node = s.node := rfl
      simp only [this, ht]
      exact h2
    simp only [subGraphCall, hs, hg', hchM, ok_bind', hR, hopM, m1, hpl, h3]
  · have cov : ∀ (P : CB → Prop) (gn1 : GNode) (i : Val) (it : QItem),
        (∃ cb, PendQ st3 cb ∧ Goal st.wfs.length gn1 i it cb) →
        Cov env D st3 (PendQ st3) st.wfs.length wf3.graph g' gn1 i it := by
      rintro _ gn1 i it ⟨cb, a, b⟩
      exact .pend cb a b
    refine ⟨rfl, wf3, g', s.node, t, Q, hw3, by rw [e1]; exact hg', ht, hroot, by rw [e2]; exact m2, ?_, m3,
      by rw [e2]; exact m4, ?_, ?_, ?_, ?_, ?_⟩
    · exact e4 _ _ (by simp [wf0, cell, identsOf])
    · rw [e1]; exact hids1.ok
    · intro i hi it hit'
      obtain ⟨cb, a, b⟩ := c2 i hi it hit'
      exact cov (fun _ => True) _ _ _ ⟨cb, f3.pendq a, b⟩
    · rw [e2]
      intro it hit'
      exact cov (fun _ => True) _ _ _ (c3 rootIdent (by simp [identsOf]) it hit')
    · rw [e1, e2]
      intro i hi
      rw [List.forall₂_map_left_iff]
      have hch2 : List.Forall₂ (fun (x : GItem × QItem) (p : Nat) => ∃ reqs, reqs ∈ ch.map (·.1) ∧
          U x.2.name x.2.options ∧ ∃ gf, x.1 = .field gf ∧ gn.get x.2.name = some (.field gf) ∧
            gf.func = .checked sg reqs p ∧ OptsGiven gf x.2.options)
          items (ch.map (·.2)) := by
        rw [List.forall₂_map_right_iff]
        rw [List.forall₂_iff_get] at hch ⊢
        refine ⟨hch.1, ?_⟩
        intro k hk1 hk2
        obtain ⟨_, _, a0, gf, a1, a2, a3, a4⟩ := hch.2 k hk1 hk2
        exact ⟨_, List.mem_map.2 ⟨_, List.get_mem ch ⟨k, hk2⟩, rfl⟩, a0, gf, a1, a2, a3, a4⟩
      refine (forall2_zip hch2 hops).imp ?_
      rintro x ⟨p, o⟩ ⟨⟨rq, hrq, a0, gf, a1, a2, a3, a4⟩, -, ho⟩
      simp only at a3 ho ⊢
      have ho' : o = optVals gf x.2.options := ho gf a1
      obtain ⟨q0, b1, b2, b3, b4, b5⟩ := m5 rq hrq
      have := C.conf.proc gi g nn gn x.2.name x.2.options gf sg rq p s g' t q0 i _ _ hg hnode a2 a3 a0 a4 hs
        (hobj i hi) hg' ht b1 b2 b3 m3 b4 b5 m4
      rw [ho', this, cellSem_field a2]
      congr 1
      simp only [semField, a3]
      rw [← optVals]
      conv => rhs; unfold semSub
      simp only [hs, hlt, dif_pos, hg', ht, b1]
    · intro q hq gf hgf f hff
      obtain ⟨x, hx, rfl⟩ := List.mem_map.1 hq
      obtain ⟨gf', _, _, _, e, e', _⟩ := hent x hx
      rw [hgf] at e; cases e
      rw [hff] at e'; cases e'

theorem sem_subCall (C : Setup env D U) (n : Nat) : SubS env D U n (subCall env n) := by
  induction n with
  | zero =>
    intro gi g gn sg ids items st dep hgi hg hn hids hne hit hok hdep
    exfalso
    obtain ⟨x, hx⟩ := List.exists_mem_of_ne_nil _ hne
    obtain ⟨gf, _, h2, h3, _⟩ := (hit x hx).field
    obtain ⟨reqs, p, h5⟩ := Func.key_sub h3
    obtain ⟨_, s, _, _, _, hlt, _⟩ := C.good.subs gi g hg gn hn _ gf h2 sg reqs p h5
    omega
  | succ n ih => exact sem_subGraphCall C ih

end Hiku
