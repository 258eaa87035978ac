import Verif.Proofs.SemNode

/-! Reading a finished workflow gives the value of the reference semantics. -/

namespace Hiku

variable {env : Env} {D : Data} {U : String → Opts → Prop} {st : St} {w : Nat} {wf : Wf} {g : Graph}

theorem semField_refLike (C : Conforms env D U) (gi : Nat) (gn : GNode) (gf : GField) (o : Opts) (i : Val) :
    (semField D (semSub env.sys D gi) gn gf o i).refLike = false := by
  unfold semField
  cases gf.func with
  | plain f => exact C.noRefs _ _ _ _
  | checked sg reqs p =>
    simp only
    unfold semSub
    split
    · rfl
    · split
      · split
        · rfl
        · split
          · exact C.noRefsProc _ _ _ _
          · rfl
      · rfl

theorem readItems_map {H : PyHash} {idx : Index} {node : String} {i : Val} {l : List QItem} {F : QItem → Val}
    (h : ∀ it ∈ l, readItem H idx node i it = .ok (F it)) :
    readItems H idx node i l = .ok (l.map fun it => (.str it.resultKey, F it)) := by
  induction l with
  | nil => rfl
  | cons x r ih =>
    rw [readItems, h x (by simp)]
    simp only [ok_bind']
    rw [ih fun it hit => h it (by simp [hit])]
    rfl

theorem semItems_map {sub : SubSem} {gn : GNode} {i : Val} {l : List QItem} :
    semItems D sub g gn i l = l.map fun it => (.str it.resultKey, semItem D sub g gn i it) := by
  induction l with
  | nil => simp [semItems]
  | cons x r ih => simp [semItems, ih]

theorem read_field {H : PyHash} {idx : Index} {node : String} {i v : Val} {it : QItem}
    (h : dget idx (node, i, indexKey H it.name it.options) = some v) (hv : v.refLike = false) :
    readItem H idx node i it = .ok v := by
  cases it with
  | field n o a =>
    simp only [QItem.name, QItem.options] at h
    simp only [readItem, h]
  | link n q o a =>
    simp only [QItem.name, QItem.options] at h
    simp only [readItem, h]
    split
    · rename_i e; cases e
    · rename_i e; cases e; simp [Val.refLike] at hv
    · rename_i e; cases e; simp [Val.refLike] at hv
    · rename_i e; cases e; rfl

theorem read_ok (C : Setup env D U) (hs : Sound env D U st) (hw : st.wfs[w]? = some wf)
    (hg : env.sys.graphs[wf.graph]? = some g) (q : QNode) :
    ∀ gn i, IsNode g gn → IdentOk D wf.graph gn i → NodeOk U g gn q →
      (∀ it ∈ q.fields, Cov env D st (fun _ => False) w wf.graph g gn i it) →
      readNode env.H wf.index gn.indexName i q =
        .ok (semNode D (semSub env.sys D wf.graph) g gn i q) := by
  induction q using QNode.ind with
  | h fs ord ih =>
    intro gn i hn hi hq hcov
    obtain ⟨hitems, _⟩ := nodeOk_iff.1 hq
    simp only [QNode.fields] at hitems hcov
    rw [readNode, readItems_map (F := semItem D (semSub env.sys D wf.graph) g gn i)]
    · rw [semNode, semItems_map]; rfl
    intro it hit
    have hc := hcov it hit
    -- the cell is there
    have hpres : Present env.H st w gn i it.name it.options := by
      cases hc with
      | pend cb h _ => exact absurd h id
      | val gf h _ => exact h
      | link gl t h _ _ _ => exact h
    obtain ⟨wf', hw', hp⟩ := hpres
    rw [hw] at hw'; cases hw'
    obtain ⟨v, hv⟩ := Option.isSome_iff_exists.1 hp
    rcases (hitems it hit).cases with hfi | ⟨gl, hli⟩
    · obtain ⟨hu, gf, hget, _⟩ := hfi
      have hval := hs w wf g hw hg gn hn i it.name it.options _ hu hget v hv
      rw [cellSem_field hget] at hval
      rw [read_field hv (by rw [hval]; exact semField_refLike C.conf _ _ _ _ _), hval]
      congr 1
      cases it with
      | field n o a =>
        simp only [QItem.name] at hget
        simp [semItem, semName, hget, QItem.options]
      | link n q o a =>
        simp only [QItem.name] at hget
        simp [semItem, semName, hget, QItem.options]
    · obtain ⟨n, q, o, a, t, rfl, hu, hget, ht, hnq⟩ := hli
      simp only [QItem.name, QItem.options] at hv
      have hval := hs w wf g hw hg gn hn i n o _ hu hget v hv
      rw [cellSem_link hget] at hval
      obtain ⟨hshape, hone, htgt⟩ := C.conf.linkValue wf.graph g gn n gl o i _ hg hn hget hu hi rfl
      have htn := Graph.node_name ht
      have hti : t.indexName = gl.node := by simp [GNode.indexName, htn]
      have hrec : ∀ i' ∈ targets gl.typeEnum (semLink D (semSub env.sys D wf.graph) gn i gl o),
          readNode env.H wf.index gl.node i' q = .ok (semNode D (semSub env.sys D wf.graph) g t i' q) := by
        intro i' hi'
        have := ih n q o a hit t i' (isNode_of_node ht) (by simp only [IdentOk, htn]; exact htgt i' hi') hnq (by
          intro it' hit'
          cases hc with
          | pend cb h _ => exact absurd h id
          | val gf _ h =>
            have h : gn.get n = _ := h
            rw [hget] at h; cases h
          | link gl' t' _ h1 h2 h3 =>
            rw [hget] at h1; cases h1
            rw [ht] at h2; cases h2
            exact h3 i' hi' it' hit')
        rw [hti] at this
        exact this
      simp only [semItem, hget, ht]
      generalize hlv : semLink D (semSub env.sys D wf.graph) gn i gl o = lv at *
      simp only [readItem, hv, hval, linkCell]
      cases hte : gl.typeEnum with
      | maybe =>
        rw [hte] at hrec
        simp only
        by_cases hno : lv = .nothing
        · rw [if_pos hno, if_pos hno]
        · rw [if_neg hno, if_neg hno]
          exact hrec lv (by simp [targets, hno])
      | one =>
        rw [hte] at hrec
        simp only
        exact hrec lv (by simp [targets])
      | many =>
        rw [hte] at hrec
        simp only [targets] at hrec
        simp only [targets]
        cases hl : lv.asSeq.getD [] with
        | nil => rfl
        | cons x r =>
          rw [hl] at hrec
          simp only [List.map_cons]
          rw [bind_ok_iff]
          refine ⟨semNode D (semSub env.sys D wf.graph) g t x q :: r.map _, ?_, rfl⟩
          rw [mapM_ok_iff]
          refine .cons (hrec x (by simp)) ?_
          rw [List.forall₂_map_left_iff, List.forall₂_map_right_iff, List.forall₂_same]
          intro y hy
          exact hrec y (by simp [hy])

end Hiku
