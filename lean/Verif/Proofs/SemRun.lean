import Verif.Proofs.SemSub
import Verif.Proofs.Loop

/-! Running callbacks. -/

namespace Hiku

variable {env : Env} {D : Data} {U : String → Opts → Prop} {st st' : St}

/-- what is known when a callback is run: its data is there -/
def RunLoc (st : St) (B : List Nat) : CB → Prop
  | .store _ _ _ _ (.fut f) => ∃ l, Ev.done l ∈ st.log ∧ f ∈ l
  | .store _ _ _ _ (.sub w _) => ∃ wf : Wf, st.wfs[w]? = some wf ∧ wf.ts ∈ B
  | _ => True

theorem RunLoc.mono (hle : Le st st') {B : List Nat} {cb : CB} (h : RunLoc st B cb) : RunLoc st' B cb := by
  cases cb with
  | store w gn qfs ids src =>
    cases src with
    | fut f =>
      obtain ⟨l, h1, h2⟩ := h
      exact ⟨l, hle.log _ h1, h2⟩
    | sub w' procs =>
      obtain ⟨wf, h1, h2⟩ := h
      obtain ⟨wf', g1, _, _, g4, _⟩ := hle.wfs _ wf h1
      exact ⟨wf', g1, by rw [g4]; exact h2⟩
  | _ => trivial

/-- storing true rows -/
theorem sem_store (C : Setup env D U) (hok : SOK env D U st) {w : Nat} {wf : Wf} {g : Graph} {gn : GNode}
    {qfs : List QItem} {ids : Option (List Val)} {r : Val} (hw : st.wfs[w]? = some wf)
    (hg : env.sys.graphs[wf.graph]? = some g) (hn : IsNode g gn) (hids : IdsOk D wf.graph gn ids)
    (hq : ∀ q ∈ qfs, FItem U gn q)
    (hr : RowsOf gn qfs.length ids r (rowsSem env D wf.graph gn ids qfs))
    (hsrc : ∀ q ∈ qfs, ∀ gf f, gn.get q.name = some (.field gf) → gf.func = .plain f →
      ∀ i ∈ identsOf ids, LoadedIn st.log f gn i q.name) :
    ∃ idx, storeFields env.H wf.index gn qfs ids r = .ok idx ∧
      SFrame env D U st (setIndex w idx st) ∧ Acct env D st (setIndex w idx st) [] ∧
      ∀ i ∈ identsOf ids, ∀ q ∈ qfs, Present env.H (setIndex w idx st) w gn i q.name q.options := by
  refine ⟨_, (storeFields_ok_iff hids.isSome).2 ⟨_, hr, rfl⟩, ?_⟩
  have hmem : ∀ x, x ∈ rowCells gn.indexName (qfs.map (QItem.indexKey env.H))
      ((identsOf ids).zip (rowsSem env D wf.graph gn ids qfs)) ↔
      ∃ i ∈ identsOf ids, ∃ q ∈ qfs, x = ((gn.indexName, i, indexKey env.H q.name q.options),
        cellSem D (semSub env.sys D wf.graph) gn i q.name q.options) := by
    intro x
    have hz : ∀ (l : List Val) (F : Val → List Val), l.zip (l.map F) = l.map fun i => (i, F i) := by
      intro l F
      induction l with
      | nil => rfl
      | cons y ys ih => simp [ih]
    have hz2 : ∀ (l : List QItem) (F : QItem → String) (G : QItem → Val),
        (l.map F).zip (l.map G) = l.map fun i => (F i, G i) := by
      intro l F G
      induction l with
      | nil => rfl
      | cons y ys ih => simp [ih]
    simp only [rowCells, rowsSem, hz, List.flatMap_map, hz2, List.map_map, List.mem_flatMap, List.mem_map]
    constructor
    · rintro ⟨i, hi, q, hq, rfl⟩
      exact ⟨i, hi, q, hq, rfl⟩
    · rintro ⟨i, hi, q, hq, rfl⟩
      exact ⟨i, hi, q, hq, rfl⟩
  obtain ⟨f1, hw1⟩ := sframe_setIndex C.good C.faithful hok hw hg
    (cells := rowCells gn.indexName (qfs.map (QItem.indexKey env.H))
      ((identsOf ids).zip (rowsSem env D wf.graph gn ids qfs))) (by
    intro x hx
    obtain ⟨i, hi, q, hqm, rfl⟩ := (hmem x).1 hx
    obtain ⟨hu, gf, hget, _⟩ := hq q hqm
    refine ⟨gn, i, q.name, q.options, .field gf, hn, hu, hget, rfl, rfl, ?_⟩
    rintro gf' f e hf
    cases e
    exact hsrc q hqm gf f hget hf i hi)
  refine ⟨f1, Acct.quiet f1.le.sameGraphs rfl rfl, ?_⟩
  intro i hi q hqm
  refine ⟨_, hw1, ?_⟩
  simp only
  rw [dget_isSome_iff, mem_keys_dupdate]
  right
  exact List.mem_map.2 ⟨_, (hmem _).2 ⟨i, hi, q, hqm, rfl⟩, rfl⟩

theorem sem_resultProc (C : Setup env D U) (hs : Sound env D U st) {gi : Nat} {gn : GNode}
    {qfs : List QItem} {ids : Option (List Val)} {w : Nat} {procs : List (Nat × List Val)}
    (hname : gn.name.isSome)
    (h : SrcOk env D U st (fun _ => False) gi gn qfs ids (.sub w procs)) :
    ∃ wf r, st.wfs[w]? = some wf ∧ resultProc env wf procs = .ok r ∧
      RowsOf gn qfs.length ids r (rowsSem env D gi gn ids qfs) := by
  obtain ⟨hsome, wf, g, nn, t, q, hw, hg, ht, hroot, hmap, hcell, hq, hother, hid, hc1, hc2, hp, _⟩ := h
  have htn := Graph.node_name ht
  have hti : t.indexName = nn := by simp [GNode.indexName, htn]
  have hr1 : ∀ i ∈ identsOf ids, readNode env.H wf.index nn i q =
      .ok (semNode D (semSub env.sys D wf.graph) g t i q) := by
    intro i hi
    have := read_ok C hs hw hg q t i (isNode_of_node ht) (hid i hi) hq (hc1 i hi)
    rw [hti] at this
    exact this
  have hr2 : readNode env.H wf.index rootName rootIdent
      (.mk (wf.query.fields.filter fun r => r.name ≠ THIS) false) =
      .ok (semNode D (semSub env.sys D wf.graph) g g.root rootIdent
        (.mk (wf.query.fields.filter fun r => r.name ≠ THIS) false)) :=
    read_ok C hs hw hg _ g.root rootIdent (.inl rfl) rfl hother hc2
  obtain ⟨l, rfl⟩ := Option.isSome_iff_exists.1 hsome
  simp only [identsOf, Option.getD_some] at *
  refine ⟨wf, .list ((rowsSem env D gi gn (some l) qfs).map .list), hw, ?_, ?_⟩
  · have hpc : proxyCell env.H wf.index rootName rootIdent wf.query THIS =
        .ok (.link THIS q none none, .list (l.map (.ref nn))) := by
      simp only [proxyCell, hmap, QItem.indexKey, QItem.name, QItem.options, indexKey_none, hcell]
    simp only [resultProc, hpc, ok_bind', hr2]
    rw [bind_ok_iff]
    refine ⟨_, mapM_ok_iff.2 ?_, rfl⟩
    rw [List.forall₂_map_left_iff]
    simp only [rowsSem, identsOf, Option.getD_some, List.map_map]
    rw [List.forall₂_map_right_iff, List.forall₂_same]
    intro i hi
    simp only [hr1 i hi, ok_bind', Function.comp]
    rw [bind_ok_iff]
    refine ⟨_, mapM_ok_iff.2 ?_, rfl⟩
    rw [List.forall₂_map_right_iff]
    have := (hp i hi).flip
    exact this
  · obtain ⟨nm, hnm⟩ := Option.isSome_iff_exists.1 hname
    simp only [RowsOf, hnm]
    refine ⟨_, rfl, by simp [rowsSem, identsOf], ?_⟩
    rw [List.forall₂_map_left_iff, List.forall₂_same]
    intro row hrow
    refine ⟨rfl, ?_⟩
    simp only [rowsSem, List.mem_map] at hrow
    obtain ⟨i, _, rfl⟩ := hrow
    simp

/-- running one callback -/
theorem sem_runCB (C : Setup env D U) {pend : CB → Prop} {B : List Nat} {cb : CB} {wf : Wf} {g : Graph}
    (hok : SOK env D U st) (hcb : CBOk env D U st pend cb) (hw : st.wfs[cb.wf]? = some wf)
    (hg : env.sys.graphs[wf.graph]? = some g) (hl : (dget st.q.futures wf.ts).isSome)
    (hloc : RunLoc st B cb)
    (hneed : ∀ w gn i r, Needs w gn i r cb → Present env.H st w gn i r none)
    (hquiet : ∀ (w : Nat) (wf : Wf), st.wfs[w]? = some wf → wf.ts ∈ B → ∀ c, pend c → c.wf ≠ w) :
    ∃ st', runCB env cb st = .ok st' ∧ SFrame env D U st st' ∧
      (∀ gn i it, Goal cb.wf gn i it cb → Cov env D st' (PendQ st') cb.wf wf.graph g gn i it) ∧
      (∀ w gn i r, Provides w gn i r cb → Present env.H st' w gn i r none) ∧
      Acct env D st st' (cbPlan env D st.wfs cb) := by
  rw [cbPlan_eq hw hg]
  have hlev : wf.graph ≤ env.levels := by
    have := (List.getElem?_eq_some_iff.1 hg).1
    simp only [Env.levels]; omega
  have hsub := sem_subCall C env.levels
  have hat : At st cb.wf wf.graph wf.ts := ⟨wf, hw, rfl, rfl, hl⟩
  obtain ⟨wf', g', hw', hg', h⟩ := hcb
  rw [hw] at hw'; cases hw'
  rw [hg] at hg'; cases hg'
  cases cb with
  | store w gn qfs ids src =>
    obtain ⟨hn, hids, hfi, hsrc⟩ := h
    simp only [CB.wf] at hw hat ⊢
    obtain ⟨r, hres, hrows, hload⟩ : ∃ r, (match src with
        | .fut f => (st.results[f]?).getD (.error .assertionError)
        | .sub w' procs =>
            match st.wfs[w']? with
            | none => .error .assertionError
            | some wf' => resultProc env wf' procs) = .ok r ∧
        RowsOf gn qfs.length ids r (rowsSem env D wf.graph gn ids qfs) ∧
        ∀ q ∈ qfs, ∀ gf f, gn.get q.name = some (.field gf) → gf.func = .plain f →
          ∀ i ∈ identsOf ids, LoadedIn st.log f gn i q.name := by
      cases src with
      | fut f =>
        obtain ⟨⟨r, h1, h2⟩, s, h3, h4, h5, h6⟩ := hsrc
        obtain ⟨done, hd1, hd2⟩ := hloc
        refine ⟨r, by simp only [h1]; rfl, h2, ?_⟩
        intro q hq gf f hget hf i hi
        obtain ⟨gf', e1, e2⟩ := h5 q hq
        rw [hget] at e1; cases e1
        rw [hf] at e2; cases e2
        exact ⟨s, qfs, ids, done, h3, hd1, by rw [h4]; exact hd2, rfl, h6, ⟨q, hq, rfl⟩, hids.isSome, hi⟩
      | sub w' procs =>
        obtain ⟨wf1, hw1, hB⟩ := hloc
        have hq := hquiet w' wf1 hw1 hB
        have hsome : ids.isSome := hsrc.1
        have hnoplain : ∀ q ∈ qfs, ∀ gf, gn.get q.name = some (.field gf) → ∀ f, gf.func ≠ .plain f := by
          obtain ⟨_, _, _, _, _, _, _, _, _, _, _, _, _, _, _, _, _, _, h⟩ := hsrc
          exact h
        have hsrc' : SrcOk env D U st (fun _ => False) wf.graph gn qfs ids (.sub w' procs) := by
          obtain ⟨hs, wf2, g2, nn, t, q, a1, a2, a3, a4, a5, a6, a7, a8, a9, a10, a11, a12, a13⟩ := hsrc
          refine ⟨hs, wf2, g2, nn, t, q, a1, a2, a3, a4, a5, a6, a7, a8, a9, ?_, ?_, a12, a13⟩
          · intro i hi it hit
            exact (a10 i hi it hit).subst (.refl st) fun c hc hcw _ _ _ _ => absurd hcw (hq c hc)
          · intro it hit
            exact (a11 it hit).subst (.refl st) fun c hc hcw _ _ _ _ => absurd hcw (hq c hc)
        obtain ⟨wf2, r, e1, e2, e3⟩ := sem_resultProc C hok.sound (by rw [← hids.isSome]; exact hsome) hsrc'
        refine ⟨r, by simp only [e1]; exact e2, e3, ?_⟩
        intro q hqm gf f hget hf
        exact absurd hf (hnoplain q hqm gf hget f)
    obtain ⟨idx, h1, f1, ac, hp⟩ := sem_store C hok hw hg hn hids hfi hrows hload
    refine ⟨_, ?_, f1, ?_, ?_, ac⟩
    · cases src with
      | fut f => simp only [runCB] at hres ⊢; simp only [hres, ok_bind', hw, h1]
      | sub w' procs =>
        simp only [runCB, hw] at hres ⊢
        cases hx : st.wfs[w']? with
        | none => rw [hx] at hres; cases hres
        | some wf2 =>
          rw [hx] at hres
          simp only at hres
          simp only [hres, ok_bind', h1]
    · rintro gn' i it ⟨_, rfl, hi, hit⟩
      obtain ⟨_, gf, hget, _⟩ := hfi it hit
      exact .val gf (hp i hi it hit) hget
    · rintro w' gn' i r' ⟨rfl, rfl, hi, q, hq, rfl, ho⟩
      have := hp i hi q hq
      rw [ho] at this
      exact this
  | schedLink w gn gl ql ids =>
    obtain ⟨hn, hids, hli⟩ := h
    obtain ⟨st1, o, fut, h1, f1, hm, ac⟩ := sem_scheduleLink C hok hat hg hn hids hli
      (fun r hr i hi => hneed w gn i r ⟨rfl, rfl, hi, hr⟩)
    refine ⟨st1, ?_, f1, ?_, fun _ _ _ _ h => absurd h id, ac⟩
    · have h1' : scheduleLink env w gn gl ql ids st = .ok (st1, o) := h1
      simp only [runCB, h1', ok_bind']
    · rintro gn' i it ⟨_, rfl, hi, rfl⟩
      exact .pend _ ⟨o, hm⟩ ⟨rfl, rfl, hi, rfl⟩
  | procLink w gn gl ql ids fut =>
    obtain ⟨hn, hids, hli, r, hr, hlv⟩ := h
    obtain ⟨st1, h1, f1, hc, ac⟩ := sem_processLink C hsub hok hat hg hlev hn hids hli hlv
    refine ⟨st1, ?_, f1, ?_, fun _ _ _ _ h => absurd h id, ac⟩
    · simp only [runCB, hr, Option.getD_some, ok_bind']
      exact h1
    · rintro gn' i it ⟨_, rfl, hi, rfl⟩
      exact hc i hi
  | procSteps w gn ids steps =>
    obtain ⟨hn, hids, hgood, hpre⟩ := h
    obtain ⟨st1, h1, f1, hc, ac⟩ := sem_runSteps C hsub hok hat hg hlev hn hids hgood hpre (by
      rintro gl ql rest rfl r hr i hi
      exact hneed w gn i r ⟨rfl, rfl, hi, hr⟩)
    refine ⟨st1, h1, f1, ?_, fun _ _ _ _ h => absurd h id, ac⟩
    rintro gn' i it ⟨_, rfl, hi, s, hs, hit⟩
    obtain ⟨c, h2, h3⟩ := hc i hi s hs it hit
    exact .pend c h2 h3

end Hiku
