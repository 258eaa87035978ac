import Verif.Proofs.PlanDefs

/-! Primitive steps of the engine. -/

namespace Hiku

variable {env : Env} {D : Data} {U : String → Opts → Prop} {st : St}

theorem CallsOk.snoc {log : List Ev} {s : Submit} (h : CallsOk env D U log)
    (hs : FieldsCall env D U s ∨ LinkCall env D U log s) : CallsOk env D U (log ++ [.call s]) := by
  intro pre s' post he
  rcases append_cons_eq_append_singleton he.symm with ⟨_, h1, rfl⟩ | ⟨post', _, h2⟩
  · cases h1; exact hs
  · exact h pre s' post' h2.symm

theorem sframe_submit (hok : SOK env D U st) {w : Nat} {wf : Wf} (hw : st.wfs[w]? = some wf)
    (hl : (dget st.q.futures wf.ts).isSome) {nd : Option String} {f : PFunc} {args : List Arg}
    (hc : ∀ s : Submit, s.func = f → s.args = withCtx f args →
      FieldsCall env D U s ∨ LinkCall env D U st.log s)
    (hr : ∃ v, env.world.call st.results.length f.id (withCtx f args) = .ok v) :
    ∃ st', submitCall env w nd f args st = .ok (st', st.results.length) ∧ SFrame env D U st st' ∧
      st'.wfs = st.wfs ∧
      st'.results[st.results.length]? = some (env.world.call st.results.length f.id (withCtx f args)) ∧
      (∃ s, Ev.call s ∈ st'.log ∧ s.fut = st.results.length ∧ s.func = f ∧ s.args = withCtx f args) ∧
      Acct env D st st' [(f, withCtx f args)] := by
  obtain ⟨ss, hs⟩ := Option.isSome_iff_exists.1 hl
  have hq := Queue.submit_of_live st.results.length hs
  have hinv := hok.inv.submit hq
  have hsub : submitCall env w nd f args st = .ok ({ st with
      q := { st.q with futures := dset st.q.futures wf.ts (ss ++ [st.results.length]) }
      results := st.results ++ [env.world.call st.results.length f.id (withCtx f args)]
      log := st.log ++ [.call ⟨st.results.length, wf.ts, f, withCtx f args, w, nd⟩] }, st.results.length) := by
    obtain ⟨v, hv⟩ := hr
    have hv' := hv
    unfold withCtx at hv'
    have hn : env.refused st.results.length (env.world.call st.results.length f.id
        (if f.passCtx then Arg.ctx :: args else args)) = none := by rw [hv']; rfl
    simp only [submitCall, hw, hn, hq]; rfl
  refine ⟨_, hsub, ⟨⟨⟨_, rfl⟩, fun _ wf h => ⟨wf, h, rfl, rfl, rfl, fun _ _ h => h⟩, ?_⟩,
    ⟨by simpa using hinv, hok.sound, ?_⟩, ?_, ?_, ?_, ?_⟩, rfl, by simp, ?_, ?_⟩
  · intro e he; simp [he]
  · intro w wf g h1 h2 gn h3 i n o gf f h4 h5 h6 h7
    exact (hok.sourced w wf g h1 h2 gn h3 i n o gf f h4 h5 h6 h7).mono fun e he => by simp [he]
  · intro t ht
    simp only [dget_dset]
    split
    · rfl
    · exact ht
  · intro o; exact ⟨[], by simp [Queue.cbs], by simp⟩
  · intro h o
    refine Ready.mono (st := st) ?_ (h o)
    exact ⟨⟨[env.world.call st.results.length f.id (withCtx f args)], rfl⟩,
      fun _ wf h => ⟨wf, h, rfl, rfl, rfl, fun _ _ h => h⟩, fun e he => by simp [he]⟩
  · intro h
    exact h.snoc (hc _ rfl rfl)
  · exact ⟨_, List.mem_append_right _ List.mem_cons_self, rfl, rfl, rfl⟩
  · refine Acct.call (s := ⟨st.results.length, wf.ts, f, withCtx f args, w, nd⟩) ?_ ?_ ?_ <;> rfl

theorem sframe_addCB (hok : SOK env D U st) {o : Obj} {cb : CB} (h1 : CBOk env D U st (PendQ st) cb)
    (h2 : CBLoc st o cb)
    (h3 : ∀ w gn i r, Needs w gn i r cb →
      Present env.H st w gn i r none ∨ ∃ c ∈ st.q.cbs o, Provides w gn i r c) :
    SFrame env D U st (addCB o cb st) ∧ cb ∈ (addCB o cb st).q.cbs o := by
  have hle : Le st (addCB o cb st) :=
    ⟨⟨[], by simp [addCB]⟩, fun _ wf h => ⟨wf, h, rfl, rfl, rfl, fun _ _ h => h⟩, fun _ h => h⟩
  have hcbs : ∀ o', (addCB o cb st).q.cbs o' = if o = o' then st.q.cbs o ++ [cb] else st.q.cbs o' := by
    intro o'
    simp only [addCB, Queue.cbs_addCallback]
    by_cases e : o = o' <;> simp [e]
  have hp : ∀ c, PendQ st c → PendQ (addCB o cb st) c := by
    rintro c ⟨o', ho'⟩
    refine ⟨o', ?_⟩
    rw [hcbs]
    by_cases e : o = o'
    · subst e; simp [ho']
    · simp [e, ho']
  refine ⟨⟨hle, ⟨hok.inv.addCallback o cb, hok.sound, hok.sourced⟩, fun _ h => h, ?_, ?_, fun h => h⟩, ?_⟩
  · intro o'
    rw [hcbs]
    by_cases e : o = o'
    · subst e
      refine ⟨[cb], by simp, ?_⟩
      intro c hc
      simp only [List.mem_singleton] at hc
      subst hc
      exact ⟨h1.mono hle hp, h2.mono hle⟩
    · exact ⟨[], by simp [e], by simp⟩
  · intro h o'
    rw [hcbs]
    by_cases e : o = o'
    · subst e
      rw [if_pos rfl]
      exact ((h o).snoc h3).mono hle
    · rw [if_neg e]
      exact (h o').mono hle
  · rw [hcbs, if_pos rfl]; simp

theorem sframe_fork (hok : SOK env D U st) {t : Nat} (hl : (dget st.q.futures t).isSome) :
    ∃ q' dep, st.q.fork (some t) = .ok (q', dep) ∧ SFrame env D U st { st with q := q' } ∧
      (dget q'.futures dep).isSome ∧ Acct env D st { st with q := q' } [] := by
  obtain ⟨s, hs⟩ := Option.isSome_iff_exists.1 ((hok.inv.keys t).1 hl)
  obtain ⟨q', h1, h2, h3, h4, h5⟩ := Queue.fork_of_live hok.inv hs
  refine ⟨q', _, h1, ⟨⟨⟨[], by simp⟩, fun _ wf h => ⟨wf, h, rfl, rfl, rfl, fun _ _ h => h⟩, fun _ h => h⟩,
    ⟨hok.inv.fork hl h1, hok.sound, hok.sourced⟩, ?_, ?_, ?_, fun h => h⟩, by simp [h4],
    Acct.quiet (fun j wf h => ⟨wf, h, rfl⟩) h3 rfl⟩
  · intro x hx
    simp only [h4]
    split
    · rfl
    · exact hx
  · intro o; exact ⟨[], by simp [Queue.cbs, h3], by simp⟩
  · intro h o
    have : q'.cbs o = st.q.cbs o := by simp [Queue.cbs, h3]
    rw [this]
    exact Ready.mono (st := st) ⟨⟨[], by simp⟩, fun _ wf h => ⟨wf, h, rfl, rfl, rfl, fun _ _ h => h⟩, fun _ h => h⟩ (h o)

/-- cells which may be written -/
def TrueCell (env : Env) (D : Data) (U : String → Opts → Prop) (log : List Ev) (gi : Nat) (g : Graph)
    (x : Cell × Val) : Prop :=
  ∃ gn i n o it, IsNode g gn ∧ U n o ∧ gn.get n = some it ∧ x.1 = (gn.indexName, i, indexKey env.H n o) ∧
    x.2 = cellSem D (semSub env.sys D gi) gn i n o ∧
    ∀ gf f, it = .field gf → gf.func = .plain f → LoadedIn log f gn i n

theorem sframe_setIndex (hG : GoodSys U env.sys) (hF : Faithful env.H D U) (hok : SOK env D U st)
    {w : Nat} {wf : Wf} {g : Graph} (hw : st.wfs[w]? = some wf) (hg : env.sys.graphs[wf.graph]? = some g)
    {cells : List (Cell × Val)} (hc : ∀ x ∈ cells, TrueCell env D U st.log wf.graph g x) :
    SFrame env D U st (setIndex w (dupdate wf.index cells) st) ∧
      (setIndex w (dupdate wf.index cells) st).wfs[w]? =
        some { wf with index := dupdate wf.index cells } := by
  have hnode := hG.nodes _ _ hg
  have hw' : (setIndex w (dupdate wf.index cells) st).wfs[w]? =
      some { wf with index := dupdate wf.index cells } := by
    simp [setIndex, List.getElem?_modify, hw]
  -- a written cell of a used item has its value
  have key : ∀ gn, IsNode g gn → ∀ i n o it v, U n o → gn.get n = some it →
      ((gn.indexName, i, indexKey env.H n o), v) ∈ cells →
      v = cellSem D (semSub env.sys D wf.graph) gn i n o ∧
        ∀ gf f, it = .field gf → gf.func = .plain f → LoadedIn st.log f gn i n := by
    intro gn hgn i n o it v hu hget hm
    obtain ⟨gn', i', n', o', it', h1, h2, h3, h4, h5, h6⟩ := hc _ hm
    simp only [Prod.mk.injEq] at h4
    obtain ⟨e1, e2, e3⟩ := h4
    have := IsNode.inj hnode hgn h1 e1
    subst this; subst e2
    obtain ⟨rfl, heq⟩ := hF _ _ _ _ hu h2 e3
    rw [hget] at h3; cases h3
    exact ⟨by rw [cellSem_equiv D _ heq]; exact h5, h6⟩
  have hstab : ∀ c v, dget wf.index c = some v → dget (dupdate wf.index cells) c = some v := by
    intro c v hv
    rcases dget_dupdate_cases wf.index cells c with ⟨v', h1, h2⟩ | ⟨_, h2⟩
    · obtain ⟨gn, i, n, o, it, a1, a2, a3, a4, a5, _⟩ := hc _ h1
      simp only at a4 a5
      subst a4
      rw [h2, a5, ← hok.sound w wf g hw hg gn a1 i n o it a2 a3 v hv]
    · rw [h2]; exact hv
  have hle : Le st (setIndex w (dupdate wf.index cells) st) := by
    refine ⟨⟨[], by simp [setIndex]⟩, ?_, fun _ h => h⟩
    intro j wf' hj
    by_cases e : w = j
    · subst e
      rw [hw] at hj; cases hj
      exact ⟨_, hw', rfl, rfl, rfl, hstab⟩
    · refine ⟨wf', ?_, rfl, rfl, rfl, fun _ _ h => h⟩
      simp [setIndex, List.getElem?_modify, e, hj]
  refine ⟨⟨hle, ⟨hok.inv, ?_, ?_⟩, fun _ h => h, fun o => ⟨[], by simp [setIndex], by simp⟩,
    fun h o => (h o).mono hle, fun h => h⟩, hw'⟩
  · intro j wf1 g1 hj hg1 gn hgn i n o it hu hget v hv
    by_cases e : w = j
    · subst e
      rw [hw'] at hj; cases hj
      rw [hg] at hg1; cases hg1
      rcases dget_dupdate_cases wf.index cells (gn.indexName, i, indexKey env.H n o) with ⟨v', h1, h2⟩ | ⟨_, h2⟩
      · rw [h2] at hv; cases hv
        exact (key gn hgn i n o it v hu hget h1).1
      · rw [h2] at hv
        exact hok.sound w wf g hw hg gn hgn i n o it hu hget v hv
    · have : st.wfs[j]? = some wf1 := by simpa [setIndex, List.getElem?_modify, e] using hj
      exact hok.sound j wf1 g1 this hg1 gn hgn i n o it hu hget v hv
  · intro j wf1 g1 hj hg1 gn hgn i n o gf f hu hget hf hv
    by_cases e : w = j
    · subst e
      rw [hw'] at hj; cases hj
      rw [hg] at hg1; cases hg1
      rcases dget_dupdate_cases wf.index cells (gn.indexName, i, indexKey env.H n o) with ⟨v', h1, h2⟩ | ⟨_, h2⟩
      · exact (key gn hgn i n o _ v' hu hget h1).2 gf f rfl hf
      · simp only [h2] at hv
        exact hok.sourced w wf g hw hg gn hgn i n o gf f hu hget hf hv
    · have : st.wfs[j]? = some wf1 := by simpa [setIndex, List.getElem?_modify, e] using hj
      exact hok.sourced j wf1 g1 this hg1 gn hgn i n o gf f hu hget hf hv

theorem sframe_pushWf (hok : SOK env D U st) {wf : Wf} {g : Graph}
    (hg : env.sys.graphs[wf.graph]? = some g)
    (hc : ∀ gn, IsNode g gn → ∀ i n o it, U n o → gn.get n = some it →
      dget wf.index (gn.indexName, i, indexKey env.H n o) = none) :
    SFrame env D U st { st with wfs := st.wfs ++ [wf] } := by
  have hle : Le st { st with wfs := st.wfs ++ [wf] } := by
    refine ⟨⟨[], by simp⟩, ?_, fun _ h => h⟩
    intro j wf' hj
    exact ⟨wf', by simp [List.getElem?_append_left (List.getElem?_eq_some_iff.1 hj).1, hj], rfl, rfl, rfl, fun _ _ h => h⟩
  have hcase : ∀ (j : Nat) (wf1 : Wf), (st.wfs ++ [wf])[j]? = some wf1 → st.wfs[j]? = some wf1 ∨ wf1 = wf := by
    intro j wf1 hj
    by_cases hlt : j < st.wfs.length
    · rw [List.getElem?_append_left hlt] at hj; exact .inl hj
    · right
      have := List.mem_of_getElem? hj
      rw [List.getElem?_append_right (by omega)] at hj
      have := List.mem_of_getElem? hj
      simpa using this
  refine ⟨hle, ⟨hok.inv, ?_, ?_⟩, fun _ h => h, fun o => ⟨[], by simp, by simp⟩,
    fun h o => (h o).mono hle, fun h => h⟩
  · intro j wf1 g1 hj hg1 gn hgn i n o it hu hget v hv
    rcases hcase j wf1 hj with hj | rfl
    · exact hok.sound j wf1 g1 hj hg1 gn hgn i n o it hu hget v hv
    · rw [hg] at hg1; cases hg1
      rw [hc gn hgn i n o it hu hget] at hv; cases hv
  · intro j wf1 g1 hj hg1 gn hgn i n o gf f hu hget hf hv
    rcases hcase j wf1 hj with hj | rfl
    · exact hok.sourced j wf1 g1 hj hg1 gn hgn i n o gf f hu hget hf hv
    · rw [hg] at hg1; cases hg1
      simp [hc gn hgn i n o _ hu hget] at hv

theorem setIndex_push (st : St) (wf : Wf) (idx : Index) :
    setIndex st.wfs.length idx { st with wfs := st.wfs ++ [wf] } =
      { st with wfs := st.wfs ++ [{ wf with index := idx }] } := by
  simp only [setIndex]
  congr 1
  apply List.ext_getElem?
  intro i
  rw [List.getElem?_modify]
  by_cases h : st.wfs.length = i
  · subst h; simp
  · by_cases hlt : i < st.wfs.length
    · simp [List.getElem?_append_left hlt, h]
    · have : 1 ≤ i - st.wfs.length := by omega
      simp only [List.getElem?_append_right (Nat.le_of_not_lt hlt), h, if_false]
      rw [List.getElem?_eq_none (by simpa using this), List.getElem?_eq_none (by simpa using this)]
      rfl

end Hiku
