import Verif.Proofs.PlanStatic

/-! Nodes and links. -/

namespace Hiku

variable {env : Env} {D : Data} {U : String → Opts → Prop} {st st' : St}
  {n w gi tw : Nat} {g : Graph} {gn : GNode} {sub : SubCall} {ids : Option (List Val)}

theorem Preceded.tail {step : Step} {pre : List Step} {gl : GLink} (h : Preceded (step :: pre) gl)
    (hne : pre ≠ []) : Preceded pre gl := by
  intro r hr
  obtain ⟨pre', k, items, h1, h2⟩ := h r hr
  cases pre' with
  | nil => simp at h1; exact absurd h1.2 hne
  | cons x r' =>
    simp only [List.cons_append, List.cons.injEq] at h1
    exact ⟨r', k, items, h1.2, h2⟩

theorem sem_runSteps (C : Setup env D U) (hsub : SubS env D U n sub) {steps : List Step}
    (hok : SOK env D U st) (hat : At st w gi tw) (hg : env.sys.graphs[gi]? = some g) (hgn : gi ≤ n)
    (hn : IsNode g gn) (hids : IdsOk D gi gn ids) (hgood : ∀ s ∈ steps, StepGood U g gn s)
    (hpre : ∀ pre gl ql post, steps = pre ++ .link gl ql :: post → pre ≠ [] → Preceded pre gl)
    (hhead : ∀ gl ql rest, steps = .link gl ql :: rest → ∀ r, gl.requires = some r →
      ∀ i ∈ identsOf ids, Present env.H st w gn i r none) :
    ∃ st', runSteps env sub w gn ids steps st = .ok st' ∧ SFrame env D U st st' ∧
      (∀ i ∈ identsOf ids, ∀ s ∈ steps, ∀ it ∈ s.items, ∃ cb, PendQ st' cb ∧ Goal w gn i it cb) ∧
      Acct env D st st' (steps.flatMap (planStep D (semSub env.sys D gi) (planSub env.sys env.H D gi) g gn ids)) := by
  cases steps with
  | nil => exact ⟨st, rfl, .refl hok, by simp, .refl st⟩
  | cons step rest =>
    -- the first step
    have first : ∃ st1 dep cb1, (∀ rest, runSteps env sub w gn ids (step :: rest) st =
          .ok (if rest.isEmpty then st1 else addCB dep (.procSteps w gn ids rest) st1)) ∧
        SFrame env D U st st1 ∧ cb1 ∈ st1.q.cbs dep ∧
        (∀ i ∈ identsOf ids, ∀ it ∈ step.items, Goal w gn i it cb1) ∧
        (∀ i ∈ identsOf ids, ∀ k items, step = .fields k items → ∀ x ∈ items, ∀ r,
          x.2 = .field r none none → Provides w gn i r cb1) ∧
        Acct env D st st1 (planStep D (semSub env.sys D gi) (planSub env.sys env.H D gi) g gn ids step) := by
      cases step with
      | fields k items =>
        obtain ⟨hne, hit⟩ := hgood (.fields k items) (by simp)
        obtain ⟨st1, o, src, h1, f1, hm, ac⟩ := sem_scheduleFields C hsub hok hat hg hgn hn hids hne hit
        refine ⟨st1, o, _, fun _ => by simp only [runSteps, h1, ok_bind'], f1, hm, ?_, ?_, ac⟩
        · intro i hi it hitm
          exact ⟨rfl, rfl, hi, hitm⟩
        · intro i hi k' items' he x hx r hxr
          cases he
          exact ⟨rfl, rfl, hi, x.2, List.mem_map.2 ⟨x, hx, rfl⟩, by rw [hxr]; rfl, by rw [hxr]; rfl⟩
      | link gl ql =>
        obtain ⟨st1, o, fut, h1, f1, hm, ac⟩ := sem_scheduleLink C hok hat hg hn hids
          (hgood (.link gl ql) (by simp)) (hhead gl ql rest rfl)
        refine ⟨st1, o, _, fun _ => by simp only [runSteps, h1, ok_bind'], f1, hm, ?_, ?_, ac⟩
        · intro i hi it hitm
          simp only [Step.items, List.mem_singleton] at hitm
          exact ⟨rfl, rfl, hi, hitm⟩
        · intro i hi k' items' he; cases he
    obtain ⟨st1, dep, cb1, h1, f1, hm1, hgoal, hprov, ac1⟩ := first
    by_cases hr : rest = []
    · subst hr
      refine ⟨st1, ?_, f1, ?_, by simpa using ac1⟩
      · rw [h1]; rfl
      · intro i hi s hs it hit
        simp only [List.mem_singleton] at hs
        subst hs
        exact ⟨cb1, ⟨dep, hm1⟩, hgoal i hi it hit⟩
    · obtain ⟨wf, hw, hwg, hwt, hl⟩ := hat.mono f1
      have hcb : CBOk env D U st1 (PendQ st1) (.procSteps w gn ids rest) := by
        refine ⟨wf, g, hw, by rw [hwg]; exact hg, hn, by rw [hwg]; exact hids,
          fun s hs => hgood s (by simp [hs]), ?_⟩
        intro pre gl ql post he hne
        exact (hpre (step :: pre) gl ql post (by rw [he]; rfl) (by simp)).tail hne
      obtain ⟨f2, hm2⟩ := sframe_addCB (o := dep) f1.ok hcb trivial (by
        intro w' gn' i r hneed
        cases rest with
        | nil => exact absurd rfl hr
        | cons s2 rest2 =>
          cases s2 with
          | fields k items => exact absurd hneed id
          | link gl ql =>
            obtain ⟨rfl, rfl, hi, hreq⟩ := hneed
            obtain ⟨pre', k, items, e, x, hx, hxr⟩ := hpre [step] gl ql rest2 rfl (by simp) r hreq
            cases pre' with
            | cons y ys => simp at e
            | nil =>
              simp only [List.nil_append, List.cons.injEq, and_true] at e
              exact .inr ⟨cb1, hm1, hprov i hi k items e x hx r hxr⟩)
      refine ⟨_, ?_, f1.trans f2, ?_, ?_⟩
      rotate_right
      · have := ac1.trans (Acct.addCB (o := dep) (cb := .procSteps w gn ids rest) ⟨wf, hw⟩)
        rw [cbPlan_eq (wf := wf) (g := g) hw (by rw [hwg]; exact hg), hwg] at this
        exact this
      · have : rest.isEmpty = false := by simpa using hr
        rw [h1, this]; rfl
      · intro i hi s hs it hit
        rcases List.mem_cons.1 hs with rfl | hs
        · exact ⟨cb1, f2.pendq ⟨dep, hm1⟩, hgoal i hi it hit⟩
        · exact ⟨_, ⟨dep, hm2⟩, rfl, rfl, hi, s, hs, hit⟩

theorem sem_scheduleGroups (C : Setup env D U) (hsub : SubS env D U n sub)
    {groups : List (FKey × List (GItem × QItem))} (hok : SOK env D U st) (hat : At st w gi tw)
    (hg : env.sys.graphs[gi]? = some g) (hgn : gi ≤ n) (hn : IsNode g gn) (hids : IdsOk D gi gn ids)
    (hne : ∀ p ∈ groups, p.2 ≠ []) (hit : ∀ p ∈ groups, ∀ x ∈ p.2, FEntry U gn p.1 x)
    (hnd : (groups.map (·.1)).Nodup) :
    ∃ st' deps, scheduleGroups env sub w gn ids groups st = .ok (st', deps) ∧ SFrame env D U st st' ∧
      (∀ p ∈ groups, ∃ o src, dget deps p.1 = some o ∧ .store w gn (p.2.map (·.2)) ids src ∈ st'.q.cbs o) ∧
      Acct env D st st' (groups.flatMap fun p => planFields (planSub env.sys env.H D gi) gn ids (p.2.map (·.2))) := by
  induction groups generalizing st with
  | nil => exact ⟨st, [], rfl, .refl hok, by simp, .refl st⟩
  | cons p r ih =>
    obtain ⟨k, items⟩ := p
    obtain ⟨st1, o, src, h1, f1, hm, ac1⟩ := sem_scheduleFields C hsub hok hat hg hgn hn hids
      (hne (k, items) (by simp)) (hit (k, items) (by simp))
    simp only [List.map_cons, List.nodup_cons] at hnd
    obtain ⟨st2, deps, h2, f2, hd, ac2⟩ := ih f1.ok (hat.mono f1) (fun p hp => hne p (by simp [hp]))
      (fun p hp => hit p (by simp [hp])) hnd.2
    refine ⟨st2, (k, o) :: deps, by simp only [scheduleGroups, h1, ok_bind', h2], f1.trans f2, ?_, ac1.trans ac2⟩
    intro p hp
    rcases List.mem_cons.1 hp with rfl | hp
    · exact ⟨o, src, by simp, f2.mem hm⟩
    · obtain ⟨o', src', e1, e2⟩ := hd p hp
      refine ⟨o', src', ?_, e2⟩
      rw [dget_cons, if_neg]
      · exact e1
      · intro e
        exact hnd.1 (List.mem_map.2 ⟨p, hp, e.symm⟩)

theorem sem_scheduleLinks (C : Setup env D U) {links : List (GLink × QItem)}
    {toFunc : List (String × FKey)} {toDep : List (FKey × Obj)} (hok : SOK env D U st)
    (hat : At st w gi tw) (hg : env.sys.graphs[gi]? = some g) (hn : IsNode g gn)
    (hids : IdsOk D gi gn ids) (hli : ∀ x ∈ links, LItem U g gn x.1 x.2)
    (hreq : ∀ x ∈ links, ∀ r, x.1.requires = some r → ∃ k o cb, dget toFunc r = some k ∧
      dget toDep k = some o ∧ cb ∈ st.q.cbs o ∧ ∀ i ∈ identsOf ids, Provides w gn i r cb) :
    ∃ st', scheduleLinks env w gn ids toFunc toDep links st = .ok st' ∧ SFrame env D U st st' ∧
      (∀ i ∈ identsOf ids, ∀ x ∈ links, ∃ cb, PendQ st' cb ∧ Goal w gn i x.2 cb) ∧
      Acct env D st st' (links.flatMap fun x => planLinked D (semSub env.sys D gi) (planSub env.sys env.H D gi) g gn ids x.1 x.2) := by
  induction links generalizing st with
  | nil => exact ⟨st, rfl, .refl hok, by simp, .refl st⟩
  | cons x r ih =>
    obtain ⟨gl, ql⟩ := x
    have hli0 := hli (gl, ql) (by simp)
    have hget : ∃ nm, gn.get nm = some (.link gl) := by
      obtain ⟨nm, q, o, a, t, _, _, hget, _⟩ := hli0
      exact ⟨nm, hget⟩
    obtain ⟨nm, hget⟩ := hget
    have first : ∃ st1 cb1, SFrame env D U st st1 ∧ PendQ st1 cb1 ∧
        (∀ i ∈ identsOf ids, Goal w gn i ql cb1) ∧
        Acct env D st st1 (planLinked D (semSub env.sys D gi) (planSub env.sys env.H D gi) g gn ids gl ql) ∧
        scheduleLinks env w gn ids toFunc toDep ((gl, ql) :: r) st =
          scheduleLinks env w gn ids toFunc toDep r st1 := by
      rcases reqTruthy_iff (C.req hg hn) hget with ⟨hr, hrt⟩ | ⟨rq, hr, hrt, hfi⟩
      · obtain ⟨st1, o, fut, h1, f1, hm, ac⟩ := sem_scheduleLink C hok hat hg hn hids hli0
          (fun r hr' => by simp only at hr'; rw [hr] at hr'; cases hr')
        refine ⟨st1, _, f1, ⟨o, hm⟩, fun i hi => ⟨rfl, rfl, hi, rfl⟩, ac, ?_⟩
        simp only [scheduleLinks, hrt, h1, ok_bind']; rfl
      · obtain ⟨k, o, cb, e1, e2, e3, e4⟩ := hreq (gl, ql) (by simp) rq hr
        obtain ⟨wf, hw, hwg, hwt, hl⟩ := hat
        have hcb : CBOk env D U st (PendQ st) (.schedLink w gn gl ql ids) :=
          ⟨wf, g, hw, by rw [hwg]; exact hg, hn, by rw [hwg]; exact hids, hli0⟩
        obtain ⟨f1, hm⟩ := sframe_addCB (o := o) hok hcb trivial (by
          rintro w' gn' i r' ⟨rfl, rfl, hi, hr'⟩
          rw [hr] at hr'; cases hr'
          exact .inr ⟨cb, e3, e4 i hi⟩)
        have ac := Acct.addCB (env := env) (D := D) (o := o) (cb := .schedLink w gn gl ql ids) ⟨wf, hw⟩
        rw [cbPlan_eq (wf := wf) (g := g) hw (by rw [hwg]; exact hg), hwg] at ac
        refine ⟨_, _, f1, ⟨o, hm⟩, fun i hi => ⟨rfl, rfl, hi, rfl⟩, ac, ?_⟩
        simp only [scheduleLinks, hrt, hr, Option.getD_some, e1, e2, if_true]
    obtain ⟨st1, cb1, f1, hp1, hg1, ac1, he⟩ := first
    obtain ⟨st2, h2, f2, hc, ac2⟩ := ih f1.ok (hat.mono f1) (fun x hx => hli x (by simp [hx])) (by
      intro x hx r hr
      obtain ⟨k, o, cb, e1, e2, e3, e4⟩ := hreq x (by simp [hx]) r hr
      exact ⟨k, o, cb, e1, e2, f1.mem e3, e4⟩)
    refine ⟨st2, by rw [he]; exact h2, f1.trans f2, ?_, ac1.trans ac2⟩
    intro i hi x hx
    rcases List.mem_cons.1 hx with rfl | hx
    · exact ⟨cb1, f2.pendq hp1, hg1 i hi⟩
    · exact hc i hi x hx

theorem sem_processNode (C : Setup env D U) (hsub : SubS env D U n sub) {q : QNode}
    (hok : SOK env D U st) (hat : At st w gi tw) (hg : env.sys.graphs[gi]? = some g) (hgn : gi ≤ n)
    (hn : IsNode g gn) (hids : IdsOk D gi gn ids) (hq : NodeOk U g gn q) :
    ∃ st', processNode env sub w gn q ids st = .ok st' ∧ SFrame env D U st st' ∧
      (∀ i ∈ identsOf ids, ∀ it ∈ q.fields, ∃ cb, PendQ st' cb ∧ Goal w gn i it cb) ∧
      Acct env D st st' (planNode D (semSub env.sys D gi) (planSub env.sys env.H D gi) g gn ids q) := by
  obtain ⟨hitems, hord⟩ := nodeOk_iff.1 hq
  have hplan : planNode D (semSub env.sys D gi) (planSub env.sys env.H D gi) g gn ids q = (together gn q.ordered q.fields).flatMap
      (planFields (planSub env.sys env.H D gi) gn ids) ++ planItems D (semSub env.sys D gi) (planSub env.sys env.H D gi) g gn ids q.fields := by
    cases q; simp only [planNode]; rfl
  rw [hplan]
  unfold processNode
  by_cases ho : q.ordered = true
  · rw [if_pos ho]
    obtain ⟨steps, hs, sp⟩ := groupItems_spec (C.req hg hn) (l0 := []) (steps := []) (cur := none)
      hitems (hord ho) ⟨by simp, by intro pre gl ql post e; simp at e, by simp⟩ (by rintro k ⟨⟩)
    obtain ⟨st', h1, f1, hc, ac⟩ := sem_runSteps C hsub hok hat hg hgn hn hids sp.good
      (fun pre gl ql post e _ => sp.ready pre gl ql post e) (by
        intro gl ql rest e r hr
        obtain ⟨pre', k, items, e', _⟩ := sp.ready [] gl ql rest e r hr
        simp at e')
    refine ⟨st', by simp only [hs, ok_bind', h1], f1, ?_, ac.perm (by rw [ho]; exact steps_plan _ _ _ _ (C.req hg hn) hs sp.good)⟩
    intro i hi it hit
    obtain ⟨s, hs1, hs2⟩ := sp.cover it (by simpa using hit)
    exact hc i hi s hs1 it hs2
  · rw [if_neg ho]
    obtain ⟨fields, links, hs, sp⟩ := splitItems_spec (C.req hg hn) hitems
    have gs := groupByFunc_spec fields
    have hent : ∀ p ∈ groupByFunc fields, ∀ x ∈ p.2, FEntry U gn p.1 x := by
      intro p hp x hx
      exact sp.fs _ (gs.mem p.1 p.2 hp x hx)
    obtain ⟨st1, deps, h1, f1, hd, ac1⟩ := sem_scheduleGroups C hsub hok hat hg hgn hn hids gs.ne hent gs.nodup
    have hfname : ∀ f ∈ fields, f.2.1.name = f.2.2.name := by
      intro f hf
      exact GNode.get_name (sp.fs f hf).2.1
    obtain ⟨st2, h2, f2, hc, ac2⟩ := sem_scheduleLinks (links := links)
      (toFunc := dmk (fields.map fun f => (f.2.1.name, f.1))) (toDep := deps) C f1.ok (hat.mono f1) hg hn hids
      (fun x hx => (sp.ls x hx).1) (by
        intro x hx r hr
        obtain ⟨f, hf, hfr⟩ := (sp.ls x hx).2 r hr
        have hfn : f.2.1.name = r := by rw [hfname f hf, hfr]; rfl
        -- the function of the required field
        have hk : dget (dmk (fields.map fun f => (f.2.1.name, f.1))) r = some f.1 := by
          have hmem : r ∈ (fields.map fun f => (f.2.1.name, f.1)).map (·.1) := by
            rw [List.map_map]; exact List.mem_map.2 ⟨f, hf, hfn⟩
          have hsome : (dget (dmk (fields.map fun f => (f.2.1.name, f.1))) r).isSome := by
            rw [dget_isSome_iff]; exact (mem_keys_dmk _ _).2 hmem
          obtain ⟨k, hk⟩ := Option.isSome_iff_exists.1 hsome
          rw [hk]
          rw [dget_dmk] at hk
          have := dget_mem hk
          simp only [List.mem_reverse, List.mem_map, Prod.mk.injEq] at this
          obtain ⟨f', hf', hn', rfl⟩ := this
          have a1 := (sp.fs f hf).2
          have a2 := (sp.fs f' hf').2
          have e : f'.2.2.name = f.2.2.name := by rw [← hfname f' hf', ← hfname f hf, hn', hfn]
          rw [e, a1.1] at a2
          have := Option.some.inj a2.1
          rw [← a2.2, ← this, a1.2]
        obtain ⟨items, hm, hin⟩ := gs.cover f hf
        obtain ⟨o, src, e1, e2⟩ := hd (f.1, items) hm
        refine ⟨f.1, o, _, hk, e1, e2, ?_⟩
        intro i hi
        exact ⟨rfl, rfl, hi, f.2.2, List.mem_map.2 ⟨f.2, hin, rfl⟩, by rw [hfr]; rfl, by rw [hfr]; rfl⟩)
    obtain ⟨e1, e2⟩ := splitItems_plan D (semSub env.sys D gi) (planSub env.sys env.H D gi) ids (C.req hg hn) hitems hs
    have ac := (ac1.trans ac2).perm (P' := (together gn q.ordered q.fields).flatMap
      (planFields (planSub env.sys env.H D gi) gn ids) ++ planItems D (semSub env.sys D gi) (planSub env.sys env.H D gi) g gn ids q.fields) (by
        rw [e2]
        refine List.Perm.append_right _ ?_
        have ho' : q.ordered = false := by simpa using ho
        simp only [together, ho']
        exact groups_plan _ _ e1 fun f hf => (sp.fs f hf).func)
    refine ⟨st2, by simp only [hs, ok_bind', h1, h2], f1.trans f2, ?_, ac⟩
    intro i hi it hit
    rcases sp.cover it hit with ⟨f, hf, rfl⟩ | ⟨x, hx, rfl⟩
    · obtain ⟨items, hm, hin⟩ := gs.cover f hf
      obtain ⟨o, src, e1, e2⟩ := hd (f.1, items) hm
      exact ⟨_, f2.pendq ⟨o, e2⟩, rfl, rfl, hi, List.mem_map.2 ⟨f.2, hin, rfl⟩⟩
    · exact hc i hi x hx

/-! ### Links -/

theorem sem_processLink (C : Setup env D U) (hsub : SubS env D U n sub) {gl : GLink} {ql : QItem}
    {r : Val} (hok : SOK env D U st) (hat : At st w gi tw) (hg : env.sys.graphs[gi]? = some g)
    (hgn : gi ≤ n) (hn : IsNode g gn) (hids : IdsOk D gi gn ids) (hli : LItem U g gn gl ql)
    (hr : LinkValues gn gl ids r
      ((identsOf ids).map fun i => semLink D (semSub env.sys D gi) gn i gl ql.options)) :
    ∃ st', processLink env sub w gn gl ql ids r st = .ok st' ∧ SFrame env D U st st' ∧
      (∀ i ∈ identsOf ids, Cov env D st' (PendQ st') w gi g gn i ql) ∧
      Acct env D st st' (planAfter D (semSub env.sys D gi) (planSub env.sys env.H D gi) g gn ids gl ql) := by
  obtain ⟨nm, q, o, a, t, rfl, hu, hget, ht, hnq⟩ := hli
  obtain ⟨wf, hw, rfl, hwt, hl⟩ := hat
  have hidne : identsOf ids ≠ [] := by
    cases ids with
    | none => simp [identsOf]
    | some l =>
      have := hids.ne
      simp only [identsOf, Option.getD_some]
      intro e; exact this (by rw [e])
  simp only [QItem.options] at hr
  have hval : ∀ i ∈ identsOf ids,
      ValueShape gl.typeEnum (semLink D (semSub env.sys D wf.graph) gn i gl o) ∧
      (gl.typeEnum = .one → semLink D (semSub env.sys D wf.graph) gn i gl o ≠ .nothing) ∧
      ∀ x ∈ targets gl.typeEnum (semLink D (semSub env.sys D wf.graph) gn i gl o), D.obj wf.graph gl.node x :=
    fun i hi => C.conf.linkValue wf.graph g gn nm gl o i _ hg hn hget hu (hids.ok i hi) rfl
  have hshape : ∀ v ∈ (identsOf ids).map (fun i => semLink D (semSub env.sys D wf.graph) gn i gl o),
      ValueShape gl.typeEnum v ∧ (gl.typeEnum = .one → v ≠ .nothing) := by
    intro v hv
    obtain ⟨i, hi, rfl⟩ := List.mem_map.1 hv
    exact ⟨(hval i hi).1, (hval i hi).2.1⟩
  have hstore := (storeLinks_ok_iff (H := env.H) (idx := wf.index) (ql := .link nm q o a) (idx' := _)
    hids.isSome hids.ne).2 ⟨_, hr, hshape, rfl⟩
  obtain ⟨f1, hw1⟩ := sframe_setIndex C.good C.faithful hok hw hg
    (cells := linkCells gn.indexName gl ((QItem.link nm q o a).indexKey env.H)
      ((identsOf ids).zip ((identsOf ids).map fun i => semLink D (semSub env.sys D wf.graph) gn i gl o))) (by
    intro x hx
    simp only [linkCells, List.mem_map] at hx
    obtain ⟨p, hp, rfl⟩ := hx
    rw [List.zip_map_right, List.mem_map] at hp
    obtain ⟨⟨i, i'⟩, hp, rfl⟩ := hp
    have : i = i' := by
      have := List.mem_iff_getElem.1 hp
      obtain ⟨k, hk, e⟩ := this
      rw [List.getElem_zip] at e
      cases e; rfl
    subst this
    refine ⟨gn, i, nm, o, .link gl, hn, hu, hget, rfl, ?_, ?_⟩
    · simp only [Prod.map_snd, cellSem_link hget]
    · intro gf f e; cases e)
  have hto := linkResultToIds_eq hids.isSome hr hshape (by simpa using hidne)
  have hpres : ∀ i ∈ identsOf ids, Present env.H (setIndex w (dupdate wf.index (linkCells gn.indexName gl
      ((QItem.link nm q o a).indexKey env.H) ((identsOf ids).zip ((identsOf ids).map fun i =>
        semLink D (semSub env.sys D wf.graph) gn i gl o)))) st) w gn i nm o := by
    intro i hi
    refine ⟨_, hw1, ?_⟩
    simp only
    rw [dget_isSome_iff, mem_keys_dupdate]
    right
    simp only [linkCells, List.map_map, List.mem_map]
    obtain ⟨k, hk, rfl⟩ := List.mem_iff_getElem.1 hi
    refine ⟨((identsOf ids)[k], semLink D (semSub env.sys D wf.graph) gn (identsOf ids)[k] gl o), ?_, rfl⟩
    rw [List.mem_iff_getElem]
    exact ⟨k, by simpa using hk, by simp⟩
  have ac1 : Acct env D st (setIndex w (dupdate wf.index (linkCells gn.indexName gl
      ((QItem.link nm q o a).indexKey env.H) ((identsOf ids).zip ((identsOf ids).map fun i =>
        semLink D (semSub env.sys D wf.graph) gn i gl o)))) st) [] := Acct.quiet f1.le.sameGraphs rfl rfl
  generalize hstg : setIndex w (dupdate wf.index (linkCells gn.indexName gl
      ((QItem.link nm q o a).indexKey env.H) ((identsOf ids).zip ((identsOf ids).map fun i =>
        semLink D (semSub env.sys D wf.graph) gn i gl o)))) st = st1 at f1 hw1 hpres ac1
  -- the identifiers of the targets
  obtain ⟨toIds, htoeq, htgt, hobj, hlo⟩ : ∃ toIds, linkResultToIds (ids.isSome && gl.requires.isSome) gl.typeEnum r = .ok toIds ∧
      (∀ i ∈ identsOf ids, ∀ x ∈ targets gl.typeEnum (semLink D (semSub env.sys D wf.graph) gn i gl o), x ∈ toIds) ∧
      (∀ x ∈ toIds, D.obj wf.graph gl.node x) ∧
      linkedObjects D (semSub env.sys D wf.graph) gn ids gl o = toIds := by
    refine ⟨_, hto, ?_⟩
    by_cases hb : (ids.isSome && gl.requires.isSome) = true
    · rw [if_pos hb]
      refine ⟨?_, ?_, ?_⟩
      rotate_right
      · have hs2 : gl.requires.isSome := by
          rw [Bool.and_eq_true] at hb; exact hb.2
        obtain ⟨rq, hrq⟩ := Option.isSome_iff_exists.1 hs2
        simp only [linkedObjects, hrq, List.flatMap_map]
      · intro i hi x hx
        exact List.mem_flatMap.2 ⟨_, List.mem_map.2 ⟨i, hi, rfl⟩, hx⟩
      · intro x hx
        obtain ⟨v, hv, hx⟩ := List.mem_flatMap.1 hx
        obtain ⟨i, hi, rfl⟩ := List.mem_map.1 hv
        exact (hval i hi).2.2 x hx
    · rw [if_neg hb]
      have hall : ∀ i ∈ identsOf ids, semLink D (semSub env.sys D wf.graph) gn i gl o = r := by
        unfold LinkValues at hr
        cases hname : gn.name with
        | none =>
          have hi : ids = none := by
            have := hids.isSome; rw [hname] at this; simpa using this
          subst hi
          simp only [hname, identsOf, Option.getD_none, List.map_cons, List.map_nil, List.cons.injEq, and_true] at hr
          intro i hi
          simp only [identsOf, Option.getD_none, List.mem_singleton] at hi
          rw [hi]; exact hr
        | some nn =>
          have hi := hids.isSome
          rw [hname] at hi
          obtain ⟨l, rfl⟩ := Option.isSome_iff_exists.1 hi
          have hnr : gl.requires.isSome = false := by simpa using hb
          simp only [hname, hnr] at hr
          intro i hi
          have := List.mem_map_of_mem (f := fun i => semLink D (semSub env.sys D wf.graph) gn i gl o) hi
          have hr' : (identsOf (some l)).map (fun i => semLink D (semSub env.sys D wf.graph) gn i gl o) =
            List.replicate l.length r := hr
          rw [hr'] at this
          exact List.eq_of_mem_replicate this
      refine ⟨?_, ?_, ?_⟩
      rotate_right
      · cases hrq : gl.requires with
        | none =>
          obtain ⟨i, hi⟩ := List.exists_mem_of_ne_nil _ hidne
          have := hall i hi
          rw [semLink_none hrq] at this
          simp only [linkedObjects, hrq, this]
        | some rq =>
          cases ids with
          | some l => simp [hrq] at hb
          | none =>
            have := hall rootIdent (by simp [identsOf])
            simp only [linkedObjects, hrq, identsOf, Option.getD_none, List.flatMap_cons, List.flatMap_nil,
              List.append_nil, this]
      · intro i hi x hx; rw [hall i hi] at hx; exact hx
      · intro x hx
        obtain ⟨i, hi⟩ := List.exists_mem_of_ne_nil _ hidne
        exact (hval i hi).2.2 x (by rw [hall i hi]; exact hx)
  by_cases he : toIds = []
  · refine ⟨st1, ?_, f1, ?_, ?_⟩
    rotate_right
    · simp only [planAfter, hlo, he]
      exact ac1
    · simp only [processLink, hw, hstore, ok_bind', htoeq, hstg, he]; rfl
    · intro i hi
      refine .link gl t (hpres i hi) hget ht ?_
      intro x hx
      have := htgt i hi x hx
      rw [he] at this; simp at this
  · have htn := Graph.node_name ht
    have hids2 : IdsOk D wf.graph t (some toIds) := by
      refine ⟨by simp [htn], by simpa using he, ?_⟩
      intro x hx
      simp only [IdentOk, htn]
      exact hobj x hx
    obtain ⟨st2, h2, f2, hc, ac2⟩ := sem_processNode C hsub f1.ok (w := w) (gi := wf.graph) (tw := tw)
      (At.mono f1 ⟨wf, hw, rfl, hwt, hl⟩) hg hgn (isNode_of_node ht) hids2 hnq
    refine ⟨st2, ?_, f1.trans f2, ?_, ?_⟩
    rotate_right
    · have hne : toIds.isEmpty = false := by simpa using he
      simp only [planAfter, hlo, hne, ht]
      exact ac1.trans ac2
    · have hne : toIds.isEmpty = false := by simpa using he
      simp only [processLink, hw, hstore, ok_bind', htoeq, hstg, hne, hg, ht]
      exact h2
    · intro i hi
      refine .link gl t ((hpres i hi).mono f2.le) hget ht ?_
      intro x hx it hit
      obtain ⟨cb, h3, h4⟩ := hc x (htgt i hi x hx) it hit
      exact .pend cb h3 h4

end Hiku
