import Verif.Proofs.Latency

/-! Scheduling keeps the deadlines. -/

namespace Hiku
namespace Lat

/-- the time of the requirements of several fields in the sub-graph `s` -/
def reqsTime (env : Env) (wt : PFunc → Nat) (s : SubGraph) (reqs : List QNode) : Nat :=
  match env.sys.graphs[s.graph]? with
  | none => 0
  | some g =>
      max
        (match g.node s.node, dget (merge env.H reqs).fieldsMap THIS with
         | some t, some (.link _ q _ _) => nodeTime wt (subTime env.sys env.H wt s.graph) g t q
         | _, _ => 0)
        (nodeTime wt (subTime env.sys env.H wt s.graph) g g.root
          (.mk ((merge env.H reqs).fields.filter fun r => r.name ≠ THIS) false))

theorem subTime_eq {env : Env} {wt : PFunc → Nat} {gi sg : Nat} {s : SubGraph} (hs : env.sys.subs[sg]? = some s)
    (hlt : s.graph < gi) (reqs : List QNode) :
    subTime env.sys env.H wt gi sg reqs = reqsTime env wt s reqs := by
  rw [subTime]
  simp only [hs, hlt, dif_pos, reqsTime]
  cases hh : env.sys.graphs[s.graph]? with
  | none => simp [hh]
  | some g =>
    simp only [hh]
    congr 1

/-- sub-graph calls on graphs numbered below `n` keep the deadlines -/
def SubL (env : Env) (wt : PFunc → Nat) (n : Nat) (sub : SubCall) : Prop :=
  ∀ sg s, env.sys.subs[sg]? = some s → s.graph < n →
    ∀ gn items ids dep st st' src now Lim due, st.q.Inv st.results.length → (dget st.q.futures dep).isSome →
      LI env wt now Lim due st → (∀ x ∈ items, gn.get x.2.name = some x.1) →
      now + reqsTime env wt s ((items.map (·.2)).filterMap (requirements gn)) ≤ Lim dep →
      sub sg items ids dep st = .ok (st', src) →
      ∃ Lim' due', Ext st Lim due Lim' due' ∧ LI env wt now Lim' due' st'

section
variable {env : Env} {wt : PFunc → Nat} {now : Nat} {Lim due : Nat → Nat} {st st' : St}
variable {w tw : Nat} {wf : Wf} {g : Graph} {gn : GNode} {sub : SubCall} {n : Nat}

theorem groupOK_sub {gi sg : Nat} (hsd : SubsDecrease env) (hg : env.sys.graphs[gi]? = some g) (hn : IsNode g gn)
    {items : List (GItem × QItem)} (h : GroupOK gn (.sub sg) items) :
    ∃ s, env.sys.subs[sg]? = some s ∧ s.graph < gi := by
  obtain ⟨s, h1, h2, _⟩ := itemsCost_sub (a := 0) (b := 0) hsd hg hn h
  exact ⟨s, h1, h2⟩

theorem LI.scheduleFields (hsd : SubsDecrease env) (hsub : SubFrame env 0 0 n sub) (hsl : SubL env wt n sub)
    {k : FKey} {items : List (GItem × QItem)} {ids : Option (List Val)} {o : Obj}
    (hL : LI env wt now Lim due st)
    (hi : st.q.Inv st.results.length) (hw : st.wfs[w]? = some wf) (ht : wf.ts = tw)
    (hl : (dget st.q.futures tw).isSome) (hg : env.sys.graphs[wf.graph]? = some g)
    (hgn : wf.graph ≤ n) (hn : IsNode g gn) (hit : GroupOK gn k items)
    (hb : now + groupTime wt (subTime env.sys env.H wt wf.graph) gn k items ≤ Lim tw)
    (h : scheduleFields env sub w gn k items ids st = .ok (st', o)) :
    ∃ Lim' due', Ext st Lim due Lim' due' ∧ LI env wt now Lim' due' st' ∧ Old st' o ∧
      limObj Lim' due' o = now + groupTime wt (subTime env.sys env.H wt wf.graph) gn k items := by
  unfold Hiku.scheduleFields at h
  cases k with
  | sub sg =>
    simp only at h
    split at h
    · simp at h
    · rename_i ids'
      simp only [hw, bind_ok_iff] at h
      obtain ⟨⟨q', dep⟩, hfork, ⟨st1, src⟩, hs, h⟩ := h
      rw [ht] at hfork
      simp at h
      obtain ⟨rfl, rfl⟩ := h
      obtain ⟨s, hsg, hlt⟩ := groupOK_sub hsd hg hn hit
      have hX : groupTime wt (subTime env.sys env.H wt wf.graph) gn (.sub sg) items =
          reqsTime env wt s ((items.map (·.2)).filterMap (requirements gn)) := by
        simp only [groupTime, callTime, subTime_eq hsg hlt]
      rw [hX] at hb ⊢
      obtain ⟨f1, hdep, hq', hdl, hdk⟩ := frame_fork (env := env) (a := 0) (b := 0) (nf0 := 0) (nt0 := 0) hi hl
        (Nat.zero_le _) hfork
      obtain ⟨L1, x1, l1, e1⟩ := hL.fork hi hl hfork (Nat.le_add_right _ _) hb
      obtain ⟨new, f2⟩ := hsub sg s hsg (by omega) items ids' dep _ st1 src 0 0 f1.inv hdl
        (Nat.zero_le _) (Nat.zero_le _) (Nat.zero_le _) hs
      obtain ⟨L2, d2, x2, l2⟩ := hsl sg s hsg (by omega) gn items ids' dep _ st1 src now L1 due f1.inv hdl l1
        (fun x hx => (hit.2 x hx).1) (by rw [e1]) hs
      have f3 := f1.trans (f2.inner (tw := tw) (Nat.zero_le _))
      obtain ⟨wf', hw', e3, e4, e5⟩ := f3.wfAt hw
      have hdlt : dep < q'.nextTs := by omega
      have hnt2 := f2.nts
      have hLd : L2 dep = now + reqsTime env wt s ((items.map (·.2)).filterMap (requirements gn)) := by
        rw [x2.ts dep hdlt, e1]
      have htw : tw < st.q.nextTs := ht ▸ hL.wfs _ _ hw
      have hLt : L2 tw = Lim tw := by
        rw [x2.ts tw (by simp only [hq']; omega), x1.ts tw htw]
      have hold : Old st1 (.ts dep) := by simp only [Old]; exact Nat.lt_of_lt_of_le hdlt hnt2
      refine ⟨L2, d2, x1.trans x2 (Nat.le_refl _) (by simp [hq']), ?_, hold, hLd⟩
      refine l2.addCB hold ?_ hw' ?_
      · simp only [limObj, hLd]; exact Nat.le_add_right _ _
      · have : cbTimeG env wt wf'.graph (.store w gn (items.map (·.2)) (some ids') src) = 0 := by
          simp only [cbTimeG]; split <;> rfl
        rw [this, e5, ht, hLt]
        simp only [limObj, hLd]
        exact hb
  | plain f =>
    simp only [bind_ok_iff] at h
    obtain ⟨⟨st1, fut⟩, hs, h⟩ := h
    simp at h
    obtain ⟨rfl, rfl⟩ := h
    have hX : groupTime wt (subTime env.sys env.H wt wf.graph) gn (.plain f) items = wt f := rfl
    rw [hX] at hb ⊢
    obtain ⟨f1, hfut, hwfs, hres, hin⟩ :=
      frame_submit (env := env) (a := 0) (b := 0) (nf0 := 0) (nt0 := 0) hi hw ht hs
    obtain ⟨d1, x1, l1, e1, e2⟩ := hL.submit hi hw ht hb hs
    have hw1 : st1.wfs[w]? = some wf := by rw [hwfs]; exact hw
    refine ⟨Lim, d1, x1, ?_, e2, e1⟩
    refine l1.addCB e2 ?_ hw1 ?_
    · simp only [limObj, e1]; exact Nat.le_add_right _ _
    · have : cbTimeG env wt wf.graph (.store w gn (items.map (·.2)) ids (.fut fut)) = 0 := by
        simp only [cbTimeG]; split <;> rfl
      rw [this, ht]
      simp only [limObj, e1]
      exact hb

theorem LI.scheduleLink {gl : GLink} {ql : QItem} {ids : Option (List Val)} {o : Obj}
    (hL : LI env wt now Lim due st)
    (hi : st.q.Inv st.results.length) (hw : st.wfs[w]? = some wf) (ht : wf.ts = tw)
    (hg : env.sys.graphs[wf.graph]? = some g)
    (hb : now + (wt gl.func + childTime wt (subTime env.sys env.H wt wf.graph) g gl ql) ≤ Lim tw)
    (h : scheduleLink env w gn gl ql ids st = .ok (st', o)) :
    ∃ Lim' due', Ext st Lim due Lim' due' ∧ LI env wt now Lim' due' st' ∧ Old st' o ∧
      limObj Lim' due' o = now + wt gl.func := by
  simp only [Hiku.scheduleLink, hw, bind_ok_iff] at h
  obtain ⟨reqArgs, _, ⟨st1, fut⟩, hs, h⟩ := h
  simp at h
  obtain ⟨rfl, rfl⟩ := h
  obtain ⟨f1, hfut, hwfs, hres, hin⟩ :=
    frame_submit (env := env) (a := 0) (b := 0) (nf0 := 0) (nt0 := 0) hi hw ht hs
  obtain ⟨d1, x1, l1, e1, e2⟩ := hL.submit hi hw ht (by omega) hs
  have hw1 : st1.wfs[w]? = some wf := by rw [hwfs]; exact hw
  refine ⟨Lim, d1, x1, ?_, e2, e1⟩
  refine l1.addCB e2 ?_ hw1 ?_
  · simp only [limObj, e1]; exact Nat.le_add_right _ _
  · have : cbTimeG env wt wf.graph (.procLink w gn gl ql ids fut) =
        childTime wt (subTime env.sys env.H wt wf.graph) g gl ql := by simp only [cbTimeG, hg]
    rw [this, ht]
    simp only [limObj, e1]
    omega

theorem LI.runSteps (hsd : SubsDecrease env) (hsub : SubFrame env 0 0 n sub) (hsl : SubL env wt n sub)
    {steps : List Step} {ids : Option (List Val)} (hL : LI env wt now Lim due st)
    (hi : st.q.Inv st.results.length) (hw : st.wfs[w]? = some wf) (ht : wf.ts = tw)
    (hl : (dget st.q.futures tw).isSome) (hg : env.sys.graphs[wf.graph]? = some g)
    (hgn : wf.graph ≤ n) (hn : IsNode g gn) (hst : ∀ s ∈ steps, StepOK gn s)
    (hb : now + stepsTime wt (subTime env.sys env.H wt wf.graph) g gn steps ≤ Lim tw)
    (h : runSteps env sub w gn ids steps st = .ok st') :
    ∃ Lim' due', Ext st Lim due Lim' due' ∧ LI env wt now Lim' due' st' := by
  cases steps with
  | nil => simp [Hiku.runSteps] at h; subst h; exact ⟨Lim, due, .refl, hL⟩
  | cons step rest =>
    simp only [Hiku.runSteps, bind_ok_iff] at h
    obtain ⟨⟨st1, o⟩, hs, h⟩ := h
    simp at h
    simp only [stepsTime] at hb
    have htw : tw < st.q.nextTs := ht ▸ hL.wfs _ _ hw
    have key : ∃ Lim' due', Ext st Lim due Lim' due' ∧ LI env wt now Lim' due' st1 ∧ Old st1 o ∧
        limObj Lim' due' o = now + stepDep wt (subTime env.sys env.H wt wf.graph) gn step ∧
        ∃ wf', st1.wfs[w]? = some wf' ∧ wf'.graph = wf.graph ∧ wf'.query = wf.query ∧ wf'.ts = wf.ts := by
      cases step with
      | fields k items =>
        obtain ⟨⟨_, f1⟩, _⟩ := frame_scheduleFields (nf0 := 0) (nt0 := 0) hsd hsub hi hw ht hl hg hgn hn (hst (.fields k items) (by simp))
          (Nat.zero_le _) (Nat.zero_le _) hs
        obtain ⟨L1, d1, x1, l1, o1, e1⟩ := hL.scheduleFields hsd hsub hsl hi hw ht hl hg hgn hn
          (hst (.fields k items) (by simp)) (by simp only [stepOwn] at hb; omega) hs
        exact ⟨L1, d1, x1, l1, o1, e1, f1.wfAt hw⟩
      | link gl ql =>
        obtain ⟨⟨_, f1⟩, _⟩ := frame_scheduleLink (a := 0) (b := 0) (nf0 := 0) (nt0 := 0) hi hw ht hg (Nat.zero_le _) hs
        obtain ⟨L1, d1, x1, l1, o1, e1⟩ := hL.scheduleLink hi hw ht hg (by simp only [stepOwn] at hb; omega) hs
        exact ⟨L1, d1, x1, l1, o1, e1, f1.wfAt hw⟩
    obtain ⟨L1, d1, x1, l1, o1, e1, wf', hw', g1, g2, g3⟩ := key
    split at h
    · subst h; exact ⟨L1, d1, x1, l1⟩
    · subst h
      refine ⟨L1, d1, x1, l1.addCB o1 (by rw [e1]; exact Nat.le_add_right _ _) hw' ?_⟩
      have : cbTimeG env wt wf'.graph (.procSteps w gn ids rest) =
          stepsTime wt (subTime env.sys env.H wt wf.graph) g gn rest := by simp only [cbTimeG, g1, hg]
      rw [this, e1, g3, ht, x1.ts tw htw]
      omega

theorem LI.scheduleGroups (hsd : SubsDecrease env) (hsub : SubFrame env 0 0 n sub) (hsl : SubL env wt n sub)
    {groups : List (FKey × List (GItem × QItem))} {ids : Option (List Val)} {deps : List (FKey × Obj)}
    (hL : LI env wt now Lim due st)
    (hi : st.q.Inv st.results.length) (hw : st.wfs[w]? = some wf) (ht : wf.ts = tw)
    (hl : (dget st.q.futures tw).isSome) (hg : env.sys.graphs[wf.graph]? = some g)
    (hgn : wf.graph ≤ n) (hn : IsNode g gn) (hit : ∀ x ∈ groups, GroupOK gn x.1 x.2)
    (hb : ∀ x ∈ groups, now + groupTime wt (subTime env.sys env.H wt wf.graph) gn x.1 x.2 ≤ Lim tw)
    (h : scheduleGroups env sub w gn ids groups st = .ok (st', deps)) :
    ∃ Lim' due', Ext st Lim due Lim' due' ∧ LI env wt now Lim' due' st' ∧
      ∀ x ∈ deps, Old st' x.2 ∧ ∃ items, (x.1, items) ∈ groups ∧
        limObj Lim' due' x.2 = now + groupTime wt (subTime env.sys env.H wt wf.graph) gn x.1 items := by
  induction groups generalizing st wf deps Lim due with
  | nil =>
    simp [Hiku.scheduleGroups] at h
    obtain ⟨rfl, rfl⟩ := h
    exact ⟨Lim, due, .refl, hL, by simp⟩
  | cons x r ih =>
    obtain ⟨k, items⟩ := x
    simp only [Hiku.scheduleGroups, bind_ok_iff] at h
    obtain ⟨⟨st1, o⟩, hs, ⟨st2, deps'⟩, hr, h⟩ := h
    simp at h
    obtain ⟨rfl, rfl⟩ := h
    obtain ⟨⟨n1, f1⟩, hfr, hwt⟩ :=
      frame_scheduleFields (nf0 := 0) (nt0 := 0) hsd hsub hi hw ht hl hg hgn hn (hit (k, items) (by simp)) (Nat.zero_le _) (Nat.zero_le _) hs
    obtain ⟨L1, d1, x1, l1, o1, e1⟩ := hL.scheduleFields hsd hsub hsl hi hw ht hl hg hgn hn
      (hit (k, items) (by simp)) (hb (k, items) (by simp)) hs
    obtain ⟨wf', hw', g1, g2, g3⟩ := f1.wfAt hw
    have htw : tw < st.q.nextTs := ht ▸ hL.wfs _ _ hw
    obtain ⟨⟨n2, f2⟩, _⟩ := frame_scheduleGroups (nf0 := 0) (nt0 := 0) hsd hsub (wf := wf') f1.inv hw' (by rw [g3]; exact ht) (f1.isLive hl)
      (by rw [g1]; exact hg) (by omega) hn (fun x hx => hit x (by simp [hx])) (Nat.zero_le _) (Nat.zero_le _) hr
    obtain ⟨L2, d2, x2, l2, h2⟩ := ih (wf := wf') l1 f1.inv hw' (by rw [g3]; exact ht) (f1.isLive hl)
      (by rw [g1]; exact hg) (by omega) (fun x hx => hit x (by simp [hx]))
      (by rw [g1, x1.ts tw htw]; exact fun x hx => hb x (by simp [hx])) hr
    rw [g1] at h2
    refine ⟨L2, d2, x1.trans x2 f1.results_le f1.nts, l2, ?_⟩
    intro y hy
    rcases List.mem_cons.1 hy with rfl | hy
    · exact ⟨o1.mono f2.results_le f2.nts, items, by simp, by rw [x2.obj o1, e1]⟩
    · obtain ⟨y1, its, y2, y3⟩ := h2 y hy
      exact ⟨y1, its, by simp [y2], y3⟩

theorem LI.scheduleLinks {links : List (GLink × QItem)} {ids : Option (List Val)}
    {toFunc : List (String × FKey)} {toDep : List (FKey × Obj)}
    (hL : LI env wt now Lim due st)
    (hi : st.q.Inv st.results.length) (hw : st.wfs[w]? = some wf) (ht : wf.ts = tw)
    (hg : env.sys.graphs[wf.graph]? = some g)
    (hd : ∀ x ∈ toDep, Waits st tw x.2 ∧ Old st x.2 ∧ now ≤ limObj Lim due x.2)
    (hb : ∀ x ∈ links, if x.1.reqTruthy then
        ∀ k o, dget toFunc (x.1.requires.getD "") = some k → dget toDep k = some o →
          limObj Lim due o + (wt x.1.func + childTime wt (subTime env.sys env.H wt wf.graph) g x.1 x.2) ≤ Lim tw
      else now + (wt x.1.func + childTime wt (subTime env.sys env.H wt wf.graph) g x.1 x.2) ≤ Lim tw)
    (h : scheduleLinks env w gn ids toFunc toDep links st = .ok st') :
    ∃ Lim' due', Ext st Lim due Lim' due' ∧ LI env wt now Lim' due' st' := by
  induction links generalizing st wf Lim due with
  | nil => simp [Hiku.scheduleLinks] at h; subst h; exact ⟨Lim, due, .refl, hL⟩
  | cons x r ih =>
    obtain ⟨gl, ql⟩ := x
    have htw : tw < st.q.nextTs := ht ▸ hL.wfs _ _ hw
    have hb1 := hb (gl, ql) (by simp)
    simp only [Hiku.scheduleLinks] at h
    split at h
    · rename_i hrt
      simp only [hrt, if_true] at hb1
      split at h
      · simp at h
      · rename_i k hk
        split at h
        · simp at h
        · rename_i o ho
          obtain ⟨hwt, hol, hno⟩ : Waits st tw o ∧ Old st o ∧ now ≤ limObj Lim due o := hd _ (dget_mem ho)
          have hbo := hb1 k o hk ho
          have hloc : Loc env st o (.schedLink w gn gl ql ids) := ⟨wf, hw, ⟨g, hg, trivial⟩, by rw [ht]; exact hwt⟩
          have f1 := frame_addCB (env := env) (a := 0) (b := 0) (tw := tw) (nf0 := 0) (nt0 := 0)
            hi (by cases o <;> exact Nat.zero_le _) hloc
          have l1 := hL.addCB (cb := .schedLink w gn gl ql ids) hol hno hw (by
            have : cbTimeG env wt wf.graph (.schedLink w gn gl ql ids) =
              wt gl.func + childTime wt (subTime env.sys env.H wt wf.graph) g gl ql := by simp only [cbTimeG, hg]
            rw [this, ht]; exact hbo)
          obtain ⟨L2, d2, x2, l2⟩ := ih (st := Hiku.addCB o (.schedLink w gn gl ql ids) st) (wf := wf) l1 f1.inv hw ht hg (fun y hy => ⟨(hd y hy).1.frame f1, (hd y hy).2.1, (hd y hy).2.2⟩)
            (fun y hy => hb y (by simp [hy])) h
          exact ⟨L2, d2, ⟨x2.ts, x2.fut, x2.le⟩, l2⟩
    · rename_i hrt
      simp only [hrt, if_false] at hb1
      simp only [bind_ok_iff] at h
      obtain ⟨⟨st1, o⟩, hs, h⟩ := h
      obtain ⟨⟨n1, f1⟩, _, _⟩ := frame_scheduleLink (a := 0) (b := 0) (nf0 := 0) (nt0 := 0) hi hw ht hg (Nat.zero_le _) hs
      obtain ⟨wf', hw', g1, g2, g3⟩ := f1.wfAt hw
      obtain ⟨L1, d1, x1, l1, o1, e1⟩ := hL.scheduleLink hi hw ht hg hb1 hs
      obtain ⟨L2, d2, x2, l2⟩ := ih (wf := wf') l1 f1.inv hw' (by rw [g3]; exact ht) (by rw [g1]; exact hg)
        (fun y hy => ⟨(hd y hy).1.frame f1, (hd y hy).2.1.mono f1.results_le f1.nts, by
          rw [x1.obj (hd y hy).2.1]; exact (hd y hy).2.2⟩)
        (by
          intro y hy
          have := hb y (by simp [hy])
          rw [g1, x1.ts tw htw]
          split
          · rename_i hy'
            rw [if_pos hy'] at this
            intro k o hk ho
            rw [x1.obj (hd _ (dget_mem ho)).2.1]
            exact this k o hk ho
          · rename_i hy'
            rw [if_neg hy'] at this
            exact this) h
      exact ⟨L2, d2, x1.trans x2 f1.results_le f1.nts, l2⟩

end

end Lat
end Hiku
