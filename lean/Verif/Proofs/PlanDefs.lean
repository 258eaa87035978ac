import Verif.Proofs.SemDefs
import Verif.Proofs.Queue
import Verif.Spec.Plan

/-! Accounting of calls: the calls which are made and the calls which the registered callbacks will make. -/

namespace Hiku

section
variable (D : Data) (sub : SubSem) (subp : SubPlan) (g : Graph) (gn : GNode) (ids : Option (List Val))

/-- the calls for the objects behind a link -/
def planAfter (gl : GLink) : QItem → List FCall
  | .field .. => []
  | .link _ q o _ =>
      if (linkedObjects D sub gn ids gl o).isEmpty then []
      else
        match g.node gl.node with
        | some t => planNode D sub subp g t (some (linkedObjects D sub gn ids gl o)) q
        | none => []

/-- the calls for a link -/
def planLinked (gl : GLink) (ql : QItem) : List FCall :=
  planLink D sub gn ids gl ql.options :: planAfter D sub subp g gn ids gl ql

/-- the calls of a step of an ordered node -/
def planStep : Step → List FCall
  | .fields _ items => planFields subp gn ids (items.map (·.2))
  | .link gl ql => planLinked D sub subp g gn ids gl ql

end

variable (env : Env) (D : Data)

/-- the calls which a callback will make, in a workflow of the graph number `gi` -/
def cbPlanIn (gi : Nat) (g : Graph) : CB → List FCall
  | .store .. => []
  | .schedLink _ gn gl ql ids =>
      planLinked D (semSub env.sys D gi) (planSub env.sys env.H D gi) g gn ids gl ql
  | .procLink _ gn gl ql ids _ =>
      planAfter D (semSub env.sys D gi) (planSub env.sys env.H D gi) g gn ids gl ql
  | .procSteps _ gn ids steps =>
      steps.flatMap (planStep D (semSub env.sys D gi) (planSub env.sys env.H D gi) g gn ids)

/-- the calls which a callback will make -/
def cbPlan (wfs : List Wf) (cb : CB) : List FCall :=
  match wfs[cb.wf]? with
  | none => []
  | some wf =>
      match env.sys.graphs[wf.graph]? with
      | none => []
      | some g => cbPlanIn env D wf.graph g cb

/-- the calls which are made, and which the registered callbacks will make -/
def planOf (st : St) : List FCall :=
  callsOf st.log ++ st.q.regs.flatMap fun p => cbPlan env D st.wfs p.2

/-- callbacks belong to workflows -/
def OwnedCB (st : St) : Prop := ∀ o cb, (o, cb) ∈ st.q.regs → ∃ wf, st.wfs[cb.wf]? = some wf

/-- the step adds the calls `P` -/
def Acct (st st' : St) (P : List FCall) : Prop :=
  OwnedCB st → OwnedCB st' ∧ (planOf env D st').Perm (planOf env D st ++ P)

variable {env D} {st st' st'' : St} {P P' : List FCall}

theorem Acct.refl (st : St) : Acct env D st st [] := fun h => ⟨h, by simp⟩

theorem Acct.trans (h : Acct env D st st' P) (h' : Acct env D st' st'' P') : Acct env D st st'' (P ++ P') := by
  intro ho
  obtain ⟨h1, h2⟩ := h ho
  obtain ⟨h3, h4⟩ := h' h1
  refine ⟨h3, h4.trans ?_⟩
  rw [← List.append_assoc]
  exact h2.append_right _

theorem Acct.perm (h : Acct env D st st' P) (hp : P.Perm P') : Acct env D st st' P' := by
  intro ho
  obtain ⟨h1, h2⟩ := h ho
  exact ⟨h1, h2.trans (hp.append_left _)⟩

theorem callsOf_append (l l' : List Ev) : callsOf (l ++ l') = callsOf l ++ callsOf l' := by
  simp [callsOf]

/-- the graphs of the workflows do not change -/
def SameGraphs (st st' : St) : Prop :=
  ∀ (j : Nat) (wf : Wf), st.wfs[j]? = some wf → ∃ wf', st'.wfs[j]? = some wf' ∧ wf'.graph = wf.graph

theorem Le.sameGraphs (h : Le st st') : SameGraphs st st' := by
  intro j wf hj
  obtain ⟨wf', h1, h2, _⟩ := h.wfs j wf hj
  exact ⟨wf', h1, h2⟩

theorem cbPlan_same (h : SameGraphs st st') {cb : CB} (ho : ∃ wf, st.wfs[cb.wf]? = some wf) :
    cbPlan env D st'.wfs cb = cbPlan env D st.wfs cb := by
  obtain ⟨wf, hw⟩ := ho
  obtain ⟨wf', h1, h2⟩ := h _ _ hw
  simp only [cbPlan, hw, h1, h2]

theorem flatMap_congr_mem {α β : Type _} {l : List α} {f f' : α → List β} (h : ∀ x ∈ l, f x = f' x) :
    l.flatMap f = l.flatMap f' := by
  induction l with
  | nil => rfl
  | cons x r ih =>
    simp only [List.flatMap_cons, h x (by simp), ih fun y hy => h y (by simp [hy])]

/-- a step which registers nothing and calls nothing -/
theorem Acct.quiet (hs : SameGraphs st st') (hc : st'.q.callbacks = st.q.callbacks)
    (hl : callsOf st'.log = callsOf st.log) : Acct env D st st' [] := by
  intro ho
  have hr : st'.q.regs = st.q.regs := by simp only [Queue.regs, hc]
  refine ⟨?_, ?_⟩
  · intro o cb hm
    rw [hr] at hm
    obtain ⟨wf, hw⟩ := ho o cb hm
    obtain ⟨wf', h1, _⟩ := hs _ _ hw
    exact ⟨wf', h1⟩
  · rw [List.append_nil, planOf, planOf, hr, hl, flatMap_congr_mem]
    rintro ⟨o, cb⟩ hm
    exact cbPlan_same hs (ho o cb hm)

/-- a call -/
theorem Acct.call (hw : st'.wfs = st.wfs) (hc : st'.q.callbacks = st.q.callbacks) {s : Submit}
    (hl : st'.log = st.log ++ [.call s]) : Acct env D st st' [(s.func, s.args)] := by
  intro ho
  have hr : st'.q.regs = st.q.regs := by simp only [Queue.regs, hc]
  refine ⟨?_, ?_⟩
  · intro o cb hm
    rw [hr] at hm
    rw [hw]; exact ho o cb hm
  · rw [planOf, planOf, hr, hl, hw, callsOf_append, List.append_assoc, List.append_assoc]
    exact List.perm_append_comm.append_left _

/-- registration of a callback -/
theorem Acct.addCB {o : Obj} {cb : CB} (hw : ∃ wf, st.wfs[cb.wf]? = some wf) :
    Acct env D st (Hiku.addCB o cb st) (cbPlan env D st.wfs cb) := by
  intro ho
  have hr : (Hiku.addCB o cb st).q.regs.Perm (st.q.regs ++ [(o, cb)]) := Queue.regs_addCallback _ _ _
  refine ⟨?_, ?_⟩
  · intro o' cb' hm
    rcases List.mem_append.1 ((hr.mem_iff).1 hm) with hm | hm
    · exact ho o' cb' hm
    · simp only [List.mem_singleton, Prod.mk.injEq] at hm
      rw [hm.2]; exact hw
  · show (callsOf st.log ++ _).Perm _
    rw [planOf, List.append_assoc]
    refine List.Perm.append_left _ ?_
    refine (hr.flatMap_right _).trans ?_
    simp [List.flatMap_append, Hiku.addCB]

theorem cbPlan_eq {wf : Wf} {g : Graph} {cb : CB} {wfs : List Wf} (hw : wfs[cb.wf]? = some wf)
    (hg : env.sys.graphs[wf.graph]? = some g) : cbPlan env D wfs cb = cbPlanIn env D wf.graph g cb := by
  simp only [cbPlan, hw, hg]

end Hiku
