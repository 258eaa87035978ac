import Verif.Proofs.SemRun

/-! The semantic invariant of the executor loop. -/

namespace Hiku

/-- callbacks which are registered or about to be run -/
def Pend (st : St) (run : List CB) (cb : CB) : Prop := cb ∈ run ∨ PendQ st cb

/-- the items of the query are loaded or will be loaded -/
def Top (env : Env) (D : Data) (gi : Nat) (q : QNode) (st : St) (pend : CB → Prop) : Prop :=
  ∃ (wf : Wf) (g : Graph), st.wfs[0]? = some wf ∧ wf.graph = gi ∧ wf.query = q ∧
    env.sys.graphs[gi]? = some g ∧ ∀ it ∈ q.fields, Cov env D st pend 0 gi g g.root rootIdent it

structure SInv (env : Env) (D : Data) (U : String → Opts → Prop) (gi : Nat) (q : QNode) (B : List Nat)
    (run : List CB) (st : St) : Prop where
  ok : SOK env D U st
  regs : ∀ o cb, cb ∈ st.q.cbs o → CBOk env D U st (Pend st run) cb ∧ CBLoc st o cb
  runs : ∀ cb ∈ run, CBOk env D U st (Pend st run) cb ∧ RunLoc st B cb
  ready : ∀ o, Ready env st (st.q.cbs o)
  readyRun : Ready env st run
  top : Top env D gi q st (Pend st run)
  calls : CallsOk env D U st.log
  plan : (planOf env D st ++ run.flatMap (cbPlan env D st.wfs)).Perm (planQuery env.sys env.H D gi q)

section
variable {env : Env} {D : Data} {U : String → Opts → Prop} {gi : Nat} {q : QNode} {B : List Nat}
  {run : List CB} {st st' : St} {Dn : List Obj} {R K A Cb : Nat}

theorem Ready.tail {cb : CB} {l : List CB} (h : Ready env st (cb :: l)) (hle : Le st st')
    (hp : ∀ w gn i r, Provides w gn i r cb → Present env.H st' w gn i r none) : Ready env st' l := by
  intro pre c post he w gn i r hn
  rcases h (cb :: pre) c post (by rw [he]; rfl) w gn i r hn with h | ⟨c', h1, h2⟩
  · exact .inl (h.mono hle)
  · rcases List.mem_cons.1 h1 with rfl | h1
    · exact .inl (hp w gn i r h2)
    · exact .inr ⟨c', h1, h2⟩

theorem SInv.step (C : Setup env D U) {cb : CB} (hDB : Dn = [] ∨ B = [])
    (he : EInv env Dn B (cb :: run) R K A Cb st) (h : SInv env D U gi q B (cb :: run) st) :
    ∃ st', runCB env cb st = .ok st' ∧ SInv env D U gi q B run st' ∧ Le st st' := by
  obtain ⟨wf, hw, hsc, hl, hB⟩ := he.owned cb (by simp)
  obtain ⟨hcb, hloc⟩ := h.runs cb (by simp)
  obtain ⟨g, hg⟩ : ∃ g, env.sys.graphs[wf.graph]? = some g := by
    obtain ⟨g, hg, _⟩ := hsc
    exact ⟨g, hg⟩
  obtain ⟨st1, h1, f1, hgoal, hprov, ac⟩ := sem_runCB C h.ok hcb hw hg hl hloc (by
    intro w gn i r hn
    rcases h.readyRun [] cb run rfl w gn i r hn with h | ⟨c, hc, _⟩
    · exact h
    · simp at hc) (by
    intro w' wf' hw' hB' c hc hcw
    have hne : B ≠ [] := by intro e; rw [e] at hB'; simp at hB'
    rcases hc with hc | ⟨o, hc⟩
    · obtain ⟨wf1, e1, _, _, e4⟩ := he.owned c hc
      rw [hcw, hw'] at e1; cases e1
      exact e4 hB'
    · obtain ⟨_, e2⟩ := he.loc o c ((Queue.mem_regs he.inv.cnd).2 hc)
      obtain ⟨c1, c2⟩ := he.comp _ hB'
      rcases e2 with ⟨wf1, e1, e2⟩ | e2
      · rw [hcw, hw'] at e1; cases e1
        cases o with
        | fut f => obtain ⟨s, x1, x2⟩ := e2; rw [c1] at x1; cases x1; simp at x2
        | ts x => obtain ⟨s, x1, x2⟩ := e2; rw [c2] at x1; cases x1; simp at x2
      · rcases hDB with hd | hd
        · rw [hd] at e2; simp at e2
        · exact hne hd)
  refine ⟨st1, h1, ?_⟩
  have hcov : ∀ (w : Nat) (wf2 : Wf) (g2 : Graph), st.wfs[w]? = some wf2 →
      env.sys.graphs[wf2.graph]? = some g2 → ∀ gn i it,
      Cov env D st (Pend st (cb :: run)) w wf2.graph g2 gn i it →
      Cov env D st1 (Pend st1 run) w wf2.graph g2 gn i it := by
    intro w wf2 g2 hw2 hg2 gn i it hc
    refine hc.subst f1.le ?_
    intro c hc hcw gn' i' it' hgl
    rcases hc with hc | hc
    · rcases List.mem_cons.1 hc with rfl | hc
      · subst hcw
        rw [hw] at hw2; cases hw2
        rw [hg] at hg2; cases hg2
        exact (hgoal gn' i' it' hgl).mono (.refl _) fun _ h => .inr h
      · exact .pend c (.inl hc) hgl
    · exact .pend c (.inr (f1.pendq hc)) hgl
  refine ⟨⟨f1.ok, ?_, ?_, f1.ready h.ready, h.readyRun.tail f1.le hprov, ?_, f1.calls h.calls, ?_⟩, f1.le⟩
  · intro o c hc
    obtain ⟨l, e1, e2⟩ := f1.cbs o
    rw [e1] at hc
    rcases List.mem_append.1 hc with hc | hc
    · obtain ⟨a1, a2⟩ := h.regs o c hc
      exact ⟨a1.subst f1.le hcov, a2.mono f1.le⟩
    · exact ⟨(e2 c hc).1.mono (.refl _) fun _ h => .inr h, (e2 c hc).2⟩
  · intro c hc
    obtain ⟨a1, a2⟩ := h.runs c (by simp [hc])
    exact ⟨a1.subst f1.le hcov, a2.mono f1.le⟩
  · obtain ⟨wf0, g0, a1, a2, a3, a4, a5⟩ := h.top
    obtain ⟨wf1, b1, b2, b3, _, _⟩ := f1.le.wfs 0 wf0 a1
    refine ⟨wf1, g0, b1, b2.trans a2, b3.trans a3, a4, ?_⟩
    intro it hit
    subst a2
    exact hcov 0 wf0 g0 a1 a4 _ _ _ (a5 it hit)
  · have hown : OwnedCB st := by
      intro o c hm
      obtain ⟨⟨wf, h1, _⟩, _⟩ := he.loc o c hm
      exact ⟨wf, h1⟩
    refine List.Perm.trans ?_ h.plan
    refine ((ac hown).2.append_right _).trans ?_
    rw [List.append_assoc, List.flatMap_cons]
    refine List.Perm.append_left _ (List.Perm.append_left _ (List.Perm.of_eq ?_))
    apply flatMap_congr_mem
    intro c hc
    obtain ⟨wf, h1, _⟩ := he.owned c (by simp [hc])
    exact cbPlan_same f1.le.sameGraphs ⟨wf, h1⟩

theorem SInv.runCallbacks (C : Setup env D U) (hsd : SubsDecrease env) {l : List CB} (hDB : Dn = [] ∨ B = [])
    (he : EInv env Dn B (l ++ run) R K A Cb st) (h : SInv env D U gi q B (l ++ run) st) :
    ∃ st', Hiku.runCallbacks (runCB env) l st = .ok st' ∧ SInv env D U gi q B run st' ∧ Le st st' := by
  induction l generalizing st with
  | nil => exact ⟨st, rfl, h, .refl _⟩
  | cons c r ih =>
    obtain ⟨st1, h1, h2, l2⟩ := SInv.step C hDB he h
    obtain ⟨st2, h3, h4, l4⟩ := ih (EInv.step hsd he h1) h2
    exact ⟨st2, by simp only [Hiku.runCallbacks, h1, ok_bind', h3], h4, l2.trans l4⟩

/-- changes of the queue outside of the callbacks, and of the log -/
theorem SInv.change {qu : Queue CB} {log : List Ev} (h : SInv env D U gi q B run st)
    (hq : ∀ o, qu.cbs o = st.q.cbs o) (hi : qu.Inv st.results.length) (hlog : ∀ e ∈ st.log, e ∈ log)
    (hc : CallsOk env D U log) (hcb : qu.callbacks = st.q.callbacks := by rfl)
    (hlc : callsOf log = callsOf st.log := by simp [callsOf]) :
    SInv env D U gi q B run { st with q := qu, log := log } := by
  have hle : Le st { st with q := qu, log := log } :=
    ⟨⟨[], by simp⟩, fun _ wf h => ⟨wf, h, rfl, rfl, rfl, fun _ _ h => h⟩, hlog⟩
  have hp : ∀ cb, Pend st run cb → Pend { st with q := qu, log := log } run cb := by
    rintro cb (h | ⟨o, h⟩)
    · exact .inl h
    · exact .inr ⟨o, by rw [hq]; exact h⟩
  refine ⟨⟨hi, h.ok.sound, ?_⟩, ?_, ?_, ?_, h.readyRun.mono hle, ?_, hc, ?_⟩
  rotate_right
  · have : planOf env D { st with q := qu, log := log } = planOf env D st := by
      simp only [planOf, Queue.regs, hcb, hlc]
    rw [this]; exact h.plan
  · intro w wf g hw hg gn hn i n o gf f hu hget hf hv
    exact (h.ok.sourced w wf g hw hg gn hn i n o gf f hu hget hf hv).mono hlog
  · intro o cb hcb
    have hcb : cb ∈ qu.cbs o := hcb
    rw [hq] at hcb
    exact ⟨(h.regs o cb hcb).1.mono hle hp, (h.regs o cb hcb).2.mono hle⟩
  · intro cb hcb
    exact ⟨(h.runs cb hcb).1.mono hle hp, (h.runs cb hcb).2.mono hle⟩
  · intro o
    show Ready env _ (qu.cbs o)
    rw [hq]
    exact (h.ready o).mono hle
  · obtain ⟨wf0, g0, a1, a2, a3, a4, a5⟩ := h.top
    exact ⟨wf0, g0, a1, a2, a3, a4, fun it hit => (a5 it hit).mono hle hp⟩

theorem SInv.setB {B' : List Nat} (h : SInv env D U gi q B [] st) : SInv env D U gi q B' [] st :=
  ⟨h.ok, h.regs, by simp, h.ready, h.readyRun, h.top, h.calls, h.plan⟩

/-- the object is finished -/
def ObjDone (log : List Ev) (B : List Nat) : Obj → Prop
  | .fut f => ∃ l, Ev.done l ∈ log ∧ f ∈ l
  | .ts t => t ∈ B

theorem SInv.pop {o : Obj} (h : SInv env D U gi q B [] st) (ho : ObjDone st.log B o) :
    SInv env D U gi q B (st.q.cbs o) { st with q := (st.q.popCallbacks o).2 } := by
  have hle : Le st { st with q := (st.q.popCallbacks o).2 } :=
    ⟨⟨[], by simp⟩, fun _ wf h => ⟨wf, h, rfl, rfl, rfl, fun _ _ h => h⟩, fun _ h => h⟩
  have hp : ∀ cb, Pend st [] cb → Pend { st with q := (st.q.popCallbacks o).2 } (st.q.cbs o) cb := by
    rintro cb (h | ⟨o', h⟩)
    · simp at h
    · by_cases e : o' = o
      · subst e; exact .inl h
      · refine .inr ⟨o', ?_⟩
        show cb ∈ (st.q.popCallbacks o).2.cbs o'
        rw [Queue.cbs_pop, if_neg (Ne.symm e)]; exact h
  refine ⟨⟨h.ok.inv.pop o, h.ok.sound, h.ok.sourced⟩, ?_, ?_, ?_, (h.ready o).mono hle, ?_, h.calls, ?_⟩
  rotate_right
  · refine List.Perm.trans ?_ h.plan
    simp only [planOf, List.flatMap_nil, List.append_nil, List.append_assoc]
    refine List.Perm.append_left _ ?_
    refine List.Perm.trans List.perm_append_comm ?_
    refine List.Perm.trans (List.Perm.of_eq ?_) ((Queue.regs_pop st.q o h.ok.inv.cnd).flatMap_right _).symm
    simp [List.flatMap_append, List.flatMap_map]
  · intro o' cb hcb
    have hcb : cb ∈ (st.q.popCallbacks o).2.cbs o' := hcb
    rw [Queue.cbs_pop] at hcb
    split at hcb
    · simp at hcb
    · exact ⟨(h.regs o' cb hcb).1.mono hle hp, (h.regs o' cb hcb).2.mono hle⟩
  · intro cb hcb
    obtain ⟨a1, a2⟩ := h.regs o cb hcb
    refine ⟨a1.mono hle hp, ?_⟩
    cases cb with
    | store w gn qfs ids src =>
      cases src with
      | fut f =>
        have a2 : o = .fut f := a2
        subst a2
        exact ho
      | sub w' procs =>
        obtain ⟨wf, b1, rfl⟩ := a2
        exact ⟨wf, b1, ho⟩
    | _ => trivial
  · intro o'
    show Ready env _ ((st.q.popCallbacks o).2.cbs o')
    rw [Queue.cbs_pop]
    split
    · exact .nil
    · exact (h.ready o').mono hle
  · obtain ⟨wf0, g0, a1, a2, a3, a4, a5⟩ := h.top
    exact ⟨wf0, g0, a1, a2, a3, a4, fun it hit => (a5 it hit).mono hle hp⟩

theorem SInv.fireFutures (C : Setup env D U) (hsd : SubsDecrease env) {done : List Nat}
    (hf : ∀ f ∈ done, f < st.results.length)
    (hlog : ∀ f ∈ done, ∃ l, Ev.done l ∈ st.log ∧ f ∈ l)
    (he : EInv env (done.map Obj.fut) [] [] R K A Cb st) (h : SInv env D U gi q [] [] st) :
    ∃ st', Hiku.fireFutures qlens (runCB env) done st = .ok st' ∧ SInv env D U gi q [] [] st' := by
  induction done generalizing st with
  | nil => exact ⟨st, rfl, h⟩
  | cons f r ih =>
    have he1 := he.pop (o := .fut f) fun c hm => (he.loc _ c hm).1
    have hs1 := h.pop (o := .fut f) (hlog f (by simp))
    obtain ⟨st1, h1, h2, hl2⟩ := SInv.runCallbacks (run := []) C hsd (.inr rfl) (by simpa using he1) (by simpa using hs1)
    have hfire : fireCallbacks qlens (runCB env) (.fut f) st = .ok st1 := h1
    obtain ⟨he2, hlen⟩ := he.fire_fut hsd (hf f (by simp)) hfire
    obtain ⟨st2, h3, h4⟩ := ih (fun x hx => Nat.lt_of_lt_of_le (hf x (by simp [hx])) hlen)
      (fun x hx => by
        obtain ⟨l, a, b⟩ := hlog x (by simp [hx])
        exact ⟨l, hl2.log _ a, b⟩) he2 h2
    exact ⟨st2, by simp only [Hiku.fireFutures, hfire, ok_bind', h3], h4⟩

theorem SInv.fireTaskSets (C : Setup env D U) (hsd : SubsDecrease env) {l : List Nat} (hnd : l.Nodup)
    (he : EInv env [] l [] R K A Cb st) (h : SInv env D U gi q l [] st) :
    ∃ st', Hiku.fireTaskSets qlens (runCB env) l st = .ok st' ∧ SInv env D U gi q [] [] st' := by
  induction l generalizing st K with
  | nil => exact ⟨st, rfl, h⟩
  | cons t r ih =>
    rw [List.nodup_cons] at hnd
    have hown : ∀ cb, (Obj.ts t, cb) ∈ st.q.regs → Owned env (t :: r) st cb := by
      intro c hm
      obtain ⟨⟨wf, g1, g2, g3, _⟩, g5⟩ := he.loc _ c hm
      refine ⟨wf, g1, g2, g3, ?_⟩
      rcases g5 with ⟨wf1, e1, s, e2, e3⟩ | g5
      · rw [g1] at e1; cases e1
        intro hmem
        rw [(he.comp _ hmem).2] at e2; cases e2
        simp at e3
      · simp at g5
    have he1 := he.pop (o := .ts t) hown
    have hs1 := h.pop (o := .ts t) (show t ∈ t :: r by simp)
    obtain ⟨st1, h1, h2, hl2⟩ := SInv.runCallbacks (run := []) C hsd (.inl rfl) (by simpa using he1) (by simpa using hs1)
    have hfire : fireCallbacks qlens (runCB env) (.ts t) st = .ok st1 := h1
    have he2 := he.fire_ts hsd hnd.1 hfire
    have h3 : SInv env D U gi q r [] { st1 with q := st1.q.removeTs t } :=
      SInv.setB (h2.change (qu := st1.q.removeTs t) (log := st1.log) (fun _ => rfl)
        (h2.ok.inv.removeTs t) (fun _ h => h) h2.calls)
    obtain ⟨st2, h4, h5⟩ := ih hnd.2 he2 h3
    refine ⟨st2, ?_, h5⟩
    simp only [Hiku.fireTaskSets, hfire, ok_bind']
    exact h4

theorem SInv.drains (C : Setup env D U) (hsd : SubsDecrease env) {r : Except Err St}
    (hr : Drains qlens (runCB env) st r) (he : EInv env [] [] [] R K A Cb st)
    (h : SInv env D U gi q [] [] st) : ∃ st', r = .ok st' ∧ SInv env D U gi q [] [] st' ∧
      ∃ K', EInv env [] [] [] R K' A Cb st' := by
  induction hr generalizing K with
  | stop _ => exact ⟨_, rfl, h, K, he⟩
  | @fail s e hc hf =>
    obtain ⟨st1, h1, _⟩ := SInv.fireTaskSets C hsd (nodup_completed he.inv) he.completed h.setB
    rw [show Hiku.fireTaskSets qlens (runCB env) s.q.completed s = _ from hf] at h1
    cases h1
  | @next s s' r hc hf _ ih =>
    have hf : Hiku.fireTaskSets qlens (runCB env) s.q.completed s = .ok s' := hf
    obtain ⟨st1, h1, h2⟩ := SInv.fireTaskSets C hsd (nodup_completed he.inv) he.completed h.setB
    rw [hf] at h1; cases h1
    exact ih (he.completed.fireTaskSets hsd (nodup_completed he.inv) hf) h2

theorem CallsOk.done {log : List Ev} (h : CallsOk env D U log) (l : List Nat) :
    CallsOk env D U (log ++ [.done l]) := by
  intro pre s post e
  rcases append_cons_eq_append_singleton e.symm with ⟨_, e1, _⟩ | ⟨post', e1, e2⟩
  · cases e1
  · exact h pre s post' e2.symm

theorem SInv.progresses (C : Setup env D U) (hsd : SubsDecrease env) {r : Except Err St}
    {done : List Nat} (hne : done ≠ []) (hsub : ∀ f ∈ done, f ∈ st.q.outstanding)
    (hlog : Ev.done done ∈ st.log)
    (hr : Progresses qlens (runCB env) done st r) (he : EInv env [] [] [] R K A Cb st)
    (h : SInv env D U gi q [] [] st) : ∃ st', r = .ok st' ∧ SInv env D U gi q [] [] st' ∧
      ∃ K', EInv env [] [] [] (R + 1) K' A Cb st' := by
  obtain ⟨f, r', hd⟩ := List.exists_cons_of_ne_nil hne
  have he1 := he.dropDone (done := done) ⟨f, by simp [hd], hsub f (by simp [hd])⟩
  have hlt : ∀ f ∈ done, f < st.results.length := by
    intro f hf
    obtain ⟨t, s, g1, g2⟩ := (Queue.mem_outstanding he.inv.nd).1 (hsub f hf)
    exact he.inv.flt t s f g1 g2
  have h1 : SInv env D U gi q [] [] { st with q := st.q.dropDone done } :=
    h.change (qu := st.q.dropDone done) (log := st.log) (fun _ => rfl) (h.ok.inv.dropDone done)
      (fun _ h => h) h.calls
  obtain ⟨st1, h2, h3⟩ := SInv.fireFutures (st := { st with q := st.q.dropDone done }) C hsd hlt
    (fun f hf => ⟨done, hlog, hf⟩) he1 h1
  cases hr with
  | fail hf =>
    have hf : Hiku.fireFutures qlens (runCB env) done { st with q := st.q.dropDone done } = _ := hf
    rw [hf] at h2; cases h2
  | @ok s1 _ hf hdr =>
    have hf : Hiku.fireFutures qlens (runCB env) done { st with q := st.q.dropDone done } = _ := hf
    have he2 := EInv.fireFutures (st := { st with q := st.q.dropDone done }) hsd hlt he1 hf
    rw [hf] at h2; cases h2
    exact SInv.drains C hsd hdr he2 h3

theorem SInv.loops (C : Setup env D U) (hsd : SubsDecrease env) {choose : Nat → List Nat → List Nat}
    (hch : ValidChoice choose) {round n : Nat} {r : Except Err St} (hr : Loops env choose round st n r)
    (he : EInv env [] [] [] R K A Cb st) (h : SInv env D U gi q [] [] st) :
    ∃ st', r = .ok st' ∧ SInv env D U gi q [] [] st' := by
  induction hr generalizing R K with
  | stop _ => exact ⟨_, rfl, h⟩
  | @fail round st e ho hp =>
    obtain ⟨hc1, hc2⟩ := hch round _ ho
    have h1 : SInv env D U gi q [] [] { st with log := st.log ++ [.done (choose round st.q.outstanding)] } :=
      h.change (qu := st.q) (fun _ => rfl) h.ok.inv (fun _ h => List.mem_append_left _ h) (h.calls.done _)
    obtain ⟨st', e1, _⟩ := SInv.progresses
      (st := { st with log := st.log ++ [.done (choose round st.q.outstanding)] }) C hsd hc1 (fun f hf => hc2 f hf) (List.mem_append_right _ (by simp)) hp he.log_done h1
    cases e1
  | @next round st st' n r ho hp _ ih =>
    obtain ⟨hc1, hc2⟩ := hch round _ ho
    have h1 : SInv env D U gi q [] [] { st with log := st.log ++ [.done (choose round st.q.outstanding)] } :=
      h.change (qu := st.q) (fun _ => rfl) h.ok.inv (fun _ h => List.mem_append_left _ h) (h.calls.done _)
    obtain ⟨st'', e1, h2, K', he2⟩ := SInv.progresses
      (st := { st with log := st.log ++ [.done (choose round st.q.outstanding)] }) C hsd hc1 (fun f hf => hc2 f hf)
      (List.mem_append_right _ (by simp)) hp he.log_done h1
    cases e1
    exact ih he2 h2

end

end Hiku
