import Verif.Proofs.LatencyLoop
import Verif.Props.Termination

/-! Deadlines hold in every round of the executor loop. -/

namespace Hiku
namespace Lat

section
variable {env : Env} {wt : PFunc → Nat} {now : Nat} {Lim due : Nat → Nat} {st st' : St}
variable {D : List Obj} {B : List Nat} {run : List CB} {R K A C : Nat}

/-- there is enough time left for the callback -/
def Budget (env : Env) (wt : PFunc → Nat) (now : Nat) (Lim : Nat → Nat) (st : St) (cb : CB) : Prop :=
  ∃ wf, st.wfs[cb.wf]? = some wf ∧ now + cbTimeG env wt wf.graph cb ≤ Lim wf.ts

theorem LI.runCallbacks (hsd : SubsDecrease env) {l : List CB} (hL : LI env wt now Lim due st)
    (h : EInv env D B (l ++ run) R K A C st) (hb : ∀ cb ∈ l, Budget env wt now Lim st cb)
    (hr : Hiku.runCallbacks (Hiku.runCB env) l st = .ok st') :
    ∃ Lim' due', Ext st Lim due Lim' due' ∧ LI env wt now Lim' due' st' := by
  induction l generalizing st Lim due with
  | nil => simp [Hiku.runCallbacks] at hr; subst hr; exact ⟨Lim, due, .refl, hL⟩
  | cons c r ih =>
    simp only [Hiku.runCallbacks, bind_ok_iff] at hr
    obtain ⟨s1, h1, h2⟩ := hr
    obtain ⟨wf, hw, hsc, hl, _⟩ := h.owned c (by simp)
    obtain ⟨n1, f1⟩ := frame_runCB (a := 1) (b := 0) hsd h.inv hw rfl hl hsc (Nat.le_refl _) (Nat.le_refl _) h1
    obtain ⟨wf', hw', hb'⟩ := hb c (by simp)
    rw [hw] at hw'; cases hw'
    obtain ⟨L1, d1, x1, l1⟩ := hL.runCB hsd h.inv hw rfl hl hsc hb' h1
    have hb1 : ∀ cb ∈ r, Budget env wt now L1 s1 cb := by
      intro cb hm
      obtain ⟨wf, g1, g2⟩ := hb cb (by simp [hm])
      obtain ⟨wf', e1, e2, _, e3⟩ := f1.wfAt g1
      exact ⟨wf', e1, by rw [e2, e3, x1.ts _ (hL.wfs _ _ g1)]; exact g2⟩
    obtain ⟨L2, d2, x2, l2⟩ := ih l1 (h.step hsd h1) hb1 h2
    exact ⟨L2, d2, x1.trans x2 f1.results_le f1.nts, l2⟩

/-- the deadlines hold and all of them are at most `T` -/
def LB (env : Env) (wt : PFunc → Nat) (now T : Nat) (st : St) : Prop :=
  ∃ Lim due, LI env wt now Lim due st ∧ ∀ t, Lim t ≤ T

variable {T : Nat}

theorem LB.fire (hsd : SubsDecrease env) {o : Obj} (hL : LB env wt now T st)
    (h : EInv env D B [] R K A C st) (hB : ∀ cb, (o, cb) ∈ st.q.regs → Owned env B st cb)
    (hr : fireCallbacks qlens (runCB env) o st = .ok st') : LB env wt now T st' := by
  obtain ⟨Lim, due, hL, hT⟩ := hL
  simp only [fireCallbacks, qlens] at hr
  have h1 : EInv env D B (st.q.cbs o ++ []) R K A C { st with q := (st.q.popCallbacks o).2 } := by
    simpa using h.pop hB
  have hp := Queue.regs_pop st.q o h.inv.cnd
  have hL1 : LI env wt now Lim due { st with q := (st.q.popCallbacks o).2 } :=
    ⟨fun o' cb hm => hL.regs o' cb (hp.mem_iff.2 (List.mem_append.2 (.inr hm))), hL.futs, hL.kids, hL.live, hL.wfs,
      hL.lt, hL.calls, hL.known, hL.now⟩
  obtain ⟨L', d', x, l⟩ := hL1.runCallbacks hsd h1 (by
    intro cb hm
    obtain ⟨_, g2, wf, g3, g4⟩ := hL.regs o cb ((Queue.mem_regs h.inv.cnd).2 hm)
    rw [cbTime_eq g3] at g4
    exact ⟨wf, g3, by omega⟩) hr
  refine ⟨L', d', l, fun t => ?_⟩
  obtain ⟨t', ht⟩ := x.le t
  exact Nat.le_trans ht (hT t')

theorem LB.fireFutures (hsd : SubsDecrease env) {done : List Nat} (hf : ∀ f ∈ done, f < st.results.length)
    (hL : LB env wt now T st) (h : EInv env (done.map Obj.fut) [] [] R K A C st)
    (hr : Hiku.fireFutures qlens (runCB env) done st = .ok st') : LB env wt now T st' := by
  induction done generalizing st with
  | nil => simp [Hiku.fireFutures] at hr; subst hr; exact hL
  | cons f r ih =>
    simp only [Hiku.fireFutures, bind_ok_iff] at hr
    obtain ⟨s1, h1, h2⟩ := hr
    obtain ⟨g1, g2⟩ := h.fire_fut hsd (hf f (by simp)) h1
    exact ih (fun x hx => Nat.lt_of_lt_of_le (hf x (by simp [hx])) g2)
      (hL.fire hsd h (fun cb hm => (h.loc _ cb hm).1) h1) g1 h2

theorem LB.removeTs {t : Nat} (hL : LB env wt now T st) : LB env wt now T { st with q := st.q.removeTs t } := by
  obtain ⟨Lim, due, hL, hT⟩ := hL
  refine ⟨Lim, due, ⟨hL.regs, ?_, ?_, ?_, hL.wfs, hL.lt, hL.calls, hL.known, hL.now⟩, hT⟩
  · intro x s f hx hm
    simp only [Queue.dget_futures_removeTs] at hx
    split at hx
    · simp at hx
    · exact hL.futs _ _ _ hx hm
  · intro x s c hx hm
    simp only [Queue.dget_forks_removeTs] at hx
    split at hx
    · simp at hx
    · simp only [Option.map_eq_some_iff] at hx
      obtain ⟨s', h1, rfl⟩ := hx
      exact hL.kids _ _ _ h1 (List.mem_filter.1 hm).1
  · intro x hx
    simp only [Queue.dget_futures_removeTs] at hx
    split at hx
    · simp at hx
    · exact hL.live _ hx

theorem LB.dropDone {done : List Nat} (hL : LB env wt now T st) :
    LB env wt now T { st with q := st.q.dropDone done } := by
  obtain ⟨Lim, due, hL, hT⟩ := hL
  refine ⟨Lim, due, ⟨hL.regs, ?_, hL.kids, ?_, hL.wfs, hL.lt, hL.calls, hL.known, hL.now⟩, hT⟩
  · intro x s f hx hm
    simp only [Queue.dget_dropDone, Option.map_eq_some_iff] at hx
    obtain ⟨s', h1, rfl⟩ := hx
    exact hL.futs _ _ _ h1 (List.mem_filter.1 hm).1
  · intro x hx
    simp only [Queue.dget_dropDone, Option.isSome_map] at hx
    exact hL.live _ hx

theorem LB.fireTaskSets (hsd : SubsDecrease env) {l : List Nat} (hnd : l.Nodup) (hL : LB env wt now T st)
    (h : EInv env [] l [] R K A C st) (hr : Hiku.fireTaskSets qlens (runCB env) l st = .ok st') :
    LB env wt now T st' := by
  induction l generalizing st K with
  | nil => simp [Hiku.fireTaskSets] at hr; subst hr; exact hL
  | cons t r ih =>
    simp only [Hiku.fireTaskSets, bind_ok_iff] at hr
    obtain ⟨s1, h1, h2⟩ := hr
    rw [List.nodup_cons] at hnd
    have hown : ∀ cb, (Obj.ts t, cb) ∈ st.q.regs → Owned env (t :: r) st cb := by
      intro c hm
      obtain ⟨⟨wf, g1, g2, g3, _⟩, g5⟩ := h.loc _ c hm
      refine ⟨wf, g1, g2, g3, ?_⟩
      rcases g5 with ⟨wf1, e1, s, e2, e3⟩ | g5
      · rw [g1] at e1; cases e1
        intro hmem
        rw [(h.comp _ hmem).2] at e2; cases e2
        simp at e3
      · simp at g5
    exact ih (st := { s1 with q := s1.q.removeTs t }) hnd.2 (hL.fire hsd h hown h1).removeTs
      (h.fire_ts hsd hnd.1 h1) h2

theorem LB.drains (hsd : SubsDecrease env) (hL : LB env wt now T st) (h : EInv env [] [] [] R K A C st)
    (hr : Drains qlens (runCB env) st (.ok st')) : LB env wt now T st' := by
  generalize he : Except.ok st' = r at hr
  induction hr generalizing K with
  | stop hc => cases he; exact hL
  | fail hc hf => simp at he
  | next hc hf _ ih =>
    exact ih (hL.fireTaskSets hsd (nodup_completed h.inv) h.completed hf)
      (h.completed.fireTaskSets hsd (nodup_completed h.inv) hf) he

/-- a round passes -/
theorem LB.nextRound {l : List Nat} (hL : LB env wt now T st) (h : EInv env [] [] [] R K A C st)
    (hc : st.q.completed = []) (hi : InTime wt now st) :
    LB env wt (now + 1) T { st with log := st.log ++ [.done l] } := by
  obtain ⟨Lim, due, hL, hT⟩ := hL
  have hfut : ∀ t s f, dget st.q.futures t = some s → f ∈ s → now + 1 ≤ due f := by
    intro t s f hs hm
    obtain ⟨c, h1, h2⟩ := hL.known f (h.inv.flt _ _ _ hs hm)
    obtain ⟨pre, post, hsp⟩ := List.append_of_mem h1
    have := hi pre c post hsp (by rw [h2]; exact (Queue.mem_outstanding h.inv.nd).2 ⟨t, s, hs, hm⟩)
    have := hL.calls pre c post hsp
    rw [h2] at this; omega
  have hts : ∀ m t, st.q.nextTs - t ≤ m → (dget st.q.futures t).isSome → now + 1 ≤ Lim t := by
    intro m
    induction m with
    | zero =>
      intro t hm hl
      obtain ⟨s, hs⟩ := Option.isSome_iff_exists.1 hl
      have := h.inv.lt _ _ hs; omega
    | succ m ih =>
      intro t hm hl
      obtain ⟨s, hs⟩ := Option.isSome_iff_exists.1 hl
      obtain ⟨k, hk⟩ := Option.isSome_iff_exists.1 ((h.inv.keys t).1 hl)
      rcases s with _ | ⟨f, s⟩
      · rcases k with _ | ⟨c, k⟩
        · have := (Queue.mem_completed h.inv).2 ⟨hs, hk⟩
          rw [hc] at this; simp at this
        · obtain ⟨g1, g2⟩ := h.inv.kid t _ c hk (by simp)
          have := ih c (by omega) g2
          have := hL.kids _ _ c hk (by simp)
          omega
      · have := hfut _ _ f hs (by simp)
        have := hL.futs _ _ f hs (by simp)
        omega
  refine ⟨Lim, due, ⟨?_, hL.futs, hL.kids, fun t hl => hts _ t (Nat.le_refl _) hl, hL.wfs, ?_, ?_, ?_, ?_⟩, hT⟩
  · intro o cb hm
    obtain ⟨g1, g2, g3⟩ := hL.regs o cb hm
    refine ⟨g1, ?_, g3⟩
    rcases (h.loc o cb hm).2 with ⟨wf, _, e⟩ | e
    · cases o with
      | fut f => obtain ⟨s, e1, e2⟩ := e; exact hfut _ _ _ e1 e2
      | ts t => obtain ⟨s, e1, e2⟩ := e; exact hts _ t (Nat.le_refl _) (h.inv.kid _ _ _ e1 e2).2
    · simp at e
  · intro pre s post hl
    rcases log_snoc hl with ⟨_, _, e⟩ | ⟨post', e⟩
    · simp at e
    · exact hL.lt _ _ _ e
  · intro pre s post hl
    rcases log_snoc hl with ⟨_, _, e⟩ | ⟨post', e⟩
    · simp at e
    · exact hL.calls _ _ _ e
  · intro f hf
    obtain ⟨s, h1, h2⟩ := hL.known f hf
    exact ⟨s, List.mem_append.2 (.inl h1), h2⟩
  · simp only [rounds_append, hL.now]; simp [rounds]

theorem LB.progresses (hsd : SubsDecrease env) {done : List Nat} (hL : LB env wt now T st)
    (h : EInv env [] [] [] R K A C st) (hne : done ≠ []) (hsub : ∀ f ∈ done, f ∈ st.q.outstanding)
    (hr : Progresses qlens (runCB env) done st (.ok st')) : LB env wt now T st' := by
  obtain ⟨f, r, hd⟩ := List.exists_cons_of_ne_nil hne
  have h1 := h.dropDone (done := done) ⟨f, by simp [hd], hsub f (by simp [hd])⟩
  have hlt : ∀ f ∈ done, f < st.results.length := by
    intro f hf
    obtain ⟨t, s, g1, g2⟩ := (Queue.mem_outstanding h.inv.nd).1 (hsub f hf)
    exact h.inv.flt t s f g1 g2
  have hput : qlens.put st ((qlens.get st).dropDone done) = { st with q := st.q.dropDone done } := rfl
  cases hr with
  | ok hf hdr =>
    rw [hput] at hf
    exact (LB.fireFutures (st := { st with q := st.q.dropDone done }) hsd hlt hL.dropDone h1 hf).drains hsd
      (EInv.fireFutures (st := { st with q := st.q.dropDone done }) hsd hlt h1 hf) hdr

/-- the deadlines at the start -/
theorem start_lb (hsd : SubsDecrease env) {gi : Nat} {g : Graph} {q q' : QNode}
    (hg : env.sys.graphs[gi]? = some g) (hq : initOptions g q = .ok q') (h : startQuery env gi q = .ok st) :
    LB env wt 0 (queryTime env.sys env.H wt gi q') st := by
  unfold startQuery at h
  simp only [hg, start_queue, bind_ok_iff, ok_bind'] at h
  obtain ⟨q1, hq1, h⟩ := h
  rw [hq] at hq1; cases hq1
  have hlev : gi ≤ env.levels := by
    have := (List.getElem?_eq_some_iff.1 hg).1
    simp only [Env.levels]; omega
  have h0 : LI env wt 0 (fun _ => queryTime env.sys env.H wt gi q') (fun _ => 0)
      { q := { futures := [(0, [])], forks := [(0, [])], callbacks := [], nextTs := 1 }, results := [],
        wfs := [{ graph := gi, query := q', ts := 0 }], log := [] } := by
    refine ⟨?_, ?_, ?_, fun _ _ => Nat.zero_le _, ?_, ?_, ?_, ?_, rfl⟩
    · intro o cb hm; simp [Queue.regs] at hm
    · intro t s f hs hm; exact Nat.zero_le _
    · intro t s c hs hm; exact Nat.le_refl _
    · intro j wf hj
      cases j with
      | zero => simp at hj; subst hj; simp
      | succ j => simp at hj
    · intro pre s post hl; simp at hl
    · intro pre s post hl; simp at hl
    · intro f hf; simp at hf
  obtain ⟨L, d, x, l⟩ := LI.processNode (wf := { graph := gi, query := q', ts := 0 }) (tw := 0) (g := g) hsd
    (subFrame_subCall hsd env.levels) (subL_subCall hsd env.levels) h0 start_inv rfl rfl (by simp [dget_cons]) hg
    hlev (.inl rfl) (by simp [queryTime, hg]) h
  refine ⟨L, d, l, fun t => ?_⟩
  obtain ⟨t', ht⟩ := x.le t
  exact ht

/-- all deadlines are in the past only when nothing is outstanding -/
theorem LB.bound (hL : LB env wt now T st) (h : EInv env [] [] [] R K A C st) (hi : InTime wt now st)
    (ho : st.q.outstanding ≠ []) : now < T := by
  obtain ⟨Lim, due, hL, hT⟩ := hL
  obtain ⟨f, r, hf⟩ := List.exists_cons_of_ne_nil ho
  obtain ⟨t, s, hs, hm⟩ := (Queue.mem_outstanding h.inv.nd).1 (by rw [hf]; simp : f ∈ st.q.outstanding)
  obtain ⟨c, h1, h2⟩ := hL.known f (h.inv.flt _ _ _ hs hm)
  obtain ⟨pre, post, hsp⟩ := List.append_of_mem h1
  have := hi pre c post hsp (by rw [h2, hf]; simp)
  have := hL.calls pre c post hsp
  rw [h2] at this
  have := hL.futs _ _ _ hs hm
  have := hT t
  omega

end

end Lat
end Hiku
