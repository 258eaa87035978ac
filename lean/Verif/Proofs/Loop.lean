import Verif.Proofs.FrameEngine
import Verif.Spec.Runs

/-! The invariant of the executor loop and its consequences. -/

namespace Hiku

variable {env : Env}

def pendCost (env : Env) (a b : Nat) (st : St) (run : List CB) : Nat :=
  (st.q.regs.map fun x => cbCost env a b st.wfs x.2).sum +
    (run.map fun c => cbCost env a b st.wfs c).sum

/-- A callback belongs to a live workflow which is not among the completed task sets `B`. -/
def Owned (env : Env) (B : List Nat) (st : St) (cb : CB) : Prop :=
  ∃ wf, st.wfs[cb.wf]? = some wf ∧ Scoped env wf.graph cb ∧ (dget st.q.futures wf.ts).isSome ∧
    wf.ts ∉ B

/-- `D`: finished objects whose callbacks were not run yet, `B`: the completed task sets which are
being processed, `run`: callbacks which are being run, `R`: number of rounds, `K`: number of removed
task sets, `A`, `C`: bounds. -/
structure EInv (env : Env) (D : List Obj) (B : List Nat) (run : List CB) (R K A C : Nat) (st : St) :
    Prop where
  inv : st.q.Inv st.results.length
  loc : ∀ o cb, (o, cb) ∈ st.q.regs → Owned env [] st cb ∧
    ((∃ wf, st.wfs[cb.wf]? = some wf ∧ Waits st wf.ts o) ∨ o ∈ D)
  owned : ∀ cb ∈ run, Owned env B st cb
  comp : ∀ t ∈ B, dget st.q.futures t = some [] ∧ dget st.q.forks t = some []
  rounds : st.q.outstanding.length + R ≤ st.results.length
  removed : st.q.futures.length + K ≤ st.q.nextTs
  calls : callCount st.log = st.results.length
  costA : st.results.length + pendCost env 1 0 st run ≤ A
  costC : st.q.nextTs + pendCost env 0 1 st run ≤ C

section
variable {D : List Obj} {B : List Nat} {run : List CB} {R K A C : Nat} {st st' : St}

theorem Owned.frame {a b tw nf0 nt0 k : Nat} {new : List (Obj × CB)} {cb : CB}
    (f : Frame env a b tw nf0 nt0 st st' new k) (h : Owned env B st cb) : Owned env B st' cb := by
  obtain ⟨wf, h1, h2, h3, h4⟩ := h
  obtain ⟨wf', g1, g2, _, g4⟩ := f.wfAt h1
  exact ⟨wf', g1, g2 ▸ h2, g4 ▸ f.isLive h3, g4 ▸ h4⟩

theorem Waits.live (hi : st.q.Inv st.results.length) {t : Nat} {o : Obj} (h : Waits st t o) :
    (dget st.q.futures t).isSome := by
  cases o with
  | fut f => obtain ⟨s, h1, _⟩ := h; simp [h1]
  | ts t' => obtain ⟨s, h1, _⟩ := h; exact (hi.keys t).2 (by simp [h1])

theorem pendCost_frame {a b tw nf0 nt0 k : Nat} {new : List (Obj × CB)} {cb : CB} {rest : List CB}
    (f : Frame env a b tw nf0 nt0 st st' new k)
    (hloc : ∀ o cb, (o, cb) ∈ st.q.regs → ∃ wf, st.wfs[cb.wf]? = some wf)
    (hrun : ∀ cb ∈ rest, ∃ wf, st.wfs[cb.wf]? = some wf)
    (hk : k = cbCost env a b st.wfs cb) :
    a * st'.results.length + b * st'.q.nextTs + pendCost env a b st' rest ≤
      a * st.results.length + b * st.q.nextTs + pendCost env a b st (cb :: rest) := by
  have e : ∀ c, (∃ wf, st.wfs[c.wf]? = some wf) → cbCost env a b st'.wfs c = cbCost env a b st.wfs c := by
    rintro c ⟨wf, hw⟩
    obtain ⟨wf', g1, g2, _⟩ := f.wfAt hw
    exact cbCost_congr hw ⟨wf', g1, g2⟩
  have e1 : (st'.q.regs.map fun x => cbCost env a b st'.wfs x.2).sum =
      (st.q.regs.map fun x => cbCost env a b st.wfs x.2).sum +
        (new.map fun x => cbCost env a b st'.wfs x.2).sum := by
    rw [(f.regs.map _).sum_nat, List.map_append, List.sum_append]
    congr 2
    apply List.map_congr_left
    intro x hx
    exact e _ (hloc x.1 x.2 hx)
  have e2 : (rest.map fun c => cbCost env a b st'.wfs c) =
      rest.map fun c => cbCost env a b st.wfs c :=
    List.map_congr_left fun c hc => e c (hrun c hc)
  simp only [pendCost, e1, e2, List.map_cons, List.sum_cons]
  have := f.cost
  omega

/-- running one callback preserves the invariant -/
theorem EInv.step (hsd : SubsDecrease env) {cb : CB}
    (h : EInv env D B (cb :: run) R K A C st) (hr : runCB env cb st = .ok st') :
    EInv env D B run R K A C st' := by
  obtain ⟨wf, hw, hsc, hl, hB⟩ := h.owned cb (by simp)
  obtain ⟨n1, f1⟩ := frame_runCB (a := 1) (b := 0) hsd h.inv hw rfl hl hsc (Nat.le_refl _) (Nat.le_refl _) hr
  obtain ⟨n2, f2⟩ := frame_runCB (a := 0) (b := 1) hsd h.inv hw rfl hl hsc (Nat.le_refl _) (Nat.le_refl _) hr
  have hreg : ∀ o cb, (o, cb) ∈ st.q.regs → ∃ wf, st.wfs[cb.wf]? = some wf := by
    intro o cb hm
    obtain ⟨⟨wf, h1, _⟩, _⟩ := h.loc o cb hm
    exact ⟨wf, h1⟩
  have hrun : ∀ cb ∈ run, ∃ wf, st.wfs[cb.wf]? = some wf := by
    intro cb hm
    obtain ⟨wf, h1, _⟩ := h.owned cb (by simp [hm])
    exact ⟨wf, h1⟩
  have p1 := pendCost_frame f1 hreg hrun rfl
  have p2 := pendCost_frame f2 hreg hrun rfl
  refine ⟨f1.inv, ?_, ?_, ?_, ?_, ?_, ?_, ?_, ?_⟩
  · intro o c hm
    rcases List.mem_append.1 (f1.regs.mem_iff.1 hm) with hm | hm
    · obtain ⟨h1, h2⟩ := h.loc o c hm
      refine ⟨h1.frame f1, ?_⟩
      rcases h2 with ⟨wf1, e1, e2⟩ | h2
      · obtain ⟨wf2, g1, _, _, g4⟩ := f1.wfAt e1
        exact .inl ⟨wf2, g1, g4 ▸ e2.frame f1⟩
      · exact .inr h2
    · obtain ⟨wf1, e1, e2, e3⟩ := f1.loc (o, c) hm
      exact ⟨⟨wf1, e1, e2, e3.live f1.inv, by simp⟩, .inl ⟨wf1, e1, e3⟩⟩
  · intro c hc
    exact (h.owned c (by simp [hc])).frame f1
  · intro t ht
    obtain ⟨g1, g2⟩ := h.comp t ht
    have htn : t ≠ wf.ts := fun e => hB (e ▸ ht)
    have hlt := h.inv.lt t _ g1
    obtain ⟨s1, x1, _, x3⟩ := f1.futs t _ g1
    obtain ⟨s2, y1, _, y3⟩ := f1.kids t _ g2
    exact ⟨by rw [x1, x3 htn hlt], by rw [y1, y3 htn hlt]⟩
  · have := f1.out; have := h.rounds; omega
  · have := f1.live; have := h.removed; omega
  · have := f1.log; have := h.calls; omega
  · have := h.costA; omega
  · have := h.costC; omega

theorem EInv.runCallbacks (hsd : SubsDecrease env) {l : List CB}
    (h : EInv env D B (l ++ run) R K A C st) (hr : runCallbacks (runCB env) l st = .ok st') :
    EInv env D B run R K A C st' := by
  induction l generalizing st with
  | nil => simp [Hiku.runCallbacks] at hr; subst hr; exact h
  | cons c r ih =>
    simp only [Hiku.runCallbacks, bind_ok_iff] at hr
    obtain ⟨s1, h1, h2⟩ := hr
    exact ih (h.step hsd h1) h2

/-- popping the callbacks of `o` -/
theorem EInv.pop {o : Obj} (h : EInv env D B [] R K A C st)
    (hB : ∀ cb, (o, cb) ∈ st.q.regs → Owned env B st cb) :
    EInv env D B (st.q.cbs o) R K A C { st with q := (st.q.popCallbacks o).2 } := by
  have hp := Queue.regs_pop st.q o h.inv.cnd
  have hc : ∀ a b, pendCost env a b { st with q := (st.q.popCallbacks o).2 } (st.q.cbs o) =
      pendCost env a b st [] := by
    intro a b
    simp only [pendCost]
    rw [(hp.map fun x => cbCost env a b st.wfs x.2).sum_nat, List.map_append, List.sum_append,
      List.map_map]
    have : ((fun x : Obj × CB => cbCost env a b st.wfs x.2) ∘ fun c => (o, c)) =
      fun c => cbCost env a b st.wfs c := rfl
    rw [this]; simp; omega
  refine ⟨h.inv.pop o, ?_, ?_, h.comp, h.rounds, h.removed, h.calls, ?_, ?_⟩
  · intro o' c hm
    have : (o', c) ∈ st.q.regs := hp.mem_iff.2 (List.mem_append.2 (.inr hm))
    exact h.loc o' c this
  · intro c hm
    exact hB c ((Queue.mem_regs h.inv.cnd).2 hm)
  · rw [hc]; exact h.costA
  · rw [hc]; exact h.costC

theorem noRegs_pop {o : Obj} (hi : st.q.Inv st.results.length) (cb : CB) :
    (o, cb) ∉ (st.q.popCallbacks o).2.regs := by
  intro hm
  have hi' := hi.pop o
  rw [Queue.mem_regs hi'.cnd, Queue.cbs_pop, if_pos rfl] at hm
  simp at hm

/-- running callbacks registers nothing on existing objects -/
theorem runCallbacks_cbs (hsd : SubsDecrease env) {l : List CB} {o : Obj}
    (h : EInv env D B (l ++ run) R K A C st) (hr : Hiku.runCallbacks (runCB env) l st = .ok st')
    (ho : ¬ freshObj st.results.length st.q.nextTs o) : st'.q.cbs o = st.q.cbs o := by
  suffices gen : ∀ nf nt, nf ≤ st.results.length → nt ≤ st.q.nextTs → ¬ freshObj nf nt o →
      st'.q.cbs o = st.q.cbs o from gen _ _ (Nat.le_refl _) (Nat.le_refl _) ho
  clear ho
  intro nf nt hnf hnt ho
  induction l generalizing st with
  | nil => simp [Hiku.runCallbacks] at hr; subst hr; rfl
  | cons c r ih =>
    simp only [Hiku.runCallbacks, bind_ok_iff] at hr
    obtain ⟨s1, h1, h2⟩ := hr
    obtain ⟨wf, hw, hsc, hl, _⟩ := h.owned c (by simp)
    obtain ⟨n1, f1⟩ := frame_runCB (a := 1) (b := 0) (nf0 := nf) (nt0 := nt) hsd h.inv hw rfl hl hsc hnf hnt h1
    rw [ih (h.step hsd h1) h2 (Nat.le_trans hnf f1.results_le) (Nat.le_trans hnt f1.nts), f1.cbs]
    have : (n1.filter fun x => x.1 = o) = [] := by
      rw [List.filter_eq_nil_iff]
      intro x hx he
      simp at he
      exact ho (he ▸ f1.fresh x hx)
    rw [this]; simp

theorem runCallbacks_mono (hsd : SubsDecrease env) {l : List CB}
    (h : EInv env D B (l ++ run) R K A C st) (hr : Hiku.runCallbacks (runCB env) l st = .ok st') :
    st.results.length ≤ st'.results.length ∧ st.q.nextTs ≤ st'.q.nextTs := by
  induction l generalizing st with
  | nil => simp [Hiku.runCallbacks] at hr; subst hr; exact ⟨Nat.le_refl _, Nat.le_refl _⟩
  | cons c r ih =>
    simp only [Hiku.runCallbacks, bind_ok_iff] at hr
    obtain ⟨s1, h1, h2⟩ := hr
    obtain ⟨wf, hw, hsc, hl, _⟩ := h.owned c (by simp)
    obtain ⟨n1, f1⟩ := frame_runCB (a := 1) (b := 0) hsd h.inv hw rfl hl hsc (Nat.le_refl _) (Nat.le_refl _) h1
    obtain ⟨i1, i2⟩ := ih (h.step hsd h1) h2
    have := f1.results_le; have := f1.nts
    exact ⟨by omega, by omega⟩

theorem EInv.fire_fut (hsd : SubsDecrease env) {f : Nat} {r : List Nat} (hf : f < st.results.length)
    (h : EInv env ((f :: r).map Obj.fut) [] [] R K A C st)
    (hr : fireCallbacks qlens (runCB env) (.fut f) st = .ok st') :
    EInv env (r.map Obj.fut) [] [] R K A C st' ∧ st.results.length ≤ st'.results.length := by
  simp only [fireCallbacks, qlens] at hr
  have h1 := h.pop (o := .fut f) fun c hm => (h.loc _ c hm).1
  have h2 : EInv env ((f :: r).map Obj.fut) [] (st.q.cbs (.fut f) ++ []) R K A C
    { st with q := (st.q.popCallbacks (.fut f)).2 } := by simpa using h1
  have h3 := h2.runCallbacks hsd hr
  have h4 := runCallbacks_cbs (o := .fut f) hsd h2 hr (by simp [freshObj]; omega)
  have h5 := runCallbacks_mono hsd h2 hr
  refine ⟨⟨h3.inv, ?_, by simp, by simp, h3.rounds, h3.removed, h3.calls, h3.costA, h3.costC⟩, h5.1⟩
  intro o c hm
  obtain ⟨g1, g2⟩ := h3.loc o c hm
  refine ⟨g1, ?_⟩
  rcases g2 with g2 | g2
  · exact .inl g2
  · simp only [List.map_cons, List.mem_cons] at g2
    rcases g2 with rfl | g2
    · rw [Queue.mem_regs h3.inv.cnd, h4] at hm
      have : c ∈ ({ st with q := (st.q.popCallbacks (.fut f)).2 } : St).q.cbs (.fut f) := hm
      rw [show ({ st with q := (st.q.popCallbacks (.fut f)).2 } : St).q =
        (st.q.popCallbacks (.fut f)).2 from rfl, Queue.cbs_pop, if_pos rfl] at this
      simp at this
    · exact .inr g2

theorem EInv.fireFutures (hsd : SubsDecrease env) {done : List Nat}
    (hf : ∀ f ∈ done, f < st.results.length)
    (h : EInv env (done.map Obj.fut) [] [] R K A C st)
    (hr : fireFutures qlens (runCB env) done st = .ok st') :
    EInv env [] [] [] R K A C st' := by
  induction done generalizing st with
  | nil => simp [Hiku.fireFutures] at hr; subst hr; exact h
  | cons f r ih =>
    simp only [Hiku.fireFutures, bind_ok_iff] at hr
    obtain ⟨s1, h1, h2⟩ := hr
    obtain ⟨g1, g2⟩ := h.fire_fut hsd (hf f (by simp)) h1
    exact ih (fun x hx => Nat.lt_of_lt_of_le (hf x (by simp [hx])) g2) g1 h2

theorem EInv.dropDone {done : List Nat} (h : EInv env [] [] [] R K A C st)
    (hne : ∃ f ∈ done, f ∈ st.q.outstanding) :
    EInv env (done.map Obj.fut) [] [] (R + 1) K A C { st with q := st.q.dropDone done } where
  inv := h.inv.dropDone done
  loc := by
    intro o c hm
    obtain ⟨⟨wf, g1, g2, g3, g4⟩, g5⟩ := h.loc o c hm
    refine ⟨⟨wf, g1, g2, ?_, g4⟩, ?_⟩
    · show (dget (st.q.dropDone done).futures wf.ts).isSome
      rw [Queue.dget_dropDone]; simpa using g3
    · rcases g5 with ⟨wf1, e1, e2⟩ | g5
      · cases o with
        | fut f =>
          obtain ⟨s, x1, x2⟩ := e2
          by_cases hd : f ∈ done
          · exact .inr (List.mem_map.2 ⟨f, hd, rfl⟩)
          · refine .inl ⟨wf1, e1, ?_⟩
            refine ⟨s.filter fun f => f ∉ done, ?_, by simp [x2, hd]⟩
            show dget (st.q.dropDone done).futures wf1.ts = _
            rw [Queue.dget_dropDone, x1]; rfl
        | ts t => exact .inl ⟨wf1, e1, e2⟩
      · simp at g5
  owned := by simp
  comp := by simp
  rounds := by
    obtain ⟨f, hd, ho⟩ := hne
    have := Queue.length_outstanding_dropDone ho hd
    have := h.rounds
    show (st.q.dropDone done).outstanding.length + (R + 1) ≤ st.results.length
    omega
  removed := by
    have := h.removed
    show (st.q.dropDone done).futures.length + K ≤ st.q.nextTs
    simpa [Queue.dropDone] using this
  calls := h.calls
  costA := h.costA
  costC := h.costC

theorem EInv.fire_ts (hsd : SubsDecrease env) {t : Nat} {r : List Nat} (hnd : t ∉ r)
    (h : EInv env [] (t :: r) [] R K A C st)
    (hr : fireCallbacks qlens (runCB env) (.ts t) st = .ok st') :
    EInv env [] r [] R (K + 1) A C { st' with q := st'.q.removeTs t } := by
  simp only [fireCallbacks, qlens] at hr
  have hown : ∀ cb, (Obj.ts t, cb) ∈ st.q.regs → Owned env (t :: r) st cb := by
    intro c hm
    obtain ⟨⟨wf, g1, g2, g3, _⟩, g5⟩ := h.loc _ c hm
    refine ⟨wf, g1, g2, g3, ?_⟩
    rcases g5 with ⟨wf1, e1, s, e2, e3⟩ | g5
    · rw [g1] at e1; cases e1
      intro hmem
      rw [(h.comp _ hmem).2] at e2; cases e2
      simp at e3
    · simp at g5
  have htlt : t < st.q.nextTs := h.inv.lt _ _ (h.comp t (by simp)).1
  have h1 := h.pop (o := .ts t) hown
  have h2 : EInv env [] (t :: r) (st.q.cbs (.ts t) ++ []) R K A C
    { st with q := (st.q.popCallbacks (.ts t)).2 } := by simpa using h1
  have h3 := h2.runCallbacks hsd hr
  have h4 := runCallbacks_cbs (o := .ts t) hsd h2 hr (by
    simp only [freshObj, Queue.popCallbacks]; omega)
  have h4' : st'.q.cbs (.ts t) = [] := by
    rw [h4]
    show (st.q.popCallbacks (.ts t)).2.cbs (.ts t) = []
    rw [Queue.cbs_pop, if_pos rfl]
  obtain ⟨c1, c2⟩ := h3.comp t (by simp)
  have hnoreg : ∀ c, (Obj.ts t, c) ∉ st'.q.regs := by
    intro c hm
    rw [Queue.mem_regs h3.inv.cnd, h4'] at hm
    simp at hm
  have hwaits : ∀ {tw o}, Waits st' tw o → o ≠ .ts t → tw ≠ t ∧
      Waits { st' with q := st'.q.removeTs t } tw o := by
    intro tw o hw hne
    have htw : tw ≠ t := by
      rintro rfl
      cases o with
      | fut f => obtain ⟨s, x1, x2⟩ := hw; rw [c1] at x1; cases x1; simp at x2
      | ts x => obtain ⟨s, x1, x2⟩ := hw; rw [c2] at x1; cases x1; simp at x2
    refine ⟨htw, ?_⟩
    cases o with
    | fut f =>
      obtain ⟨s, x1, x2⟩ := hw
      refine ⟨s, ?_, x2⟩
      show dget (st'.q.removeTs t).futures tw = _
      rw [Queue.dget_futures_removeTs, if_neg (Ne.symm htw)]; exact x1
    | ts x =>
      obtain ⟨s, x1, x2⟩ := hw
      refine ⟨s.filter (· ≠ t), ?_, ?_⟩
      · show dget (st'.q.removeTs t).forks tw = _
        rw [Queue.dget_forks_removeTs, if_neg (Ne.symm htw), x1]; rfl
      · simp only [List.mem_filter, decide_eq_true_eq]
        exact ⟨x2, fun e => hne (by rw [e])⟩
  refine ⟨h3.inv.removeTs t, ?_, by simp, ?_, ?_, ?_, h3.calls, h3.costA, h3.costC⟩
  · intro o c hm
    have hm' : (o, c) ∈ st'.q.regs := hm
    obtain ⟨⟨wf, g1, g2, g3, g4⟩, g5⟩ := h3.loc o c hm'
    have hne : o ≠ .ts t := by rintro rfl; exact hnoreg c hm'
    rcases g5 with ⟨wf1, e1, e2⟩ | g5
    · rw [g1] at e1; cases e1
      obtain ⟨x1, x2⟩ := hwaits e2 hne
      exact ⟨⟨wf, g1, g2, x2.live (h3.inv.removeTs t), g4⟩, .inl ⟨wf, g1, x2⟩⟩
    · simp at g5
  · intro x hx
    obtain ⟨y1, y2⟩ := h3.comp x (by simp [hx])
    have hne : t ≠ x := fun e => hnd (e ▸ hx)
    refine ⟨?_, ?_⟩
    · show dget (st'.q.removeTs t).futures x = _
      rw [Queue.dget_futures_removeTs, if_neg hne]; exact y1
    · show dget (st'.q.removeTs t).forks x = _
      rw [Queue.dget_forks_removeTs, if_neg hne, y2]; rfl
  · have := Queue.outstanding_removeTs_le st'.q t
    have := h3.rounds
    show (st'.q.removeTs t).outstanding.length + R ≤ st'.results.length
    omega
  · have := Queue.length_removeTs c1
    have := h3.removed
    show (st'.q.removeTs t).futures.length + (K + 1) ≤ st'.q.nextTs
    omega

theorem EInv.fireTaskSets (hsd : SubsDecrease env) {l : List Nat} (hnd : l.Nodup)
    (h : EInv env [] l [] R K A C st)
    (hr : fireTaskSets qlens (runCB env) l st = .ok st') :
    EInv env [] [] [] R (K + l.length) A C st' := by
  induction l generalizing st K with
  | nil => simp [Hiku.fireTaskSets] at hr; subst hr; exact h
  | cons t r ih =>
    simp only [Hiku.fireTaskSets, bind_ok_iff] at hr
    obtain ⟨s1, h1, h2⟩ := hr
    rw [List.nodup_cons] at hnd
    have := ih hnd.2 (h.fire_ts hsd hnd.1 h1) h2
    rw [List.length_cons, Nat.add_comm r.length 1, ← Nat.add_assoc]
    exact this

theorem EInv.completed (h : EInv env [] [] [] R K A C st) :
    EInv env [] st.q.completed [] R K A C st :=
  ⟨h.inv, h.loc, by simp, fun _ ht => (Queue.mem_completed h.inv).1 ht, h.rounds, h.removed, h.calls,
    h.costA, h.costC⟩

theorem nodup_completed (hi : st.q.Inv st.results.length) : st.q.completed.Nodup :=
  List.Nodup.sublist (List.Sublist.map _ List.filter_sublist) hi.nd

/-- the drain loop ends, with any fuel above the bound -/
theorem EInv.drains (hsd : SubsDecrease env) (h : EInv env [] [] [] R K A C st) :
    ∃ r, Drains qlens (runCB env) st r ∧ (∀ fuel, C < fuel + K → drain qlens (runCB env) fuel st = r) ∧
      ∀ st', r = .ok st' → st'.q.completed = [] ∧ ∃ K', K ≤ K' ∧ EInv env [] [] [] R K' A C st' := by
  obtain ⟨m, hm⟩ : ∃ m, m = C - K := ⟨_, rfl⟩
  induction m using Nat.strongRecOn generalizing st K with
  | _ m ih =>
    by_cases hc : st.q.completed = []
    · refine ⟨.ok st, .stop hc, ?_, ?_⟩
      · intro fuel hfuel
        have h1 := h.removed
        have h2 := h.costC
        obtain ⟨n, rfl⟩ : ∃ n, fuel = n + 1 := ⟨fuel - 1, by omega⟩
        simp [drain, qlens, hc]
      · rintro st' ⟨⟩
        exact ⟨hc, K, Nat.le_refl _, h⟩
    · cases hf : Hiku.fireTaskSets qlens (runCB env) st.q.completed st with
      | error e =>
        refine ⟨.error e, .fail hc hf, ?_, by simp⟩
        intro fuel hfuel
        have h1 := h.removed
        have h2 := h.costC
        obtain ⟨n, rfl⟩ : ∃ n, fuel = n + 1 := ⟨fuel - 1, by omega⟩
        obtain ⟨t, r, hl⟩ := List.exists_cons_of_ne_nil hc
        rw [hl] at hf
        have : (qlens.get st).completed = t :: r := hl
        simp [drain, this, hf]
      | ok s1 =>
        have h1 := h.completed.fireTaskSets hsd (nodup_completed h.inv) hf
        obtain ⟨t, r, hl⟩ := List.exists_cons_of_ne_nil hc
        have hlen : 0 < st.q.completed.length := by rw [hl]; simp
        have hK : K + st.q.completed.length ≤ C := by
          have := h1.removed; have := h1.costC; omega
        obtain ⟨res, d1, d2, d3⟩ := ih (C - (K + st.q.completed.length)) (by omega) h1 rfl
        refine ⟨res, .next hc hf d1, ?_, ?_⟩
        · intro fuel hfuel
          obtain ⟨n, rfl⟩ : ∃ n, fuel = n + 1 := ⟨fuel - 1, by omega⟩
          have hh : (qlens.get st).completed = t :: r := hl
          rw [hl] at hf
          simp only [drain, hh, hf, ok_bind']
          exact d2 n (by omega)
        · intro st' he
          obtain ⟨x1, K', x2, x3⟩ := d3 st' he
          exact ⟨x1, K', by omega, x3⟩

theorem EInv.log_done {l : List Nat} (h : EInv env D B run R K A C st) :
    EInv env D B run R K A C { st with log := st.log ++ [.done l] } :=
  ⟨h.inv, h.loc, h.owned, h.comp, h.rounds, h.removed, by
    simp only [callCount_append]; simpa [callCount] using h.calls, h.costA, h.costC⟩

theorem EInv.progresses (hsd : SubsDecrease env) (h : EInv env [] [] [] R K A C st)
    {done : List Nat} (hne : done ≠ []) (hsub : ∀ f ∈ done, f ∈ st.q.outstanding) :
    ∃ r, Progresses qlens (runCB env) done st r ∧
      (∀ fuel, C < fuel → progress qlens (runCB env) fuel done st = r) ∧
      ∀ st', r = .ok st' → st'.q.completed = [] ∧ ∃ K', EInv env [] [] [] (R + 1) K' A C st' := by
  obtain ⟨f, r, hd⟩ := List.exists_cons_of_ne_nil hne
  have h1 := h.dropDone (done := done) ⟨f, by simp [hd], hsub f (by simp [hd])⟩
  have hlt : ∀ f ∈ done, f < st.results.length := by
    intro f hf
    obtain ⟨t, s, g1, g2⟩ := (Queue.mem_outstanding h.inv.nd).1 (hsub f hf)
    exact h.inv.flt t s f g1 g2
  have hput : qlens.put st ((qlens.get st).dropDone done) = { st with q := st.q.dropDone done } := rfl
  cases hf : Hiku.fireFutures qlens (runCB env) done (qlens.put st ((qlens.get st).dropDone done)) with
  | error e =>
    refine ⟨.error e, .fail hf, ?_, by simp⟩
    intro fuel _
    simp only [progress, hf, error_bind']
  | ok s1 =>
    rw [hput] at hf
    have h2 := EInv.fireFutures (st := { st with q := st.q.dropDone done }) hsd hlt h1 hf
    obtain ⟨res, d1, d2, d3⟩ := h2.drains hsd
    rw [← hput] at hf
    refine ⟨res, .ok hf d1, ?_, ?_⟩
    · intro fuel hfuel
      simp only [progress, hf, ok_bind']
      exact d2 fuel (by omega)
    · intro st' he
      obtain ⟨x1, K', _, x3⟩ := d3 st' he
      exact ⟨x1, K', x3⟩

theorem EInv.loops (hsd : SubsDecrease env) {choose : Nat → List Nat → List Nat}
    (hch : ValidChoice choose) (h : EInv env [] [] [] R K A C st) (round : Nat) :
    ∃ n r, Loops env choose round st n r ∧ n + R ≤ A ∧
      (∀ fuel inner, A < fuel + R → C < inner → execLoop env choose inner fuel round st = r) ∧
      ∀ st', r = .ok st' → st'.q.outstanding = [] ∧
        (st.q.outstanding ≠ [] ∨ st.q.completed = [] → st'.q.completed = []) ∧
        ∃ R' K', EInv env [] [] [] R' K' A C st' := by
  obtain ⟨m, hm⟩ : ∃ m, m = A - R := ⟨_, rfl⟩
  induction m using Nat.strongRecOn generalizing st R K round with
  | _ m ih =>
    have hRA : st.q.outstanding.length + R ≤ A := by
      have := h.rounds; have := h.costA; omega
    by_cases ho : st.q.outstanding = []
    · refine ⟨0, .ok st, .stop ho, by omega, ?_, ?_⟩
      · intro fuel inner hfuel _
        obtain ⟨k, rfl⟩ : ∃ k, fuel = k + 1 := ⟨fuel - 1, by omega⟩
        simp [execLoop, ho]
      · rintro st' ⟨⟩
        exact ⟨ho, fun hh => hh.resolve_left (fun hh => hh ho), R, K, h⟩
    · have hlen : 0 < st.q.outstanding.length := List.length_pos_iff.2 ho
      obtain ⟨hc1, hc2⟩ := hch round _ ho
      obtain ⟨r, p1, p2, p3⟩ := (h.log_done (l := choose round st.q.outstanding)).progresses hsd hc1 hc2
      have hne : st.q.outstanding.isEmpty = false := by simpa using ho
      cases r with
      | error e =>
        refine ⟨1, .error e, .fail ho p1, by omega, ?_, by simp⟩
        intro fuel inner hfuel hin
        obtain ⟨k, rfl⟩ : ∃ k, fuel = k + 1 := ⟨fuel - 1, by omega⟩
        simp only [execLoop, hne, p2 inner hin, error_bind']
        rfl
      | ok s1 =>
        obtain ⟨x1, K', x2⟩ := p3 s1 rfl
        obtain ⟨n, res, l1, l2, l3, l4⟩ := ih (A - (R + 1)) (by omega) x2 (round + 1) rfl
        refine ⟨n + 1, res, .next ho p1 l1, by omega, ?_, ?_⟩
        · intro fuel inner hfuel hin
          obtain ⟨k, rfl⟩ : ∃ k, fuel = k + 1 := ⟨fuel - 1, by omega⟩
          simp only [execLoop, hne, p2 inner hin, ok_bind']
          exact l3 k inner (by omega) hin
        · intro st' he
          obtain ⟨y1, y2, y3⟩ := l4 st' he
          exact ⟨y1, fun _ => y2 (.inr x1), y3⟩

end

end Hiku
