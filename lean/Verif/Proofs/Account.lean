import Verif.Proofs.Stable
import Verif.Props.Termination

/-! Every submitted task is either outstanding or was reported as finished. -/

namespace Hiku

/-- the submitted futures which are not in `F` -/
def unreported (F : List Nat) (n : Nat) : List Nat := (List.range n).filter fun f => f ∉ F

/-- the outstanding futures are those which are not in `F` -/
def Acc (F : List Nat) (st : St) : Prop := st.q.outstanding.Perm (unreported F st.results.length)

variable {env : Env} {D : List Obj} {B : List Nat} {run : List CB} {R K A C : Nat} {F : List Nat} {st st' : St}

theorem unreported_append {n k : Nat} (hF : ∀ f ∈ F, f < n) : unreported F (n + k) = unreported F n ++ List.range' n k := by
  unfold unreported
  rw [List.range_add, List.filter_append]
  congr 1
  rw [List.range'_eq_map_range, List.filter_eq_self]
  intro x hx
  simp only [List.mem_map, List.mem_range] at hx
  obtain ⟨i, _, rfl⟩ := hx
  simp only [decide_eq_true_eq]
  intro h
  have := hF _ h
  omega

theorem unreported_done {n : Nat} {done : List Nat} :
    (unreported F n).filter (fun f => f ∉ done) = unreported (F ++ done) n := by
  unfold unreported
  rw [List.filter_filter]
  congr 1
  funext f
  simp only [List.mem_append, not_or, Bool.decide_and]
  rw [Bool.and_comm]

structure AccB (F : List Nat) (st : St) : Prop where
  acc : Acc F st
  lt : ∀ f ∈ F, f < st.results.length

theorem AccB.step (hsd : SubsDecrease env) {cb : CB} (h : EInv env D B (cb :: run) R K A C st) (ha : AccB F st)
    (hr : runCB env cb st = .ok st') : AccB F st' := by
  obtain ⟨wf, hw, hsc, hl, hB⟩ := h.owned cb (by simp)
  obtain ⟨n1, f1⟩ := frame_runCB (a := 1) (b := 0) hsd h.inv hw rfl hl hsc (Nat.le_refl _) (Nat.le_refl _) hr
  have hle := f1.results_le
  refine ⟨?_, fun f hf => Nat.lt_of_lt_of_le (ha.lt f hf) hle⟩
  unfold Acc
  rw [show st'.results.length = st.results.length + (st'.results.length - st.results.length) by omega,
    unreported_append ha.lt]
  exact f1.outp.trans (ha.acc.append_right _)

theorem AccB.runCallbacks (hsd : SubsDecrease env) {l : List CB} (h : EInv env D B (l ++ run) R K A C st) (ha : AccB F st)
    (hr : runCallbacks (runCB env) l st = .ok st') : AccB F st' := by
  induction l generalizing st with
  | nil => simp [Hiku.runCallbacks] at hr; subst hr; exact ha
  | cons c r ih =>
    simp only [Hiku.runCallbacks, bind_ok_iff] at hr
    obtain ⟨s1, h1, h2⟩ := hr
    exact ih (EInv.step hsd h h1) (AccB.step hsd h ha h1) h2

theorem AccB.fireFutures (hsd : SubsDecrease env) {done : List Nat} (hf : ∀ f ∈ done, f < st.results.length)
    (h : EInv env (done.map Obj.fut) [] [] R K A C st) (ha : AccB F st)
    (hr : fireFutures qlens (runCB env) done st = .ok st') : AccB F st' := by
  induction done generalizing st with
  | nil => simp [Hiku.fireFutures] at hr; subst hr; exact ha
  | cons f r ih =>
    simp only [Hiku.fireFutures, bind_ok_iff] at hr
    obtain ⟨s1, h1, h2⟩ := hr
    obtain ⟨g1, g2⟩ := h.fire_fut hsd (hf f (by simp)) h1
    refine ih (fun x hx => Nat.lt_of_lt_of_le (hf x (by simp [hx])) g2) g1 ?_ h2
    simp only [fireCallbacks, qlens] at h1
    have h3 := h.pop (o := .fut f) fun c hm => (h.loc _ c hm).1
    have h4 : EInv env ((f :: r).map Obj.fut) [] (st.q.cbs (.fut f) ++ []) R K A C
      { st with q := (st.q.popCallbacks (.fut f)).2 } := by simpa using h3
    exact AccB.runCallbacks hsd h4 ⟨ha.acc, ha.lt⟩ h1

theorem AccB.fire_ts (hsd : SubsDecrease env) {t : Nat} {r : List Nat}
    (h : EInv env [] (t :: r) [] R K A C st) (ha : AccB F st)
    (hr : fireCallbacks qlens (runCB env) (.ts t) st = .ok st') :
    AccB F { st' with q := st'.q.removeTs t } := by
  simp only [fireCallbacks, qlens] at hr
  have hown : ∀ cb, (Obj.ts t, cb) ∈ st.q.regs → Owned env (t :: r) st cb := by
    intro c hm
    obtain ⟨⟨wf, g1, g2, g3, _⟩, g5⟩ := h.loc _ c hm
    refine ⟨wf, g1, g2, g3, ?_⟩
    rcases g5 with ⟨wf1, e1, s, e2, e3⟩ | g5
    · rw [g1] at e1; cases e1
      intro hmem
      rw [(h.comp _ hmem).2] at e2; cases e2
      simp at e3
    · simp at g5
  have h1 := h.pop (o := .ts t) hown
  have h2 : EInv env [] (t :: r) (st.q.cbs (.ts t) ++ []) R K A C
    { st with q := (st.q.popCallbacks (.ts t)).2 } := by simpa using h1
  have h3 := h2.runCallbacks hsd hr
  have h4 := AccB.runCallbacks hsd h2 ⟨ha.acc, ha.lt⟩ hr
  refine ⟨?_, h4.lt⟩
  unfold Acc
  simp only
  rw [Queue.outstanding_removeTs _ h3.inv.nd (h3.comp t (by simp)).1]
  exact h4.acc

theorem AccB.fireTaskSets (hsd : SubsDecrease env) {l : List Nat} (hnd : l.Nodup)
    (h : EInv env [] l [] R K A C st) (ha : AccB F st) (hr : fireTaskSets qlens (runCB env) l st = .ok st') : AccB F st' := by
  induction l generalizing st K with
  | nil => simp [Hiku.fireTaskSets] at hr; subst hr; exact ha
  | cons t r ih =>
    simp only [Hiku.fireTaskSets, bind_ok_iff] at hr
    obtain ⟨s1, h1, h2⟩ := hr
    rw [List.nodup_cons] at hnd
    exact ih hnd.2 (h.fire_ts hsd hnd.1 h1) (AccB.fire_ts hsd h ha h1) h2

theorem AccB.drains (hsd : SubsDecrease env) {r : Except Err St} (hd : Drains qlens (runCB env) st r) :
    ∀ {K : Nat}, EInv env [] [] [] R K A C st → AccB F st → ∀ st', r = .ok st' → AccB F st' := by
  induction hd with
  | stop => intro K _ ha st' e; cases e; exact ha
  | fail => intro K _ _ st' e; cases e
  | @next s s1 r _ hf _ ih =>
    intro K h ha
    have h0 := h.completed
    exact ih (h0.fireTaskSets hsd (nodup_completed h.inv) hf) (AccB.fireTaskSets hsd (nodup_completed h.inv) h0 ha hf)

theorem AccB.progresses (hsd : SubsDecrease env) (h : EInv env [] [] [] R K A C st) (ha : AccB F st)
    {done : List Nat} (hne : done ≠ []) (hsub : ∀ f ∈ done, f ∈ st.q.outstanding)
    (hp : Progresses qlens (runCB env) done st (.ok st')) : AccB (F ++ done) st' := by
  obtain ⟨f, r, hd⟩ := List.exists_cons_of_ne_nil hne
  have h1 := h.dropDone (done := done) ⟨f, by simp [hd], hsub f (by simp [hd])⟩
  have hlt : ∀ f ∈ done, f < st.results.length := by
    intro f hf
    obtain ⟨t, s, g1, g2⟩ := (Queue.mem_outstanding h.inv.nd).1 (hsub f hf)
    exact h.inv.flt t s f g1 g2
  have ha1 : AccB (F ++ done) { st with q := st.q.dropDone done } := by
    refine ⟨?_, ?_⟩
    · unfold Acc
      simp only [Queue.outstanding_dropDone]
      rw [← unreported_done]
      exact ha.acc.filter _
    · intro f hf
      rcases List.mem_append.1 hf with hf | hf
      · exact ha.lt f hf
      · exact hlt f hf
  cases hp with
  | ok hf hd =>
    have h2 := EInv.fireFutures (st := { st with q := st.q.dropDone done }) hsd hlt h1 hf
    exact AccB.drains hsd hd h2 (AccB.fireFutures (st := { st with q := st.q.dropDone done }) hsd hlt h1 ha1 hf) _ rfl

/-- the futures which were reported as finished -/
def reported : List Ev → List Nat
  | [] => []
  | .done l :: r => l ++ reported r
  | .call _ :: r => reported r

theorem reported_append (l m : List Ev) : reported (l ++ m) = reported l ++ reported m := by
  induction l with
  | nil => rfl
  | cons x r ih => cases x <;> simp [reported, ih]

theorem mem_reported {l : List Ev} {f : Nat} : f ∈ reported l ↔ ∃ d, Ev.done d ∈ l ∧ f ∈ d := by
  induction l with
  | nil => simp [reported]
  | cons x r ih =>
    cases x with
    | call s => simp [reported, ih]
    | done d =>
      simp only [reported, List.mem_append, ih, List.mem_cons]
      constructor
      · rintro (h | ⟨d', h1, h2⟩)
        · exact ⟨d, .inl rfl, h⟩
        · exact ⟨d', .inr h1, h2⟩
      · rintro ⟨d', h1 | h1, h2⟩
        · cases h1; exact .inl h2
        · exact .inr ⟨d', h1, h2⟩

theorem reported_stable (F : List Nat) : Stable env fun st => reported st.log = F where
  submit := by
    intro w nd f args st st' fut h hs
    obtain ⟨wf, q, _, _, rfl, _, rfl⟩ := submitCall_inv hs
    simp only [reported_append, h]
    simp [reported]
  queue := fun _ h => h
  wfs := fun _ h => h

theorem reported_progresses {done : List Nat} (hp : Progresses qlens (runCB env) done st (.ok st')) :
    reported st'.log = reported st.log :=
  progresses_preserves (P := fun s => reported s.log = reported st.log) (fun _ _ h => h)
    (fun _ _ _ h hr => (reported_stable _).runCB h hr) rfl hp

theorem account_between (hsd : SubsDecrease env) {choose : Nat → List Nat → List Nat} (hch : ValidChoice choose)
    {round round' : Nat} (hb : Between env choose round st round' st') (h : EInv env [] [] [] R K A C st)
    (ha : AccB (reported st.log) st) : AccB (reported st'.log) st' := by
  induction hb generalizing R K with
  | here => exact ha
  | @next round st st1 round' st' ho hp _ ih =>
    obtain ⟨hc1, hc2⟩ := hch round _ ho
    have hl := h.log_done (l := choose round st.q.outstanding)
    obtain ⟨r, p1, p2, p3⟩ := hl.progresses hsd hc1 hc2
    have := progresses_unique p1 hp
    subst this
    obtain ⟨_, K', e⟩ := p3 st1 rfl
    refine ih e ?_
    rw [reported_progresses hp, reported_append]
    have := AccB.progresses (F := reported st.log) hsd hl ⟨ha.acc, ha.lt⟩ hc1 hc2 hp
    simpa [reported] using this

theorem account_start (hsd : SubsDecrease env) {g : Nat} {q : QNode} (h : startQuery env g q = .ok st) :
    AccB (reported st.log) st := by
  have h0 : reported st.log = [] := (reported_stable []).start rfl h
  rw [h0]
  refine ⟨?_, by simp⟩
  unfold startQuery at h
  split at h
  · simp at h
  · rename_i gr hgr
    simp only [bind_ok_iff] at h
    obtain ⟨q', _, ⟨qu, ts⟩, h2, h⟩ := h
    simp only [start_queue] at h2
    cases h2
    have hlev : g ≤ env.levels := by
      have := (List.getElem?_eq_some_iff.1 hgr).1
      simp only [Env.levels]; omega
    obtain ⟨n1, f1⟩ := frame_processNode (a := 1) (b := 0) (tw := 0) (nf0 := 0) (nt0 := 0)
      (wf := { graph := g, query := q', ts := 0 }) (g := gr) hsd
      (subFrame_subCall hsd env.levels) start_inv rfl rfl (by simp [dget_cons]) hgr hlev (.inl rfl)
      (Nat.zero_le _) (Nat.zero_le _) h
    have := f1.outp
    simpa [Acc, unreported, newFuts, Queue.outstanding, List.range_eq_range'] using this

end Hiku
