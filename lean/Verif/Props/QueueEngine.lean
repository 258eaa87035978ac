import Verif.Proofs.EngineQueue
import Verif.Spec.Fires
import Verif.Props.Termination
import Verif.Props.Queue

/-! # C17 for runs of the engine

`c17_complete_partial` is a statement on all programs whose callbacks do not use completed task sets;
here the engine itself. -/

namespace Hiku

variable {env : Env} {D : List Obj} {B : List Nat} {R K A C : Nat} {st st' : St}

/-- what holds when a callback of the task set `t` starts -/
structure Complete (q : Queue CB) (t : Nat) : Prop where
  tasks : dget q.futures t = some []
  forks : dget q.forks t = some []
  gone : q.cbs (.ts t) = []
  tree : Tree q
  order : ∀ p l d, dget q.forks p = some l → d ∈ l → p < d

theorem runningIn_einv (hsd : SubsDecrease env) {l : List CB} {cb : CB}
    (h : EInv env D B l R K A C st) (ht : Tree st.q) (hr : RunningIn (runCB env) l st cb st')
    {o : Obj} (ho : ¬ freshObj st.results.length st.q.nextTs o) :
    Tree st'.q ∧ (∃ n, st'.q.Inv n) ∧ (∀ t ∈ B, dget st'.q.futures t = some [] ∧ dget st'.q.forks t = some []) ∧
      st'.q.cbs o = st.q.cbs o := by
  suffices gen : ∀ nf nt, nf ≤ st.results.length → nt ≤ st.q.nextTs → ¬ freshObj nf nt o →
      Tree st'.q ∧ (∃ n, st'.q.Inv n) ∧ (∀ t ∈ B, dget st'.q.futures t = some [] ∧ dget st'.q.forks t = some []) ∧
      st'.q.cbs o = st.q.cbs o from gen _ _ (Nat.le_refl _) (Nat.le_refl _) ho
  clear ho
  intro nf nt hnf hnt ho
  induction hr with
  | here => exact ⟨ht, ⟨_, h.inv⟩, h.comp, rfl⟩
  | @later c r s s' cb s'' h1 _ ih =>
    have e1 : EInv env D B ([c] ++ r) R K A C s := h
    have e2 : runCallbacks (runCB env) [c] s = .ok s' := by simp [runCallbacks, h1]
    obtain ⟨m1, m2⟩ := runCallbacks_mono hsd e1 e2
    obtain ⟨i1, i0, i2, i3⟩ := ih (h.step hsd h1) (op_runCB tree_closed h1 ht) (by omega) (by omega)
    refine ⟨i1, i0, i2, ?_⟩
    rw [i3]
    refine runCallbacks_cbs hsd e1 e2 ?_
    intro hf
    apply ho
    cases o with
    | fut f => simp only [freshObj] at hf ⊢; omega
    | ts t => simp only [freshObj] at hf ⊢; omega

theorem ownedBy {t : Nat} {r : List Nat} (h : EInv env [] (t :: r) [] R K A C st) :
    ∀ cb, (Obj.ts t, cb) ∈ st.q.regs → Owned env (t :: r) st cb := by
  intro c hm
  obtain ⟨⟨wf, g1, g2, g3, _⟩, g5⟩ := h.loc _ c hm
  refine ⟨wf, g1, g2, g3, ?_⟩
  rcases g5 with ⟨wf1, e1, s, e2, e3⟩ | g5
  · rw [g1] at e1; cases e1
    intro hmem
    rw [(h.comp _ hmem).2] at e2; cases e2
    simp at e3
  · simp at g5

theorem fireCallbacks_tree {o : Obj} (hr : fireCallbacks qlens (runCB env) o st = .ok st')
    (ht : Tree st.q) : Tree st'.q := by
  simp only [fireCallbacks, qlens] at hr
  exact op_runCallbacks tree_closed hr (ht.pop o)

theorem fireFutures_tree {l : List Nat} (hr : fireFutures qlens (runCB env) l st = .ok st')
    (ht : Tree st.q) : Tree st'.q := by
  induction l generalizing st with
  | nil => simp [fireFutures] at hr; subst hr; exact ht
  | cons f r ih =>
    simp only [fireFutures, bind_ok_iff] at hr
    obtain ⟨s1, h1, h2⟩ := hr
    exact ih h2 (fireCallbacks_tree h1 ht)

theorem fire_ts_comp (hsd : SubsDecrease env) {t : Nat} {r : List Nat}
    (h : EInv env [] (t :: r) [] R K A C st)
    (hr : fireCallbacks qlens (runCB env) (.ts t) st = .ok st') : dget st'.q.forks t = some [] := by
  simp only [fireCallbacks, qlens] at hr
  have h1 := h.pop (o := .ts t) (ownedBy h)
  have h2 : EInv env [] (t :: r) (st.q.cbs (.ts t) ++ []) R K A C
    { st with q := (st.q.popCallbacks (.ts t)).2 } := by simpa using h1
  exact ((h2.runCallbacks hsd hr).comp t (by simp)).2

theorem fireTaskSets_tree (hsd : SubsDecrease env) {l : List Nat} (hnd : l.Nodup)
    (h : EInv env [] l [] R K A C st) (hr : fireTaskSets qlens (runCB env) l st = .ok st')
    (ht : Tree st.q) : Tree st'.q := by
  induction l generalizing st K with
  | nil => simp [fireTaskSets] at hr; subst hr; exact ht
  | cons t r ih =>
    simp only [fireTaskSets, bind_ok_iff] at hr
    obtain ⟨s1, h1, h2⟩ := hr
    rw [List.nodup_cons] at hnd
    exact ih hnd.2 (h.fire_ts hsd hnd.1 h1) h2
      ((fireCallbacks_tree h1 ht).removeTs (fire_ts_comp hsd h h1))

theorem firedIn_complete (hsd : SubsDecrease env) {l : List Nat} (hnd : l.Nodup) {t : Nat} {cb : CB}
    (h : EInv env [] l [] R K A C st) (ht : Tree st.q)
    (hr : FiredIn qlens (runCB env) l st t cb st') : Complete st'.q t := by
  induction hr generalizing K with
  | @here t r s cb s' hr =>
    have h1 := h.pop (o := .ts t) (ownedBy h)
    have hlt : t < s.q.nextTs := h.inv.lt _ _ (h.comp t (by simp)).1
    obtain ⟨g1, ⟨n, g0⟩, g2, g3⟩ := runningIn_einv hsd h1 (ht.pop _) hr (o := .ts t) (by
      simp only [freshObj, Queue.popCallbacks]; omega)
    refine ⟨(g2 t (by simp)).1, (g2 t (by simp)).2, ?_, g1, fun p l d x y => (g0.kid p l d x y).1⟩
    rw [g3]
    show (s.q.popCallbacks (.ts t)).2.cbs (.ts t) = []
    rw [Queue.cbs_pop, if_pos rfl]
  | @later u r s s' t cb s'' h1 _ ih =>
    rw [List.nodup_cons] at hnd
    exact ih hnd.2 (h.fire_ts hsd hnd.1 h1)
      ((fireCallbacks_tree h1 ht).removeTs (fire_ts_comp hsd h h1))

theorem drainFires_complete (hsd : SubsDecrease env) {t : Nat} {cb : CB}
    (h : EInv env [] [] [] R K A C st) (ht : Tree st.q)
    (hr : DrainFires qlens (runCB env) st t cb st') : Complete st'.q t := by
  induction hr generalizing K with
  | now hf => exact firedIn_complete hsd (nodup_completed h.inv) h.completed ht hf
  | later hf _ ih =>
    exact ih (h.completed.fireTaskSets hsd (nodup_completed h.inv) hf)
      (fireTaskSets_tree hsd (nodup_completed h.inv) h.completed hf ht)

theorem drains_tree (hsd : SubsDecrease env) {r : Except Err St}
    (h : EInv env [] [] [] R K A C st) (ht : Tree st.q)
    (hr : Drains qlens (runCB env) st r) (he : r = .ok st') : Tree st'.q := by
  induction hr generalizing K with
  | stop => cases he; exact ht
  | fail => simp at he
  | next _ hf _ ih =>
    exact ih (h.completed.fireTaskSets hsd (nodup_completed h.inv) hf)
      (fireTaskSets_tree hsd (nodup_completed h.inv) h.completed hf ht) he

theorem progress_start (hsd : SubsDecrease env) {done : List Nat}
    (hne : done ≠ []) (hsub : ∀ f ∈ done, f ∈ st.q.outstanding)
    (h : EInv env [] [] [] R K A C st) (ht : Tree st.q) {s1 : St}
    (hf : fireFutures qlens (runCB env) done (qlens.put st ((qlens.get st).dropDone done)) = .ok s1) :
    EInv env [] [] [] (R + 1) K A C s1 ∧ Tree s1.q := by
  obtain ⟨f, r, hd⟩ := List.exists_cons_of_ne_nil hne
  have h1 := h.dropDone (done := done) ⟨f, by simp [hd], hsub f (by simp [hd])⟩
  have hlt : ∀ f ∈ done, f < st.results.length := by
    intro f hf
    obtain ⟨t, s, g1, g2⟩ := (Queue.mem_outstanding h.inv.nd).1 (hsub f hf)
    exact h.inv.flt t s f g1 g2
  exact ⟨EInv.fireFutures (st := { st with q := st.q.dropDone done }) hsd hlt h1 hf,
    fireFutures_tree hf (ht.dropDone done)⟩

theorem between_tree (hsd : SubsDecrease env) {choose : Nat → List Nat → List Nat}
    (hch : ValidChoice choose) {round round' : Nat}
    (hb : Between env choose round st round' st') (h : EInv env [] [] [] R K A C st) (ht : Tree st.q) :
    ∃ R' K', EInv env [] [] [] R' K' A C st' ∧ Tree st'.q := by
  induction hb generalizing R K with
  | here => exact ⟨R, K, h, ht⟩
  | @next round st st1 round' st' ho hp _ ih =>
    obtain ⟨hc1, hc2⟩ := hch round _ ho
    obtain ⟨r, p1, p2, p3⟩ := (h.log_done (l := choose round st.q.outstanding)).progresses hsd hc1 hc2
    have := progresses_unique p1 hp
    subst this
    obtain ⟨_, K', e⟩ := p3 st1 rfl
    refine ih e ?_
    cases hp with
    | ok hf hd =>
      obtain ⟨g1, g2⟩ := progress_start (st := { st with log := st.log ++ [.done (choose round st.q.outstanding)] })
          hsd hc1 hc2
        (h.log_done (l := choose round st.q.outstanding)) ht hf
      exact drains_tree hsd g1 g2 hd rfl

theorem start_tree {g : Nat} {q : QNode} (h : startQuery env g q = .ok st) : Tree st.q := by
  unfold startQuery at h
  split at h
  · simp at h
  · simp only [start_queue, bind_ok_iff, ok_bind'] at h
    obtain ⟨q', hq, h⟩ := h
    refine op_processNode tree_closed (op_subCall tree_closed _) h ⟨?_, ?_, ?_⟩
    · intro t s hs
      simp only [dget_cons] at hs
      split at hs
      · rename_i e; subst e; simp
      · simp at hs
    · intro t; simp only [dget_cons]
    · intro t ht hn
      simp only [dget_cons] at ht
      rw [if_neg (Ne.symm hn)] at ht
      simp at ht

/-- C17 for the engine: whenever a callback of a task set starts during the execution of a query, for
every graph, query, world of data functions and schedule, no task of this set and no task set forked
from it, directly or not, is in the queue; the callback itself is not in the queue any more, so it
cannot run again; and all task sets in the queue hang below the first one, the set of the query, so
nothing was forgotten. -/
theorem c17_engine (hsd : SubsDecrease env) {choose : Nat → List Nat → List Nat}
    (hch : ValidChoice choose) {g round : Nat} {q : QNode} {st0 st s : St}
    (h0 : startQuery env g q = .ok st0) (hb : Between env choose 0 st0 round st)
    (ho : st.q.outstanding ≠ []) {t : Nat} {cb : CB}
    (hf : ProgressFires qlens (runCB env) (choose round st.q.outstanding)
      { st with log := st.log ++ [.done (choose round st.q.outstanding)] } t cb s) :
    dget s.q.futures t = some [] ∧ (∀ d, ¬ WaitsFor s.q t d) ∧
      (dget s.q.callbacks (.ts t)).getD [] = [] ∧
      ∀ d, (dget s.q.futures d).isSome → d = 0 ∨ WaitsFor s.q 0 d := by
  obtain ⟨R, K, e, ht⟩ := between_tree hsd hch hb (start_einv hsd h0).1 (start_tree h0)
  obtain ⟨hc1, hc2⟩ := hch round _ ho
  obtain ⟨s1, f1, f2⟩ := hf
  obtain ⟨g1, g2⟩ := progress_start (st := { st with log := st.log ++ [.done (choose round st.q.outstanding)] })
      hsd hc1 hc2
    (e.log_done (l := choose round st.q.outstanding)) ht f1
  have hc := drainFires_complete hsd g1 g2 f2
  refine ⟨hc.tasks, ?_, hc.gone, ?_⟩
  · intro d hw
    induction hw with
    | child x1 x2 => rw [hc.forks] at x1; cases x1; simp at x2
    | deeper _ _ _ ih => exact ih
  · intro d
    induction d using Nat.strongRecOn with
    | _ d ih =>
      intro hd
      by_cases e : d = 0
      · exact .inl e
      · obtain ⟨p, l, y1, y2⟩ := hc.tree.up d hd e
        have z1 := hc.order p l d y1 y2
        rcases ih p z1 ((hc.tree.keys p).2 (by simp [y1])) with rfl | ih
        · exact .inr (.child y1 y2)
        · exact .inr (.deeper ih y1 y2)

/-! ### The hypotheses are met: the callback of the task set of the sub-graph call in the example -/

def exAll : Nat → List Nat → List Nat := fun _ l => l

def exS0 : St := (startQuery exEnv 1 exQuery).toOption.getD {}

def exS1 : St :=
  (progress qlens (runCB exEnv) 10 [0] { exS0 with log := exS0.log ++ [.done [0]] }).toOption.getD {}

def exDone : List Nat := exAll 1 exS1.q.outstanding

def exS2 : St := { exS1 with log := exS1.log ++ [.done exDone] }

def exS3 : St :=
  (fireFutures qlens (runCB exEnv) exDone (qlens.put exS2 ((qlens.get exS2).dropDone exDone))).toOption.getD {}

example : startQuery exEnv 1 exQuery = .ok exS0 ∧ Between exEnv exAll 0 exS0 1 exS1 ∧
    exS1.q.outstanding ≠ [] ∧
    ∃ cb s, ProgressFires qlens (runCB exEnv) (exAll 1 exS1.q.outstanding)
      { exS1 with log := exS1.log ++ [.done (exAll 1 exS1.q.outstanding)] } 1 cb s := by
  have h0 : startQuery exEnv 1 exQuery = .ok exS0 := rfl
  have ho : exS0.q.outstanding = [0] := rfl
  have h1 : progress qlens (runCB exEnv) 10 [0] { exS0 with log := exS0.log ++ [.done [0]] } = .ok exS1 := rfl
  have h2 : fireFutures qlens (runCB exEnv) exDone (qlens.put exS2 ((qlens.get exS2).dropDone exDone)) =
    .ok exS3 := rfl
  have h3 : exS1.q.outstanding.length = 2 := rfl
  have h4 : (qlens.get exS3).completed = [1] := rfl
  obtain ⟨cb, hcb⟩ : ∃ cb, ((qlens.get exS3).popCallbacks (.ts 1)).1 = [cb] := ⟨_, rfl⟩
  refine ⟨h0, .next (by rw [ho]; simp) ?_ .here, ?_, cb,
    qlens.put exS3 ((qlens.get exS3).popCallbacks (.ts 1)).2, exS3, h2, .now ?_⟩
  · have e : exAll 0 exS0.q.outstanding = [0] := ho
    rw [e]
    exact progresses_of_progress h1
  · intro e; rw [e] at h3; simp at h3
  · rw [h4]
    have := RunningIn.here (run := runCB exEnv) (cb := cb) (r := [])
      (s := qlens.put exS3 ((qlens.get exS3).popCallbacks (.ts 1)).2)
    rw [← hcb] at this
    exact .here this

end Hiku
