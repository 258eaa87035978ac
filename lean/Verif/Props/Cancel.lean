import Verif.Model.Executors
import Verif.Proofs.Account
import Verif.Props.Semantics

/-! # C52: cancelling an asynchronous execution cancels exactly the unfinished tasks -/

namespace Hiku

variable {env : Env}

/-- the task number `f` was submitted -/
def Submitted (st : St) (f : Nat) : Prop := ∃ s, Ev.call s ∈ st.log ∧ s.fut = f

/-- the task number `f` was reported by `wait` as finished -/
def ReportedDone (st : St) (f : Nat) : Prop := ∃ d, Ev.done d ∈ st.log ∧ f ∈ d

theorem logRes_done (st : St) (l : List Nat) (h : LogRes env st) : LogRes env { st with log := st.log ++ [.done l] } := by
  refine ⟨fun s hs => h.1 s (by simpa using hs), fun i r hi => ?_⟩
  obtain ⟨s, h3, h4⟩ := h.2 i r hi
  exact ⟨s, List.mem_append_left _ h3, h4⟩

theorem logRes_between {choose : Nat → List Nat → List Nat} {round round' : Nat} {st st' : St}
    (hb : Between env choose round st round' st') (h : LogRes env st) : LogRes env st' := by
  induction hb with
  | here => exact h
  | @next round st st1 round' st' _ hp _ ih =>
    exact ih (progresses_preserves (P := LogRes env) (fun _ _ h => h)
      (fun _ _ _ h hr => logRes_stable.runCB h hr) (logRes_done st (choose round st.q.outstanding) h) hp)

theorem logRes_iff {st : St} (h : LogRes env st) (f : Nat) : f < st.results.length ↔ Submitted st f := by
  constructor
  · intro hf
    exact h.2 f _ (List.getElem?_eq_getElem hf)
  · rintro ⟨s, hs, rfl⟩
    exact (List.getElem?_eq_some_iff.1 (h.1 s hs)).1

/-- C52, the invariant: for any graphs and data functions and every schedule, at every moment when the
executor waits, the tasks it waits for are exactly those which were submitted and not reported as
finished yet, each of them once. -/
theorem c52_accounted (hsd : SubsDecrease env) {choose : Nat → List Nat → List Nat} (hch : ValidChoice choose)
    {g round : Nat} {q : QNode} {st st' : St} (h : startQuery env g q = .ok st)
    (hb : Between env choose 0 st round st') :
    st'.q.outstanding.Nodup ∧ ∀ f, f ∈ st'.q.outstanding ↔ Submitted st' f ∧ ¬ ReportedDone st' f := by
  have ha := account_between hsd hch hb (start_einv hsd h).1 (account_start hsd h)
  have hl : LogRes env st' := logRes_between hb (logRes_stable.start ⟨by simp, by simp⟩ h)
  refine ⟨ha.acc.nodup_iff.2 (List.nodup_range.filter _), ?_⟩
  intro f
  rw [ha.acc.mem_iff, ← logRes_iff hl]
  simp only [unreported, List.mem_filter, List.mem_range, decide_eq_true_eq, mem_reported, ReportedDone]

/-- `wait` returns at least one of the tasks it was given, or is cancelled -/
def ValidWake (wake : Nat → List Nat → Wake) : Prop :=
  ∀ round out l, out ≠ [] → wake round out = .done l → l ≠ [] ∧ ∀ f ∈ l, f ∈ out

/-- the same schedule without cancellation -/
def choiceOf (wake : Nat → List Nat → Wake) (round : Nat) (out : List Nat) : List Nat :=
  match wake round out with
  | .done l => l
  | .cancelled => out

theorem validChoice_of {wake : Nat → List Nat → Wake} (h : ValidWake wake) : ValidChoice (choiceOf wake) := by
  intro round out ho
  unfold choiceOf
  cases hw : wake round out with
  | done l => exact h round out l ho hw
  | cancelled => exact ⟨ho, fun _ h => h⟩

theorem progress_progresses {inner : Nat} {done : List Nat} {st st' : St}
    (h : progress qlens (runCB env) inner done st = .ok st') : Progresses qlens (runCB env) done st (.ok st') := by
  have key : ∀ (n : Nat) (s : St), drain qlens (runCB env) n s = .ok st' → Drains qlens (runCB env) s (.ok st') := by
    intro n
    induction n with
    | zero => intro s h; simp [drain] at h
    | succ n ih =>
      intro s h
      simp only [drain] at h
      split at h
      · rename_i hc
        cases h
        exact .stop (by simpa using hc)
      · rename_i hc
        simp only [bind_ok_iff] at h
        obtain ⟨s1, h1, h2⟩ := h
        exact .next (by rw [hc]; simp) (by rw [hc]; exact h1) (ih _ h2)
  simp only [progress, bind_ok_iff] at h
  obtain ⟨s1, h1, h2⟩ := h
  exact .ok h1 (key _ _ h2)

theorem asyncLoop_between {wake : Nat → List Nat → Wake} {inner fuel round : Nat} {st st' : St} {tasks : List Nat}
    (h : asyncLoop env wake inner fuel round st = .cancelled tasks st') :
    ∃ round', Between env (choiceOf wake) round st round' st' ∧ tasks = st'.q.outstanding := by
  induction fuel generalizing round st with
  | zero => simp [asyncLoop] at h
  | succ n ih =>
    simp only [asyncLoop] at h
    split at h
    · simp at h
    · rename_i ho
      have ho' : st.q.outstanding ≠ [] := by simpa using ho
      split at h
      · cases h; exact ⟨_, .here, rfl⟩
      · rename_i l hw
        split at h
        · simp at h
        · rename_i s1 hp
          obtain ⟨r', h1, h2⟩ := ih h
          have e : choiceOf wake round st.q.outstanding = l := by simp [choiceOf, hw]
          exact ⟨r', .next ho' (by rw [e]; exact progress_progresses hp) h1, h2⟩

/-- C52: if the execution of a query is cancelled, at whatever moment, `cancel()` is called once on every
task which was submitted and was not reported as finished, and on no other. -/
theorem c52_cancel (hsd : SubsDecrease env) {wake : Nat → List Nat → Wake} (hw : ValidWake wake)
    {g inner fuel : Nat} {q : QNode} {st st' : St} {tasks : List Nat} (h : startQuery env g q = .ok st)
    (hr : asyncLoop env wake inner fuel 0 st = .cancelled tasks st') :
    tasks.Nodup ∧ ∀ f, f ∈ tasks ↔ Submitted st' f ∧ ¬ ReportedDone st' f := by
  obtain ⟨r, h1, rfl⟩ := asyncLoop_between hr
  exact c52_accounted hsd (validChoice_of hw) h h1

/-- C52: without cancellation the loop is the one of the other executors (C06, C07, C14). -/
theorem c52_not_cancelled {choose : Nat → List Nat → List Nat} {wake : Nat → List Nat → Wake}
    (hw : ∀ round out, out ≠ [] → wake round out = .done (choose round out)) (inner fuel round : Nat) (st : St) :
    asyncLoop env wake inner fuel round st = match execLoop env choose inner fuel round st with
      | .ok st' => .finished st'
      | .error e => .raised e := by
  induction fuel generalizing round st with
  | zero => rfl
  | succ n ih =>
    by_cases ho : st.q.outstanding = []
    · simp [asyncLoop, execLoop, ho]
    · have he : st.q.outstanding.isEmpty = false := by simpa using ho
      simp only [asyncLoop, execLoop, he, hw _ _ ho]
      cases progress qlens (runCB env) inner (choose round st.q.outstanding)
          { st with log := st.log ++ [.done (choose round st.q.outstanding)] } with
      | error e => rfl
      | ok s => simp only [ok_bind']; exact ih _ _

/-- the example: cancelled in the second round, two tasks are cancelled -/
def exWake (n : Nat) : Nat → List Nat → Wake := fun round out => if round = n then .cancelled else .done (out.take 1)

theorem exWake_valid (n : Nat) : ValidWake (exWake n) := by
  intro round out l ho h
  unfold exWake at h
  split at h
  · cases h
  · cases h; exact validChoice_first round out ho

example : ∃ st st', startQuery exEnv 1 exQuery = .ok st ∧
    asyncLoop exEnv (exWake 1) 20 20 0 st = .cancelled [2, 1] st' := ⟨_, _, rfl, rfl⟩

example {st st' : St} (h : startQuery exEnv 1 exQuery = .ok st)
    (hr : asyncLoop exEnv (exWake 1) 20 20 0 st = .cancelled [2, 1] st') : Submitted st' 2 ∧ ¬ ReportedDone st' 2 :=
  ((c52_cancel exEnv_subsDecrease (exWake_valid 1) h hr).2 2).1 (by simp)

end Hiku
