import Verif.Model.GatherCancel
import Verif.Props.Gather
import Verif.Props.Cancel
import Verif.Props.Latency

/-! # C65: cancelling an asynchronous batch cancels exactly the unfinished tasks of its requests -/

namespace Hiku.Gather
open Hiku.Endpoint

variable {ep : Endpoint} {inner : Nat} {envs : Nat → Env} {rs : List Request}

/-- a task of this request was submitted and has not been reported as finished -/
def Unfinished : Co → Nat → Prop
  | .waiting _ _ _ _ st, f => Submitted st f ∧ ¬ ReportedDone st f
  | _, _ => False

/-! ### The past of a request is a run of the engine -/

theorem between_congr {env : Env} {choose choose' : Nat → List Nat → List Nat} {r0 r : Nat} {st0 st : St}
    (h : Between env choose r0 st0 r st) (hc : ∀ k, k < r → choose' k = choose k) :
    r0 ≤ r ∧ Between env choose' r0 st0 r st := by
  induction h with
  | here => exact ⟨Nat.le_refl _, .here⟩
  | @next round st st1 round' st' h1 h2 _ ih =>
    obtain ⟨h3, h4⟩ := ih hc
    refine ⟨by omega, .next h1 ?_ h4⟩
    rw [hc round (by omega)]
    exact h2

/-- a waiting request is between two rounds of its own run -/
def RunOk (env : Env) : Co → Prop
  | .waiting gi _ _ round st => ∃ q st0 choose, startQuery env gi q = .ok st0 ∧ ValidChoice choose ∧ Between env choose 0 st0 round st
  | _ => True

theorem resume_run {env : Env} {gi round : Nat} {g : Graph} {op : Operation} {st : St}
    (h : RunOk env (.waiting gi g op round st)) : RunOk env (resume ep gi g op round st) := by
  unfold resume
  split
  · trivial
  · exact h

theorem start_run (env : Env) (r : Request) : RunOk env (start ep env r) := by
  unfold start
  split
  · trivial
  · split
    · trivial
    · split
      · trivial
      · split
        · trivial
        · rename_i st h
          exact resume_run ⟨_, st, fun _ l => l, h, fun _ _ h => ⟨h, fun _ h => h⟩, .here⟩

theorem wake_run {env : Env} {gi round : Nat} {g : Graph} {op : Operation} {st : St} {done : List Nat}
    (h : RunOk env (.waiting gi g op round st)) (hne : done ≠ []) (hd : ∀ f ∈ done, f ∈ st.q.outstanding) :
    RunOk env (wake ep env inner gi g op round st done) := by
  obtain ⟨q, st0, choose, h1, hch, hb⟩ := h
  unfold wake
  split
  · trivial
  · rename_i st' hw
    have ho : st.q.outstanding ≠ [] := by
      intro e
      obtain ⟨f, hf⟩ := List.exists_mem_of_ne_nil _ hne
      have := hd f hf
      rw [e] at this
      cases this
    have hnow : extend choose round done round st.q.outstanding = done := if_pos ⟨rfl, hne, hd⟩
    have hb' := (between_congr hb (choose' := extend choose round done) fun k hk => by
      funext out; exact if_neg (by rintro ⟨h, _⟩; omega)).2
    exact resume_run ⟨q, st0, extend choose round done, h1, extend_valid hch round done,
      Lat.Between.snoc hb' ho (by rw [hnow]; exact progress_progresses hw)⟩

theorem runOk_steps {n : Nat} {s : State} (h : Steps ep inner envs rs (init rs) n s) :
    ∀ (i : Nat) co, s.cos[i]? = some co → RunOk (envs i) co := by
  generalize hi : init rs = s0 at h
  induction h with
  | refl =>
    subst hi
    intro i co hc
    simp only [init, List.getElem?_map, Option.map_eq_some_iff] at hc
    obtain ⟨_, _, rfl⟩ := hc
    trivial
  | next _ hs ih =>
    intro j co hj
    have put : ∀ (s : State) (i : Nat) (x : Co), (∀ (i : Nat) co, s.cos[i]? = some co → RunOk (envs i) co) →
        RunOk (envs i) x → (s.put i x).cos[j]? = some co → RunOk (envs j) co := by
      intro s i x h hx hc
      simp only [State.put, List.getElem?_set] at hc
      split at hc
      · rename_i e
        subst e
        split at hc
        · cases hc; exact hx
        · cases hc
      · exact h j co hc
    cases hs with
    | start h1 h2 => exact put _ _ _ ih (start_run _ _) hj
    | wake h1 h2 h3 => exact put _ _ _ ih (wake_run (ih _ _ h1) h2 h3) hj

/-! ### Cancellation -/

/-- what was cancelled, is known from the state in which `cancel()` was called -/
theorem csteps_inv {n : Nat} {c : CState} (h : CSteps ep inner envs rs (cinit rs) n c) :
    (∃ m, Steps ep inner envs rs (init rs) m c.s) ∧ (c.thrown.map Prod.fst).Nodup ∧
    (c.asked = true → c.s.outcome = none) ∧ (c.asked = false → c.thrown = []) ∧
    ∀ x ∈ c.thrown, ∃ co, c.s.cos[x.1]? = some co ∧ (∀ a, co ≠ .ended a) ∧ x.2 = co.cancels := by
  generalize hi : cinit rs = c0 at h
  induction h with
  | refl => subst hi; exact ⟨⟨0, .refl⟩, by simp [cinit], by simp [cinit], by simp [cinit], by simp [cinit]⟩
  | next _ hs ih =>
    obtain ⟨⟨m, h1⟩, h2, h3, h4, h5⟩ := ih
    cases hs with
    | run ha hs =>
      exact ⟨⟨m + 1, .next h1 hs⟩, h2, by simp [ha], h4, by simp [h4 ha]⟩
    | ask ha ho => exact ⟨⟨m, h1⟩, h2, fun _ => ho, by simp, h5⟩
    | @throw i co ha hc hne hni =>
      refine ⟨⟨m, h1⟩, ?_, h3, fun h => by simp [ha] at h, ?_⟩
      · rw [List.map_append, List.nodup_append]
        refine ⟨h2, by simp, ?_⟩
        intro a h6 b h7
        simp only [List.map_cons, List.map_nil, List.mem_singleton] at h7
        subst h7
        exact fun e => hni (e ▸ h6)
      · intro x hx
        rcases List.mem_append.1 hx with hx | hx
        · exact h5 x hx
        · simp only [List.mem_singleton] at hx
          subst hx
          exact ⟨co, hc, hne, rfl⟩

/-- C65: after the batch was cancelled no request goes on: no data function is called, no request is started. -/
theorem c65_frozen {n : Nat} {c c' : CState} (h : CSteps ep inner envs rs c n c') (ha : c.asked = true) :
    c'.asked = true ∧ c'.s = c.s := by
  induction h with
  | refl => exact ⟨ha, rfl⟩
  | next _ hs ih =>
    obtain ⟨h1, h2⟩ := ih
    cases hs with
    | run ha' _ => rw [h1] at ha'; cases ha'
    | ask ha' _ => rw [h1] at ha'; cases ha'
    | throw => exact ⟨h1, h2⟩

/-- C65: whatever was executed before the batch was cancelled, and in whatever order the event loop comes to the requests:
only requests which had not ended are interrupted, each of them once, and each calls `cancel()` once on every task of its own which was submitted
and not reported as finished, and on no other. -/
theorem c65_exact (hsd : ∀ i, SubsDecrease (envs i)) {n : Nat} {c : CState} (h : CSteps ep inner envs rs (cinit rs) n c) :
    (c.thrown.map Prod.fst).Nodup ∧ ∀ i l, (i, l) ∈ c.thrown →
      ∃ co, c.s.cos[i]? = some co ∧ (∀ a, co ≠ .ended a) ∧ l.Nodup ∧ ∀ f, f ∈ l ↔ Unfinished co f := by
  obtain ⟨⟨m, h1⟩, h2, _, _, h5⟩ := csteps_inv h
  refine ⟨h2, fun i l hl => ?_⟩
  obtain ⟨co, h6, h7, h8⟩ := h5 _ hl
  refine ⟨co, h6, h7, ?_⟩
  simp only at h8
  subst h8
  cases co with
  | ready => simp [Co.cancels, Unfinished]
  | ended a => exact absurd rfl (h7 a)
  | waiting gi g op round st =>
    obtain ⟨q, st0, choose, h9, hch, hb⟩ := runOk_steps h1 i _ h6
    exact c52_accounted (hsd i) hch h9 hb

/-- C65: every request which had not ended is interrupted: as long as one of them is not, the event loop can come to it; and it has
nothing more to do after as many steps as there are requests. -/
theorem c65_all {n : Nat} {c : CState} (h : CSteps ep inner envs rs (cinit rs) n c) (ha : c.asked = true) :
    (∀ i co, c.s.cos[i]? = some co → (∀ a, co ≠ .ended a) → (∃ l, (i, l) ∈ c.thrown) ∨ ∃ c', CStep ep inner envs rs c c') ∧
    ∀ m c', CSteps ep inner envs rs c m c' → m + c.thrown.length ≤ rs.length := by
  constructor
  · intro i co h1 h2
    by_cases hm : i ∈ c.thrown.map Prod.fst
    · obtain ⟨x, hx, rfl⟩ := List.mem_map.1 hm
      exact .inl ⟨x.2, hx⟩
    · exact .inr ⟨_, .throw ha h1 h2 hm⟩
  · intro m c' hs
    have hlen : c'.thrown.length = m + c.thrown.length ∧ ∃ k, CSteps ep inner envs rs (cinit rs) k c' := by
      induction hs with
      | refl => exact ⟨by omega, n, h⟩
      | next h3 hs ih =>
        obtain ⟨h1, k, h2⟩ := ih
        have hf := (c65_frozen h3 ha).1
        refine ⟨?_, k + 1, .next h2 hs⟩
        cases hs with
        | run ha' _ => rw [hf] at ha'; cases ha'
        | ask ha' _ => rw [hf] at ha'; cases ha'
        | throw => simp [h1]; omega
    obtain ⟨h1, k, h2⟩ := hlen
    obtain ⟨⟨m', h3⟩, h4, _, _, h5⟩ := csteps_inv h2
    rw [← h1, ← List.length_map (f := Prod.fst), ← (allOk_steps allOk_init h3).1]
    have hsub : c'.thrown.map Prod.fst ⊆ List.range c'.s.cos.length := by
      intro i hi
      obtain ⟨x, hx, rfl⟩ := List.mem_map.1 hi
      obtain ⟨co, h6, _⟩ := h5 x hx
      exact List.mem_range.2 (List.getElem?_eq_some_iff.1 h6).1
    have := (h4.subperm hsub).length_le
    simpa using this

/-- C65: an interrupted execution raises `CancelledError`, except when a task of its own has raised an exception before any
of the others is seen as cancelled: then this exception is raised instead. -/
theorem c65_raises (ends : List TaskEnd) (e : Err) :
    leaves ends = some e ↔ ∃ a b, ends = a ++ .raised e :: b ∧ ∀ x ∈ a, x = .result := by
  induction ends with
  | nil => simp [leaves]
  | cons x r ih =>
    cases x with
    | result =>
      rw [leaves, ih]
      constructor
      · rintro ⟨a, b, rfl, h⟩
        exact ⟨.result :: a, b, rfl, by simpa using h⟩
      · rintro ⟨a, b, h1, h2⟩
        cases a with
        | nil => simp at h1
        | cons y a =>
          simp only [List.cons_append, List.cons.injEq] at h1
          exact ⟨a, b, h1.2, fun z hz => h2 z (by simp [hz])⟩
    | raised e' =>
      simp only [leaves, Option.some.injEq]
      constructor
      · rintro rfl; exact ⟨[], r, rfl, by simp⟩
      · rintro ⟨a, b, h1, h2⟩
        cases a with
        | nil => simp at h1; exact h1.1
        | cons y a =>
          simp only [List.cons_append, List.cons.injEq] at h1
          have := h2 y (by simp)
          rw [this] at h1
          cases h1.1
    | cancelled =>
      simp only [leaves]
      constructor
      · simp
      · rintro ⟨a, b, h1, h2⟩
        cases a with
        | nil => simp at h1
        | cons y a =>
          simp only [List.cons_append, List.cons.injEq] at h1
          have := h2 y (by simp)
          rw [this] at h1
          cases h1.1

/-- the example: two requests, the first one is started, then the batch is cancelled; its two tasks are cancelled, the second request
is never started -/
theorem exCancelled : ∃ c, CSteps exG 20 (fun _ => exEnv') [{ query := some "Q" }, { query := some "Q" }]
    (cinit [{ query := some "Q" }, { query := some "Q" }]) 4 c ∧ c.asked = true ∧ c.thrown = [(1, []), (0, [0, 1])] := by
  obtain ⟨gi, g, op, st, h4, h5, _⟩ := exWaiting
  refine ⟨_, .next (.next (.next (.next .refl (.run rfl (Step.start (ep := exG) (inner := 20) (envs := fun _ => exEnv')
    (rs := [{ query := some "Q" }, { query := some "Q" }]) (i := 0) (r := { query := some "Q" }) rfl rfl)))
    (.ask rfl ?_)) (.throw (i := 1) (co := .ready) rfl ?_ (by simp) (by simp [cinit])))
    (.throw (i := 0) (co := .waiting gi g op 0 st) rfl ?_ (by simp) (by simp [cinit])), rfl, ?_⟩
  all_goals simp [h4, State.put, State.outcome, collect, cinit, init, Co.cancels, h5]

end Hiku.Gather
