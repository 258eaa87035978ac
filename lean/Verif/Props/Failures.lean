import Verif.Proofs.Lag
import Verif.Props.Semantics

/-! # C51: failures of data functions are never swallowed

A data function may raise: at submission (the synchronous executor, or a function which is not a
coroutine function with the asyncio executor) or later, when its task is finished (`Env.atOnce` says
which).  Results which were read from functions that succeed are never mixed with a failure: an
execution either ends with the exact result, or with the exception of one of the calls. -/

namespace Hiku

variable {env env' : Env} {D : Data} {U : String → Opts → Prop}

/-- the call recorded in the log succeeded -/
def Succeeds (env : Env) (s : Submit) : Prop := ∃ v, env.world.call s.fut s.func.id s.args = .ok v

/-- C51, first half: for any graphs, any data functions (which may return anything) and every schedule:
if the execution of a query ends without an error then none of the calls it made failed. -/
theorem c51_no_swallow (hsd : SubsDecrease env) {choose : Nat → List Nat → List Nat}
    (hch : ValidChoice choose) {g n : Nat} {q : QNode} {st st' : St}
    (h : startQuery env g q = .ok st) (hl : Loops env choose 0 st n (.ok st')) :
    ∀ s, Ev.call s ∈ st'.log → Succeeds env s := by
  intro s hs
  have h1 : LogRes env st := logRes_stable.start ⟨by simp, by simp⟩ h
  have h2 : LogRes env st' := logRes_stable.loops (by
    rintro st l ⟨h1, h2⟩
    refine ⟨fun s hs => h1 s (by simpa using hs), fun i r hi => ?_⟩
    obtain ⟨s, h3, h4⟩ := h2 i r hi
    exact ⟨s, List.mem_append_left _ h3, h4⟩) h1 hl _ rfl
  have h3 : Covered [] st' := (covered_start h).loops hl _ rfl
  obtain ⟨_, hcb, _⟩ := c18_queue_empty hsd hch h hl
  have hr := h2.1 s hs
  cases hc : env.world.call s.fut s.func.id s.args with
  | ok v => exact ⟨v, hc⟩
  | error e =>
    rw [hc] at hr
    rcases h3 _ e hr with ⟨cb, h4, _⟩ | ⟨cb, h4, _⟩
    · rw [hcb] at h4; simp at h4
    · simp at h4

/-- C51: let the data functions describe the data `D` (in `env'`), and let any of their calls fail (in
`env`), at submission or later.  Then for every schedule the execution either ends with the value of the
reference semantics, and no call failed, or it raises the exception of a call which failed; that call is
one of those the execution without failures makes. -/
theorem c51_outcome (hm : MayFail env env') (hgood : GoodSys U env.sys) (hH : Faithful env.H D U)
    (hconf : Conforms env' D U) {choose : Nat → List Nat → List Nat} (hch : ValidChoice choose)
    {gi : Nat} {g : Graph} {q q' : QNode} (hg : env.sys.graphs[gi]? = some g)
    (hi : initOptions g q = .ok q') (hq : NodeOk U g g.root q') {fuel inner : Nat}
    (hf : costQuery env.sys 1 0 gi q < fuel) (hin : 1 + costQuery env.sys 0 1 gi q < inner) :
    ∃ st st' n, startQuery env' gi q = .ok st ∧ Loops env' choose 0 st n (.ok st') ∧
      (((∀ s, Ev.call s ∈ st'.log → Succeeds env s) ∧
          ∃ idx, execute env choose inner fuel gi q = .ok (idx, q') ∧
            readNode env.H idx rootName rootIdent q' = .ok (semQuery env.sys D gi q')) ∨
        ∃ s e, Ev.call s ∈ st'.log ∧ env.world.call s.fut s.func.id s.args = .error e ∧
          execute env choose inner fuel gi q = .error e) := by
  have hsd : SubsDecrease env := hgood.subsDecrease
  rw [hm.sys] at hgood hg
  rw [hm.H] at hH
  obtain ⟨st, n, st', wf, h1, h2, _, h4, h5, _, h7⟩ := finish ⟨hgood, hH, hconf⟩ hch hg hi hq
  refine ⟨st, st', n, h1, h2, ?_⟩
  have hL : SubLog (fun s => Ev.call s ∈ st'.log) st := fun s hs =>
    (called_stable (env := env') s).loops (fun st l h => List.mem_append_left _ h) hs h2 _ rfl
  rcases lag_start hm h1 hL with ⟨e, h8, s, h9, h10⟩ | ⟨x, h8, h9⟩
  · exact .inr ⟨s, e, h9, h10, by simp only [execute, h8, error_bind']⟩
  · obtain ⟨m, a, h10, h11⟩ := lag_loops hm h2 h9 rfl (L := fun s => Ev.call s ∈ st'.log) (fun s hs => hs)
    obtain ⟨n', r, h12, _, h13⟩ := c07_terminates hsd hch h8
    obtain ⟨_, rfl⟩ := c07_deterministic h10 h12
    have h14 := h13 fuel inner hf hin
    rcases h11 with ⟨e, rfl, s, h15, h16⟩ | ⟨y, rfl, h15⟩
    · exact .inr ⟨s, e, h15, h16, by simp only [execute, h8, h14, error_bind', ok_bind']⟩
    · refine .inl ⟨?_, wf.index, ?_, ?_⟩
      · intro s hs
        refine c51_no_swallow hsd hch h8 h10 s ?_
        rw [h15.log]; exact hs
      · simp only [execute, h8, h14, ok_bind', h15.wfs, h4, h5]
      · rw [hm.H, hm.sys]; simp only [semQuery, hg]; exact h7

/-- so the execution fails exactly if one of the calls of the failure-free execution fails -/
theorem c51_fails_iff (hm : MayFail env env') (hgood : GoodSys U env.sys) (hH : Faithful env.H D U)
    (hconf : Conforms env' D U) {choose : Nat → List Nat → List Nat} (hch : ValidChoice choose)
    {gi : Nat} {g : Graph} {q q' : QNode} (hg : env.sys.graphs[gi]? = some g)
    (hi : initOptions g q = .ok q') (hq : NodeOk U g g.root q') {fuel inner n : Nat} {st st' : St}
    (hf : costQuery env.sys 1 0 gi q < fuel) (hin : 1 + costQuery env.sys 0 1 gi q < inner)
    (h1 : startQuery env' gi q = .ok st) (h2 : Loops env' choose 0 st n (.ok st')) :
    (∃ e, execute env choose inner fuel gi q = .error e) ↔ ∃ s, Ev.call s ∈ st'.log ∧ ¬ Succeeds env s := by
  obtain ⟨x, x', m, h3, h4, h5⟩ := c51_outcome hm hgood hH hconf hch hg hi hq hf hin
  rw [h1] at h3; cases h3
  obtain ⟨_, h6⟩ := c07_deterministic h2 h4
  cases h6
  rcases h5 with ⟨h6, idx, h7, _⟩ | ⟨s, e, h6, h7, h8⟩
  · constructor
    · rintro ⟨e, he⟩; rw [h7] at he; cases he
    · rintro ⟨s, h8, h9⟩; exact absurd (h6 s h8) h9
  · refine ⟨fun _ => ⟨s, h6, ?_⟩, fun _ => ⟨e, h8⟩⟩
    rintro ⟨v, hv⟩; rw [h7] at hv; cases hv

/-! ### Examples -/

/-- the example with the second call of a data function failing, at submission or later -/
def exFailing (atOnce : Bool) (k : Nat) : Env :=
  { exEnv with
    world := { exWorld with call := fun n f args => if n = k then .error .valueError else exWorld.call n f args }
    atOnce := fun _ => atOnce }

theorem exFailing_mayFail (b : Bool) (k : Nat) : MayFail (exFailing b k) exEnv where
  sys := rfl
  H := rfl
  proc := rfl
  call := by
    intro n f args v h
    simp only [exFailing] at h
    split at h
    · cases h
    · exact h

/-- the hypotheses of `c51_outcome` are met by the example, whichever call fails and however it does -/
example (b : Bool) (k : Nat) : ∃ st st' n, startQuery exEnv 1 exQuery = .ok st ∧
      Loops exEnv (fun _ l => l.take 1) 0 st n (.ok st') ∧
      (((∀ s, Ev.call s ∈ st'.log → Succeeds (exFailing b k) s) ∧
          ∃ idx, execute (exFailing b k) (fun _ l => l.take 1) 20 20 1 exQuery = .ok (idx, exQuery) ∧
            readNode exEnv.H idx rootName rootIdent exQuery = .ok (semQuery exEnv.sys exData 1 exQuery)) ∨
        ∃ s e, Ev.call s ∈ st'.log ∧ (exFailing b k).world.call s.fut s.func.id s.args = .error e ∧
          execute (exFailing b k) (fun _ l => l.take 1) 20 20 1 exQuery = .error e) :=
  c51_outcome (exFailing_mayFail b k) (g := exHigh) exGood exFaithful exConforms validChoice_first rfl rfl exQuery_ok
    (by show costQuery exEnv.sys 1 0 1 exQuery < 20; rw [exCost]; omega)
    (by show 1 + costQuery exEnv.sys 0 1 1 exQuery < 20; rw [exForks]; omega)

/-- C51 does not say that nothing runs after the failure: the executor waits for the tasks 1 and 2, the first of them fails, and the
query has failed, although the other one is not finished and nothing cancels it. -/
theorem c51_left_running : ∃ st st', startQuery (exFailing false 1) 1 exQuery = .ok st ∧
    progress qlens (runCB (exFailing false 1)) 20 [0] { st with log := st.log ++ [.done [0]] } = .ok st' ∧
    st'.q.outstanding = [2, 1] ∧
    progress qlens (runCB (exFailing false 1)) 20 [1] { st' with log := st'.log ++ [.done [1]] } = .error .valueError ∧
    execute (exFailing false 1) (fun _ l => l.reverse.take 1) 20 20 1 exQuery = .error .valueError := ⟨_, _, rfl, rfl, rfl, rfl, rfl⟩

/-- both outcomes happen: the query needs five calls; the failure of any of them fails it -/
example : execute (exFailing true 2) (fun _ l => l.take 1) 20 20 1 exQuery = .error .valueError := rfl
example : execute (exFailing false 4) (fun _ l => l.take 1) 20 20 1 exQuery = .error .valueError := rfl
example : ∃ r, execute (exFailing false 5) (fun _ l => l.take 1) 20 20 1 exQuery = .ok r := ⟨_, rfl⟩

end Hiku
