import Verif.Model.Gather
import Verif.Props.EndpointExample
import Verif.Props.Queue
import Mathlib.Algebra.BigOperators.Group.Finset.Basic
import Mathlib.Algebra.BigOperators.Group.Finset.Piecewise
import Mathlib.Algebra.Order.BigOperators.Group.Finset

/-! # C62: requests of a batch which are executed concurrently -/

namespace Hiku.Gather
open Hiku.Endpoint

/-- the endpoint which executes one request with these outcomes of the calls and in this order of completion -/
def alone (ep : Endpoint) (env : Env) (choose : Nat → List Nat → List Nat) (inner fuel : Nat) : Endpoint :=
  { ep with engine := fun _ gi q => Hiku.execute env choose inner fuel gi q }

variable {ep : Endpoint} {inner : Nat}

/-! ### One request -/

/-- `dispatch` without the log -/
theorem dispatch_eq (ep : Endpoint) (r : Request) (log : List Run) : (dispatch ep r log).1 =
    match switchGraph ep r with
    | .error e => answer (.error e)
    | .ok x =>
        match ep.graphs[x.1]? with
        | none => .error .assertionError
        | some g =>
            match processQuery ep g x.2.query with
            | .error e => answer (.error e)
            | .ok q =>
                match ep.engine log x.1 q with
                | .error e => answer (.error (Raised.ofErr e))
                | .ok y =>
                    match denormalizeQ ep.H y.1 g (some (typeName x.2.kind)) y.2 x.2.query with
                    | .error e => .error e
                    | .ok v => .ok (.data v) := by
  unfold dispatch
  cases switchGraph ep r with
  | error e => rfl
  | ok x =>
    simp only [Endpoint.execute]
    cases ep.graphs[x.1]? with
    | none => rfl
    | some g =>
      simp only
      cases processQuery ep g x.2.query with
      | error e => rfl
      | ok q =>
        simp only
        cases ep.engine log x.1 q with
        | error e => rfl
        | ok y =>
          simp only
          cases denormalizeQ ep.H y.1 g (some (typeName x.2.kind)) y.2 x.2.query <;> rfl

theorem alone_eq {env : Env} {choose : Nat → List Nat → List Nat} {fuel : Nat} (r : Request) :
    (dispatch (alone ep env choose inner fuel) r []).1 =
    match switchGraph ep r with
    | .error e => answer (.error e)
    | .ok x =>
        match ep.graphs[x.1]? with
        | none => .error .assertionError
        | some g =>
            match processQuery ep g x.2.query with
            | .error e => answer (.error e)
            | .ok q =>
                match Hiku.execute env choose inner fuel x.1 q with
                | .error e => answer (.error (Raised.ofErr e))
                | .ok y =>
                    match denormalizeQ ep.H y.1 g (some (typeName x.2.kind)) y.2 x.2.query with
                    | .error e => .error e
                    | .ok v => .ok (.data v) :=
  dispatch_eq _ _ _

/-- the first `round` rounds went from `st0` to `st` -/
def Past (env : Env) (inner : Nat) (st0 : St) (round : Nat) (st : St) (choose : Nat → List Nat → List Nat) : Prop :=
  ∀ choose' : Nat → List Nat → List Nat, (∀ k < round, choose' k = choose k) → ∀ fuel,
    execLoop env choose' inner (round + fuel) 0 st0 = execLoop env choose' inner fuel round st

/-- the answer of a request which is executed alone, in some order of completion -/
def Alone (ep : Endpoint) (env : Env) (inner : Nat) (r : Request) (a : Except Err Answer) : Prop :=
  ∃ choose, ValidChoice choose ∧ ∃ n, ∀ fuel, n ≤ fuel → (dispatch (alone ep env choose inner fuel) r []).1 = a

/-- what is known about a task -/
def TaskOk (ep : Endpoint) (env : Env) (inner : Nat) (r : Request) : Co → Prop
  | .ready => True
  | .waiting gi g op round st => st.q.outstanding ≠ [] ∧ switchGraph ep r = .ok (gi, op) ∧ ep.graphs[gi]? = some g ∧
      ∃ q st0 choose, processQuery ep g op.query = .ok q ∧ startQuery env gi q = .ok st0 ∧ ValidChoice choose ∧
        Past env inner st0 round st choose
  | .ended a => Alone ep env inner r a

/-- the dispatch alone, once the operation is known -/
theorem dispatch_alone {env : Env} {choose : Nat → List Nat → List Nat} {fuel : Nat} {r : Request} {gi : Nat}
    {op : Operation} {g : Graph} {q : QNode} {st0 : St} (h1 : switchGraph ep r = .ok (gi, op))
    (h2 : ep.graphs[gi]? = some g) (h3 : processQuery ep g op.query = .ok q) (h4 : startQuery env gi q = .ok st0) :
    (dispatch (alone ep env choose inner fuel) r []).1 =
      match execLoop env choose inner fuel 0 st0 with
      | .error e => answer (.error (Raised.ofErr e))
      | .ok st => finish ep g op st := by
  rw [alone_eq, h1]
  simp only [h2, h3, Hiku.execute, h4, ok_bind']
  cases hx : execLoop env choose inner fuel 0 st0 with
  | error e => rfl
  | ok st =>
    simp only [ok_bind', finish]
    cases st.wfs[0]? with
    | none => rfl
    | some wf => rfl

theorem execLoop_stop {env : Env} {choose : Nat → List Nat → List Nat} {fuel round : Nat} {st : St}
    (h : st.q.outstanding = []) (hf : 0 < fuel) : execLoop env choose inner fuel round st = .ok st := by
  cases fuel with
  | zero => omega
  | succ n => simp [execLoop, h]

theorem resume_ok {env : Env} {r : Request} {gi : Nat} {op : Operation} {g : Graph} {q : QNode} {st0 st : St}
    {round : Nat} {choose : Nat → List Nat → List Nat}
    (h1 : switchGraph ep r = .ok (gi, op)) (h2 : ep.graphs[gi]? = some g) (h3 : processQuery ep g op.query = .ok q)
    (h4 : startQuery env gi q = .ok st0) (hch : ValidChoice choose) (hp : Past env inner st0 round st choose) :
    TaskOk ep env inner r (resume ep gi g op round st) := by
  unfold resume
  by_cases ho : st.q.outstanding = []
  · rw [if_pos (by simp [ho])]
    refine ⟨choose, hch, round + 1, fun fuel hf => ?_⟩
    rw [dispatch_alone h1 h2 h3 h4]
    obtain ⟨k, rfl⟩ : ∃ k, fuel = round + k := ⟨fuel - round, by omega⟩
    rw [hp choose (fun _ _ => rfl) k, execLoop_stop ho (by omega)]
  · rw [if_neg (by simpa using ho)]
    exact ⟨ho, h1, h2, q, st0, choose, h3, h4, hch, hp⟩

theorem alone_of_error {env : Env} {r : Request} {a : Except Err Answer}
    (h : ∀ choose fuel, (dispatch (alone ep env choose inner fuel) r []).1 = a) : Alone ep env inner r a :=
  ⟨fun _ l => l, fun _ _ h => ⟨h, fun _ h => h⟩, 0, fun fuel _ => h _ fuel⟩

theorem start_ok (env : Env) (r : Request) : TaskOk ep env inner r (start ep env r) := by
  unfold start
  cases h1 : switchGraph ep r with
  | error e =>
    exact alone_of_error fun choose fuel => by rw [alone_eq, h1]
  | ok x =>
    obtain ⟨gi, op⟩ := x
    simp only
    cases h2 : ep.graphs[gi]? with
    | none => exact alone_of_error fun choose fuel => by rw [alone_eq, h1]; simp only [h2]
    | some g =>
      simp only
      cases h3 : processQuery ep g op.query with
      | error e => exact alone_of_error fun choose fuel => by rw [alone_eq, h1]; simp only [h2, h3]
      | ok q =>
        simp only
        cases h4 : startQuery env gi q with
        | error e =>
          exact alone_of_error fun choose fuel => by
            rw [alone_eq, h1]; simp only [h2, h3, Hiku.execute, h4, error_bind']
        | ok st0 =>
          exact resume_ok h1 h2 h3 h4 (choose := fun _ l => l) (fun _ _ h => ⟨h, fun _ h => h⟩)
            (fun c _ fuel => by rw [Nat.zero_add])

/-- the schedule with these futures finished in this round -/
def extend (choose : Nat → List Nat → List Nat) (round : Nat) (done : List Nat) : Nat → List Nat → List Nat :=
  fun k out => if k = round ∧ done ≠ [] ∧ ∀ f ∈ done, f ∈ out then done else choose k out

theorem extend_valid {choose : Nat → List Nat → List Nat} (h : ValidChoice choose) (round : Nat) (done : List Nat) :
    ValidChoice (extend choose round done) := by
  intro k out ho
  unfold extend
  split
  · rename_i hc; exact hc.2
  · exact h k out ho

theorem wake_ok {env : Env} {r : Request} {gi : Nat} {op : Operation} {g : Graph} {st : St} {round : Nat}
    {done : List Nat} (h : TaskOk ep env inner r (.waiting gi g op round st)) (hne : done ≠ [])
    (hd : ∀ f ∈ done, f ∈ st.q.outstanding) :
    TaskOk ep env inner r (wake ep env inner gi g op round st done) := by
  obtain ⟨ho, h1, h2, q, st0, choose, h3, h4, hch, hp⟩ := h
  have hv := extend_valid hch round done
  have hnow : extend choose round done round st.q.outstanding = done := if_pos ⟨rfl, hne, hd⟩
  have hpast : ∀ k < round, extend choose round done k = choose k := by
    intro k hk
    funext out
    exact if_neg (by rintro ⟨h, _⟩; omega)
  have he : st.q.outstanding.isEmpty = false := by simpa using ho
  unfold wake
  cases hw : progress qlens (runCB env) inner done { st with log := st.log ++ [.done done] } with
  | error e =>
    refine ⟨extend choose round done, hv, round + 1, fun fuel hf => ?_⟩
    rw [dispatch_alone h1 h2 h3 h4]
    obtain ⟨k, rfl⟩ : ∃ k, fuel = round + (k + 1) := ⟨fuel - round - 1, by omega⟩
    rw [hp _ hpast]
    simp only [execLoop, he, hnow, hw, error_bind']
    rfl
  | ok st' =>
    refine resume_ok h1 h2 h3 h4 hv (fun c hc fuel => ?_)
    have e1 := hp c (fun k hk => by rw [hc k (by omega), hpast k hk]) (fuel + 1)
    rw [show round + 1 + fuel = round + (fuel + 1) by omega, e1]
    have e2 : c round st.q.outstanding = done := by rw [hc round (by omega), hnow]
    simp only [execLoop, he, e2, hw, ok_bind']
    rfl

/-! ### All requests -/

variable {envs : Nat → Env} {rs : List Request}

/-- every task is a run of its own request -/
def AllOk (ep : Endpoint) (inner : Nat) (envs : Nat → Env) (rs : List Request) (s : State) : Prop :=
  s.cos.length = rs.length ∧ ∀ i r co, rs[i]? = some r → s.cos[i]? = some co → TaskOk ep (envs i) inner r co

theorem allOk_init : AllOk ep inner envs rs (init rs) := by
  refine ⟨by simp [init], fun i r co h1 h2 => ?_⟩
  simp only [init, List.getElem?_map, h1, Option.map_some, Option.some.injEq] at h2
  subst h2
  trivial

theorem allOk_put {s : State} {i : Nat} {co : Co} (h : AllOk ep inner envs rs s)
    (hco : ∀ r, rs[i]? = some r → TaskOk ep (envs i) inner r co) : AllOk ep inner envs rs (s.put i co) := by
  refine ⟨by simp [State.put, h.1], fun j r co' h1 h2 => ?_⟩
  simp only [State.put, List.getElem?_set] at h2
  split at h2
  · subst_vars
    split at h2
    · cases h2; exact hco r h1
    · cases h2
  · exact h.2 j r co' h1 h2

theorem allOk_step {s s' : State} (h : AllOk ep inner envs rs s) (hs : Step ep inner envs rs s s') :
    AllOk ep inner envs rs s' := by
  cases hs with
  | start h1 h2 => exact allOk_put h fun r hr => by rw [h2] at hr; cases hr; exact start_ok _ _
  | wake h1 h2 h3 => exact allOk_put h fun r hr => wake_ok (h.2 _ r _ hr h1) h2 h3

theorem allOk_steps {s s' : State} {n : Nat} (h : AllOk ep inner envs rs s) (hs : Steps ep inner envs rs s n s') :
    AllOk ep inner envs rs s' := by
  induction hs with
  | refl => exact h
  | next _ hs ih => exact allOk_step ih hs

/-- C62: whatever the order in which the event loop runs the tasks, a request of a batch which has ended has the
answer (or the exception) which it has when it is executed alone. -/
theorem c62_alone {n i : Nat} {s : State} {r : Request} {a : Except Err Answer}
    (h : Steps ep inner envs rs (init rs) n s) (hr : rs[i]? = some r) (hs : s.cos[i]? = some (Co.ended a)) :
    ∃ choose, ValidChoice choose ∧ ∃ m, ∀ fuel, m ≤ fuel → (dispatch (alone ep (envs i) choose inner fuel) r []).1 = a :=
  (allOk_steps allOk_init h).2 i r _ hr hs

/-- C62: no deadlock: while some request has not ended, the event loop can run one of the tasks (as soon as any
of the futures is finished). -/
theorem c62_progress {n i : Nat} {s : State} {co : Co} (h : Steps ep inner envs rs (init rs) n s)
    (hc : s.cos[i]? = some co) (he : ∀ a, co ≠ Co.ended a) : ∃ s', Step ep inner envs rs s s' := by
  have hok := allOk_steps allOk_init h
  have hi : i < rs.length := by
    rw [← hok.1]; exact (List.getElem?_eq_some_iff.1 hc).1
  have hr : rs[i]? = some rs[i] := List.getElem?_eq_getElem hi
  cases co with
  | ready => exact ⟨_, .start hc hr⟩
  | ended a => exact absurd rfl (he a)
  | waiting gi g op round st =>
    exact ⟨_, .wake hc (hok.2 i _ _ hr hc).1 fun _ h => h⟩

/-! ### The number of steps -/

/-- the number of steps a task has made, at most -/
def Spent (cost : Nat) (n : Nat) : Co → Prop
  | .ready => n = 0
  | .waiting _ _ _ round _ => n = round + 1
  | .ended _ => n ≤ cost + 1

/-- the invariant of the engine, for the tasks which wait -/
def Costs (env : Env) (cost : Nat) : Co → Prop
  | .waiting _ _ _ round st => st.q.outstanding ≠ [] ∧ ∃ K C, EInv env [] [] [] round K cost C st
  | _ => True

theorem einv_weaken {env : Env} {R K A A' C : Nat} {st : St} (h : EInv env [] [] [] R K A C st) (ha : A ≤ A') :
    EInv env [] [] [] R K A' C st :=
  { h with costA := by have := h.costA; omega }

theorem resume_costs {env : Env} {cost gi round K C : Nat} {g : Graph} {op : Operation} {st : St}
    (h : EInv env [] [] [] round K cost C st) :
    Costs env cost (resume ep gi g op round st) := by
  unfold resume
  by_cases ho : st.q.outstanding = []
  · rw [if_pos (by simp [ho])]; trivial
  · rw [if_neg (by simpa using ho)]; exact ⟨ho, K, C, h⟩

theorem resume_spent {cost gi round n : Nat} {g : Graph} {op : Operation} {st : St} (h1 : n = round + 1)
    (h2 : n ≤ cost + 1) : Spent cost n (resume ep gi g op round st) := by
  unfold resume
  split
  · exact h2
  · exact h1

theorem asks_of_switch {r : Request} {op : Operation} {gi : Nat} {g : Graph} (h : switchGraph ep r = .ok (gi, op))
    (hg : ep.graphs[gi]? = some g) : Asks ep r op gi g := by
  unfold switchGraph at h
  cases hr : readRequest ep r with
  | error e => rw [hr] at h; cases e <;> cases h
  | ok op' =>
    rw [hr] at h
    simp only [chooseGraph_eq] at h
    cases hk : graphOf ep op'.kind with
    | none => rw [hk] at h; cases h
    | some g' =>
      rw [hk] at h
      cases h
      exact ⟨readRequest_ok.1 hr, hk, hg⟩

theorem process_strip {g : Graph} {q q' : QNode} (h : processQuery ep g q = .ok q') : q' = stripNode q := by
  unfold processQuery at h
  split at h <;> cases h
  rfl

theorem start_costs {env : Env} (hsd : SubsDecrease env) {r : Request} {cost : Nat}
    (hcost : ∀ op gi g, Asks ep r op gi g → costQuery env.sys 1 0 gi (stripNode op.query) ≤ cost) :
    Costs env cost (start ep env r) ∧ Spent cost 1 (start ep env r) := by
  unfold start
  cases h1 : switchGraph ep r with
  | error e => exact ⟨trivial, show 1 ≤ cost + 1 by omega⟩
  | ok x =>
    obtain ⟨gi, op⟩ := x
    simp only
    cases h2 : ep.graphs[gi]? with
    | none => exact ⟨trivial, show 1 ≤ cost + 1 by omega⟩
    | some g =>
      simp only
      cases h3 : processQuery ep g op.query with
      | error e => exact ⟨trivial, show 1 ≤ cost + 1 by omega⟩
      | ok q =>
        simp only
        cases h4 : startQuery env gi q with
        | error e => exact ⟨trivial, show 1 ≤ cost + 1 by omega⟩
        | ok st0 =>
          have hq := process_strip h3
          subst hq
          have he := einv_weaken (start_einv hsd h4).1 (hcost op gi g (asks_of_switch h1 h2))
          exact ⟨resume_costs he, resume_spent rfl (by omega)⟩

theorem wake_costs {env : Env} (hsd : SubsDecrease env) {cost gi round n : Nat} {g : Graph} {op : Operation} {st : St}
    {done : List Nat} (h : Costs env cost (.waiting gi g op round st)) (hn : Spent cost n (.waiting gi g op round st))
    (hne : done ≠ []) (hd : ∀ f ∈ done, f ∈ st.q.outstanding) :
    Costs env cost (wake ep env inner gi g op round st done) ∧
      Spent cost (n + 1) (wake ep env inner gi g op round st done) := by
  obtain ⟨ho, K, C, he⟩ := h
  have hn : n = round + 1 := hn
  have hlt : n + 1 ≤ cost + 1 := by
    have h1 := he.rounds
    have h2 := he.costA
    have h3 := List.length_pos_iff.2 ho
    omega
  unfold wake
  cases hw : progress qlens (runCB env) inner done { st with log := st.log ++ [.done done] } with
  | error e => exact ⟨trivial, hlt⟩
  | ok st' =>
    obtain ⟨res, p1, _, p3⟩ := (he.log_done (l := done)).progresses hsd hne hd
    have := progresses_unique p1 (progresses_of_progress hw)
    obtain ⟨_, K', h5⟩ := p3 st' this
    exact ⟨resume_costs h5, resume_spent (by omega) hlt⟩

/-- the number of steps is the sum over the tasks -/
def Counted (envs : Nat → Env) (cost : Nat → Nat) (n : Nat) (s : State) : Prop :=
  ∃ f : Nat → Nat, n = ∑ i ∈ Finset.range s.cos.length, f i ∧
    ∀ (i : Nat) co, s.cos[i]? = some co → Costs (envs i) (cost i) co ∧ Spent (cost i) (f i) co

theorem counted_put {cost : Nat → Nat} {n i : Nat} {s : State} {co0 co : Co} (h : Counted envs cost n s)
    (hi : s.cos[i]? = some co0)
    (hco : ∀ k, Costs (envs i) (cost i) co0 → Spent (cost i) k co0 → Costs (envs i) (cost i) co ∧ Spent (cost i) (k + 1) co) :
    Counted envs cost (n + 1) (s.put i co) := by
  obtain ⟨f, h1, h2⟩ := h
  have hlt := (List.getElem?_eq_some_iff.1 hi).1
  refine ⟨fun j => f j + if j = i then 1 else 0, ?_, fun j co' hj => ?_⟩
  · rw [Finset.sum_add_distrib, Finset.sum_ite_eq' , if_pos (by simpa [State.put] using hlt), h1]
    simp [State.put]
  · simp only [State.put, List.getElem?_set] at hj
    split at hj
    · rename_i e
      subst e
      cases hj
      simp only [if_true]
      exact hco _ (h2 i co0 hi).1 (h2 i co0 hi).2
    · rename_i e
      simp only [if_neg (Ne.symm e), Nat.add_zero]
      exact h2 j co' hj

/-- C62: the event loop makes at most one step for every request and one for every field, link and requirement of the
queries (`cost`), whatever the data functions return and in whatever order the tasks are run. -/
theorem c62_terminates (hsd : ∀ i, SubsDecrease (envs i)) {cost : Nat → Nat}
    (hcost : ∀ i r op gi g, rs[i]? = some r → Asks ep r op gi g →
      costQuery (envs i).sys 1 0 gi (stripNode op.query) ≤ cost i) {n : Nat} {s : State}
    (h : Steps ep inner envs rs (init rs) n s) : n ≤ ∑ i ∈ Finset.range rs.length, (1 + cost i) := by
  have key : Counted envs cost n s := by
    generalize hs : init rs = s0 at h
    induction h with
    | refl =>
      subst hs
      refine ⟨fun _ => 0, by simp, fun i co hi => ?_⟩
      simp only [init, List.getElem?_map, Option.map_eq_some_iff] at hi
      obtain ⟨r, _, rfl⟩ := hi
      exact ⟨trivial, rfl⟩
    | next _ hstep ih =>
      cases hstep with
      | @start i r h1 h2 =>
        refine counted_put ih h1 fun k _ hk => ?_
        have hk : k = 0 := hk
        subst hk
        exact start_costs (hsd i) fun op gi g ha => hcost i r op gi g h2 ha
      | wake h1 h2 h3 => exact counted_put ih h1 fun k hc hk => wake_costs (hsd _) hc hk h2 h3
  obtain ⟨f, h1, h2⟩ := key
  have hl := (allOk_steps (allOk_init (ep := ep) (inner := inner) (envs := envs)) h).1
  rw [h1, hl]
  refine Finset.sum_le_sum fun i hi => ?_
  have hi : i < s.cos.length := by rw [hl]; simpa using hi
  obtain ⟨hc, hsp⟩ := h2 i _ (List.getElem?_eq_getElem hi)
  cases hco : s.cos[i] with
  | ready => rw [hco] at hsp; have : f i = 0 := hsp; omega
  | ended a => rw [hco] at hsp; have : f i ≤ cost i + 1 := hsp; omega
  | waiting gi g op round st =>
    rw [hco] at hsp hc
    have h3 : f i = round + 1 := hsp
    obtain ⟨ho, K, C, he⟩ := hc
    have h1 := he.rounds
    have h2 := he.costA
    have h3 := List.length_pos_iff.2 ho
    omega

/-! ### The answer of the batch -/

theorem collect_some {cos : List Co} {as : List Answer} :
    collect cos = some as ↔ cos = as.map fun a => Co.ended (.ok a) := by
  induction cos generalizing as with
  | nil => cases as <;> simp [collect]
  | cons c r ih =>
    cases c with
    | ready => cases as <;> simp [collect]
    | waiting => cases as <;> simp [collect]
    | ended a =>
      cases a with
      | error e => cases as <;> simp [collect]
      | ok a =>
        simp only [collect, Option.map_eq_some_iff]
        constructor
        · rintro ⟨l, h1, rfl⟩; rw [ih.1 h1]; rfl
        · intro h
          cases as with
          | nil => cases h
          | cons a' l => cases h; exact ⟨l, ih.2 rfl, rfl⟩

/-- the exception of `gather` is the one of a task, and there is one if a task has raised -/
def FailOk (s : State) : Prop :=
  (∀ e, s.failed = some e → ∃ i : Nat, s.cos[i]? = some (Co.ended (.error e))) ∧
  (s.failed = none → ∀ (i : Nat) (e : Err), s.cos[i]? ≠ some (Co.ended (.error e)))

theorem failOk_put {s : State} {i : Nat} {co co0 : Co} (h : FailOk s) (hi : s.cos[i]? = some co0)
    (h0 : ∀ a, co0 ≠ Co.ended a) : FailOk (s.put i co) := by
  have hlt := (List.getElem?_eq_some_iff.1 hi).1
  have hself : (s.cos.set i co)[i]? = some co := by simp [List.getElem?_set, hlt]
  have hold : ∀ (e : Err) (j : Nat), s.cos[j]? = some (Co.ended (.error e)) → (s.cos.set i co)[j]? = some (Co.ended (.error e)) := by
    intro e j hj
    have hne : i ≠ j := by rintro rfl; rw [hi] at hj; cases hj; exact h0 _ rfl
    simp [List.getElem?_set, hne, hj]
  cases hf : s.failed with
  | some e0 =>
    refine ⟨fun e he => ?_, fun he => ?_⟩
    · simp only [State.put, hf] at he
      obtain ⟨j, hj⟩ := h.1 e (by rw [hf]; exact he)
      exact ⟨j, hold e j hj⟩
    · simp only [State.put, hf] at he; cases he
  | none =>
    constructor
    · intro e he
      refine ⟨i, ?_⟩
      simp only [State.put, hf] at he ⊢
      rw [hself]
      cases co with
      | ready => cases he
      | waiting => cases he
      | ended a =>
        cases a with
        | ok a => cases he
        | error e' => cases he; rfl
    · intro he j e hj
      simp only [State.put, List.getElem?_set] at hj
      split at hj
      · rename_i hij
        subst hij
        cases hj
        simp only [State.put, hf] at he
        cases he
      · exact h.2 hf j e hj

theorem failOk_steps {n : Nat} {s : State} (h : Steps ep inner envs rs (init rs) n s) : FailOk s := by
  generalize hs : init rs = s0 at h
  induction h with
  | refl =>
    subst hs
    refine ⟨fun e he => by simp [init] at he, fun _ i e hi => ?_⟩
    simp only [init, List.getElem?_map, Option.map_eq_some_iff] at hi
    obtain ⟨_, _, h⟩ := hi
    cases h
  | next _ hstep ih =>
    cases hstep with
    | start h1 h2 => exact failOk_put ih h1 (by intro a h; cases h)
    | wake h1 h2 h3 => exact failOk_put ih h1 (by intro a h; cases h)

/-- C62: the answers of a batch are as many as the requests, in the order of the requests, each of them is the answer
of the request executed alone. -/
theorem c62_answers {n : Nat} {s : State} {as : List Answer} (h : Steps ep inner envs rs (init rs) n s)
    (ho : s.outcome = some (.ok as)) :
    as.length = rs.length ∧ ∀ i r a, rs[i]? = some r → as[i]? = some a →
      ∃ choose, ValidChoice choose ∧ ∃ m, ∀ fuel, m ≤ fuel →
        (dispatch (alone ep (envs i) choose inner fuel) r []).1 = .ok a := by
  have hok := allOk_steps allOk_init h
  have hc : collect s.cos = some as := by
    unfold State.outcome at ho
    cases hf : s.failed with
    | some e => rw [hf] at ho; cases ho
    | none =>
      rw [hf] at ho
      simp only [Option.map_eq_some_iff] at ho
      obtain ⟨l, h1, h2⟩ := ho
      cases h2
      exact h1
  have hcos := collect_some.1 hc
  refine ⟨?_, fun i r a hr ha => ?_⟩
  · rw [← hok.1, hcos]; simp
  · exact c62_alone h hr (by rw [hcos, List.getElem?_map, ha]; rfl)

/-- C62: if the batch raises, one of its requests raises this exception when it is executed alone. -/
theorem c62_raises {n : Nat} {s : State} {e : Err} (h : Steps ep inner envs rs (init rs) n s)
    (ho : s.outcome = some (.error e)) :
    ∃ i r, rs[i]? = some r ∧ ∃ choose, ValidChoice choose ∧ ∃ m, ∀ fuel, m ≤ fuel →
        (dispatch (alone ep (envs i) choose inner fuel) r []).1 = .error e := by
  have hok := allOk_steps allOk_init h
  have hf : s.failed = some e := by
    unfold State.outcome at ho
    cases hf : s.failed with
    | some e' => rw [hf] at ho; cases ho; rfl
    | none =>
      rw [hf] at ho
      simp only [Option.map_eq_some_iff] at ho
      obtain ⟨l, h1, h2⟩ := ho
      cases h2
  obtain ⟨i, hi⟩ := (failOk_steps h).1 e hf
  have hlt : i < rs.length := by rw [← hok.1]; exact (List.getElem?_eq_some_iff.1 hi).1
  exact ⟨i, _, List.getElem?_eq_getElem hlt, c62_alone h (List.getElem?_eq_getElem hlt) hi⟩

/-- C62: when all tasks have ended, the batch has its outcome. -/
theorem c62_decided {n : Nat} {s : State} (h : Steps ep inner envs rs (init rs) n s)
    (he : ∀ (i : Nat) co, s.cos[i]? = some co → ∃ a, co = Co.ended a) : ∃ o, s.outcome = some o := by
  unfold State.outcome
  cases hf : s.failed with
  | some e => exact ⟨_, rfl⟩
  | none =>
    have hno := (failOk_steps h).2 hf
    have : ∃ as, collect s.cos = some as := by
      have key : ∀ l : List Co, (∀ c ∈ l, ∃ a, c = Co.ended (.ok a)) → ∃ as, collect l = some as := by
        intro l
        induction l with
        | nil => intro _; exact ⟨[], rfl⟩
        | cons c r ih =>
          intro hl
          obtain ⟨a, rfl⟩ := hl c (by simp)
          obtain ⟨as, has⟩ := ih fun c hc => hl c (List.mem_cons_of_mem _ hc)
          exact ⟨a :: as, by simp [collect, has]⟩
      refine key _ fun c hc => ?_
      obtain ⟨i, hi⟩ := List.getElem?_of_mem hc
      obtain ⟨a, rfl⟩ := he i c hi
      cases a with
      | ok a => exact ⟨a, rfl⟩
      | error e => exact absurd hi (hno i e)
    obtain ⟨as, has⟩ := this
    exact ⟨.ok as, by simp [has]⟩

/-- C62: the outcome of the batch does not change afterwards, although the other tasks may go on. -/
theorem c62_stable {n m : Nat} {s s' : State} {o : Except Err (List Answer)}
    (h : Steps ep inner envs rs (init rs) n s) (ho : s.outcome = some o) (h' : Steps ep inner envs rs s m s') :
    s'.outcome = some o := by
  have hd : ∀ {s1 s2 : State}, Step ep inner envs rs s1 s2 → s1.outcome = some o → s2.outcome = some o := by
    intro s1 s2 hst h1
    have key : ∀ (i : Nat) co0 co, s1.cos[i]? = some co0 → (∀ a, co0 ≠ Co.ended a) → (s1.put i co).outcome = some o := by
      intro i co0 co hi h0
      unfold State.outcome at h1 ⊢
      cases hf : s1.failed with
      | some e => rw [hf] at h1; simp only [State.put, hf]; exact h1
      | none =>
        rw [hf] at h1
        simp only [Option.map_eq_some_iff] at h1
        obtain ⟨as, h2, _⟩ := h1
        rw [collect_some] at h2
        rw [h2, List.getElem?_map, Option.map_eq_some_iff] at hi
        obtain ⟨a, _, rfl⟩ := hi
        exact absurd rfl (h0 _)
    cases hst with
    | start h2 h3 => exact key _ _ _ h2 (by intro a h; cases h)
    | wake h2 h3 h4 => exact key _ _ _ h2 (by intro a h; cases h)
  induction h' with
  | refl => exact ho
  | next _ hst ih => exact hd hst ih

/-- C62: from every moment the batch comes to its outcome. -/
theorem c62_completes (hsd : ∀ i, SubsDecrease (envs i)) {n : Nat} {s : State}
    (h : Steps ep inner envs rs (init rs) n s) :
    ∃ m s', Steps ep inner envs rs (init rs) m s' ∧ n ≤ m ∧ Steps ep inner envs rs s (m - n) s' ∧
      (∀ (i : Nat) co, s'.cos[i]? = some co → ∃ a, co = Co.ended a) ∧ ∃ o, s'.outcome = some o := by
  obtain ⟨cost, hcost⟩ : ∃ cost : Nat → Nat, ∀ i r op gi g, rs[i]? = some r → Asks ep r op gi g →
      costQuery (envs i).sys 1 0 gi (stripNode op.query) ≤ cost i := by
    have : ∀ i, ∃ c, ∀ r op gi g, rs[i]? = some r → Asks ep r op gi g →
        costQuery (envs i).sys 1 0 gi (stripNode op.query) ≤ c := by
      intro i
      by_cases hx : ∃ r op gi g, rs[i]? = some r ∧ Asks ep r op gi g
      · obtain ⟨r, op, gi, g, h1, h2⟩ := hx
        refine ⟨costQuery (envs i).sys 1 0 gi (stripNode op.query), fun r' op' gi' g' h3 h4 => ?_⟩
        rw [h1] at h3
        cases h3
        have := Reads.det h2.reads h4.reads
        subst this
        have h5 := h2.graph
        rw [h4.graph] at h5
        cases h5
        exact Nat.le_refl _
      · exact ⟨0, fun r op gi g h1 h2 => absurd ⟨r, op, gi, g, h1, h2⟩ hx⟩
    exact ⟨fun i => (this i).choose, fun i => (this i).choose_spec⟩
  obtain ⟨k, hk⟩ : ∃ k, k = (∑ i ∈ Finset.range rs.length, (1 + cost i)) - n := ⟨_, rfl⟩
  induction k using Nat.strongRecOn generalizing n s with
  | _ k ih =>
    by_cases hall : ∀ (i : Nat) co, s.cos[i]? = some co → ∃ a, co = Co.ended a
    · refine ⟨n, s, h, Nat.le_refl _, ?_, hall, c62_decided h hall⟩
      rw [Nat.sub_self]
      exact .refl
    · push Not at hall
      obtain ⟨i, co, h1, h2⟩ := hall
      obtain ⟨s1, hs1⟩ := c62_progress h h1 h2
      have hn := Steps.next h hs1
      have hb := c62_terminates hsd hcost hn
      obtain ⟨m, s', h3, h4, h5, h6⟩ := ih _ (by omega) hn rfl
      refine ⟨m, s', h3, by omega, ?_, h6⟩
      have trans : ∀ {k : Nat} {s2 : State}, Steps ep inner envs rs s1 k s2 → Steps ep inner envs rs s (k + 1) s2 := by
        intro k s2 hk
        induction hk with
        | refl => exact .next .refl hs1
        | next _ hx ih => exact .next ih hx
      have := trans h5
      rwa [show m - (n + 1) + 1 = m - n by omega] at this

/-! ### Data which follow the loading protocol -/

theorem not_withTypename_none {types : List (String × Ty)} {tn : String} {t : Ty} {q : QNode} {v : Val} :
    ¬ WithTypename types tn t q .none v := by
  cases q
  rw [WithTypename]
  rintro ⟨_, _, h, _⟩
  cases h

theorem forall2_unique {R : Val → Val → Prop} (h : ∀ v v1 v2, R v v1 → R v v2 → v1 = v2) :
    ∀ {l l1 l2 : List Val}, List.Forall₂ R l l1 → List.Forall₂ R l l2 → l1 = l2 := by
  intro l l1 l2 h1
  induction h1 generalizing l2 with
  | nil => intro h2; cases h2; rfl
  | cons hx _ ih =>
    intro h2
    cases h2 with
    | cons hy hr => rw [h _ _ _ hx hy, ih hr]

mutual
theorem withTypename_unique {types : List (String × Ty)} : ∀ (q : QNode) {tn : String} {t : Ty} {v v1 v2 : Val},
    WithTypename types tn t q v v1 → WithTypename types tn t q v v2 → v1 = v2
  | .mk fs ord, tn, t, v, v1, v2, h1, h2 => by
      rw [WithTypename] at h1 h2
      obtain ⟨kvs, vs, rfl, rfl, h3⟩ := h1
      obtain ⟨kvs', vs', e, rfl, h4⟩ := h2
      cases e
      rw [withTypename_items fs h3 h4]
theorem withTypename_items {types : List (String × Ty)} : ∀ (fs : List QItem) {tn : String} {t : Ty}
    {kvs : List (Val × Val)} {v1 v2 : List Val}, WithTypenameItems types tn t fs kvs v1 →
    WithTypenameItems types tn t fs kvs v2 → v1 = v2
  | [], tn, t, kvs, v1, v2, h1, h2 => by
      rw [WithTypenameItems] at h1 h2
      rw [h1, h2]
  | i :: r, tn, t, kvs, v1, v2, h1, h2 => by
      rw [WithTypenameItems] at h1 h2
      obtain ⟨x, xs, rfl, h3, h4⟩ := h1
      obtain ⟨y, ys, rfl, h5, h6⟩ := h2
      rw [withTypename_items r h3 h5]
      split at h4
      · rename_i hc
        rw [if_pos hc] at h6
        rw [h4, h6]
      · rename_i hc
        rw [if_neg hc] at h6
        obtain ⟨v, h7, h8⟩ := h4
        obtain ⟨v', h9, h10⟩ := h6
        rw [h7] at h9
        cases h9
        rw [withTypename_item i h8 h10]
theorem withTypename_item {types : List (String × Ty)} : ∀ (i : QItem) {t : Ty} {v v1 v2 : Val},
    WithTypenameItem types t i v v1 → WithTypenameItem types t i v v2 → v1 = v2
  | .field n o a, t, v, v1, v2, h1, h2 => by
      rw [WithTypenameItem] at h1 h2
      rw [h1, h2]
  | .link n q o a, t, v, v1, v2, h1, h2 => by
      rw [WithTypenameItem] at h1 h2
      have one : ∀ {name : String} {t' : Ty} {v v1 v2 : Val}, WithTypename types name t' q v v1 →
          WithTypename types name t' q v v2 → v1 = v2 := fun h h' => withTypename_unique q h h'
      obtain ⟨fts, ty, rfl, h3, h4⟩ := h1
      obtain ⟨fts', ty', e, h5, h6⟩ := h2
      cases e
      rw [h3] at h5
      cases h5
      split at h4
      · obtain ⟨t1, h7, h8⟩ := h4
        obtain ⟨t2, h9, h10⟩ := h6
        rw [h7] at h9
        cases h9
        exact one h8 h10
      · rcases h4 with ⟨rfl, rfl⟩ | ⟨t1, h7, h8⟩
        · rcases h6 with ⟨_, rfl⟩ | ⟨t2, _, h10⟩
          · rfl
          · exact absurd h10 not_withTypename_none
        · rcases h6 with ⟨rfl, _⟩ | ⟨t2, h9, h10⟩
          · exact absurd h8 not_withTypename_none
          · rw [h7] at h9
            cases h9
            exact one h8 h10
      · obtain ⟨t1, vs, vs1, h7, rfl, rfl, h8⟩ := h4
        obtain ⟨t2, vs', vs2, h9, e, rfl, h10⟩ := h6
        rw [h7] at h9
        cases h9
        cases e
        exact congrArg Val.list (forall2_unique (R := WithTypename types _ t1 q) (fun _ _ _ h h' => one h h') h8 h10)
      · exact h4.elim
end

variable {D : Data} {U : String → Opts → Prop} {g : Graph}

/-- C62: if the data functions called for a request follow the loading protocol for the data `D` and the request is
valid, then its answer, at whatever moments the tasks of the batch are run, is the value of the reference semantics
(for the selections of `c45_data_partial`). -/
theorem c62_reference {n i : Nat} {s : State} {r : Request} {a : Except Err Answer}
    (h : Steps ep inner envs rs (init rs) n s) (hr : rs[i]? = some r) (hs : s.cos[i]? = some (.ended a))
    (hgood : GoodSys U (envs i).sys) (hH : Faithful (envs i).H D U) (hconf : Conforms (envs i) D U)
    (hepH : ep.H = (envs i).H) (hepG : ep.graphs = (envs i).sys.graphs)
    {op : Operation} {gi : Nat} (ha : Asks ep r op gi g) (hv : validate g ep.lim (stripNode op.query) = .ok [])
    (hu : UniqueKeys op.query) (hsel : Selects g g.root op.query) :
    ∃ q', initOptions g (stripNode op.query) = .ok q' ∧
      ((∀ p node i, ItemAt g g.root q' p node i → U i.name i.options) →
        1 + costQuery (envs i).sys 0 1 gi (stripNode op.query) < inner →
        ∃ v, a = .ok (.data v) ∧ Completes g (rootType op.kind) op.query (semQuery (envs i).sys D gi q') v) := by
  obtain ⟨choose, hch, m, hm⟩ := c62_alone h hr hs
  obtain ⟨q', h1, h2⟩ := c45_data_partial
      (ep := alone ep (envs i) choose inner (m + costQuery (envs i).sys 1 0 gi (stripNode op.query) + 1))
      (fuel := m + costQuery (envs i).sys 1 0 gi (stripNode op.query) + 1) (log := []) hgood hH hconf hch hepH hepG
      (fun _ _ => rfl) ⟨ha.reads, ha.graph, ha.get⟩ hv hu hsel
  refine ⟨q', h1, fun hU hin => ?_⟩
  obtain ⟨v, h3, h4⟩ := h2 hU (by omega) hin
  have h5 := hm (m + costQuery (envs i).sys 1 0 gi (stripNode op.query) + 1) (by omega)
  rw [h3] at h5
  exact ⟨v, h5.symm, h4⟩

/-- C62: so two executions of a batch, with tasks run and finished in two different orders, give the same answer to
such a request, also when it is in another batch. -/
theorem c62_deterministic {n n' i : Nat} {s s' : State} {r : Request} {a a' : Except Err Answer}
    {envs' : Nat → Env} {rs' : List Request} {i' : Nat}
    (h : Steps ep inner envs rs (init rs) n s) (hr : rs[i]? = some r) (hs : s.cos[i]? = some (.ended a))
    (h' : Steps ep inner envs' rs' (init rs') n' s') (hr' : rs'[i']? = some r) (hs' : s'.cos[i']? = some (.ended a'))
    (hsame : envs' i' = envs i)
    (hgood : GoodSys U (envs i).sys) (hH : Faithful (envs i).H D U) (hconf : Conforms (envs i) D U)
    (hepH : ep.H = (envs i).H) (hepG : ep.graphs = (envs i).sys.graphs)
    {op : Operation} {gi : Nat} (ha : Asks ep r op gi g) (hv : validate g ep.lim (stripNode op.query) = .ok [])
    (hu : UniqueKeys op.query) (hsel : Selects g g.root op.query)
    (hU : ∀ q' p node i, initOptions g (stripNode op.query) = .ok q' → ItemAt g g.root q' p node i → U i.name i.options)
    (hin : 1 + costQuery (envs i).sys 0 1 gi (stripNode op.query) < inner) : a = a' := by
  obtain ⟨q1, h1, h2⟩ := c62_reference h hr hs hgood hH hconf hepH hepG ha hv hu hsel
  obtain ⟨q2, h3, h4⟩ := c62_reference h' hr' hs' (by rw [hsame]; exact hgood) (by rw [hsame]; exact hH)
    (by rw [hsame]; exact hconf) (by rw [hsame]; exact hepH) (by rw [hsame]; exact hepG) ha hv hu hsel
  rw [h1] at h3
  cases h3
  obtain ⟨v, rfl, ts, ht, hc⟩ := h2 (fun p node i hi => hU q1 p node i h1 hi) hin
  obtain ⟨v', rfl, ts', ht', hc'⟩ := h4 (fun p node i hi => hU q1 p node i h1 hi) (by rw [hsame]; exact hin)
  rw [ht] at ht'
  cases ht'
  rw [hsame] at hc'
  rw [withTypename_unique _ hc hc']

/-! ### The example: two requests, one of which raises -/

def exBatch : List Request := [{ query := some "Q" }, { query := none }]

def exG : Endpoint := exEp 20 20

open Hiku.Intro Hiku.Telemetry in
theorem exConf : GoodSys exUI exEnv'.sys ∧ Faithful exEnv'.H (endpointData 6 exDumps exEnv 1 none exData) exUI ∧
    Conforms exEnv' (endpointData 6 exDumps exEnv 1 none exData) exUI := by
  obtain ⟨_, h2, h3, h4⟩ := initEnv_conforms (base := 6) (dumps := exDumps) (env := exEnv) (D := exData) (U := exUI)
    (exGoodU fun n h => exUI_none (by simp [THIS] at h ⊢; tauto)) exFaithfulI exConformsU exBelow exNames
    (q := 1) (m := none) exGoodSchema Intro.exTypes
    (by intro x hx; simp [exEnv] at hx; subst hx; simp) (by simp) exInit
  exact ⟨h2, h3, h4⟩

theorem exSubs : SubsDecrease exEnv' := GoodSys.subsDecrease (env := exEnv') exConf.1

open Hiku.Intro in
/-- all hypotheses of `c62_reference` can be met: a batch of two requests, in every order of steps -/
example {n inner : Nat} {s : State} {a : Except Err Answer}
    (h : Steps (exEp inner 0) inner (fun _ => exEnv') [{ query := some "Q" }, { query := some "Q" }]
      (init [{ query := some "Q" }, { query := some "Q" }]) n s) (hs : s.cos[1]? = some (.ended a))
    (hin : 1 + costQuery exEnv'.sys 0 1 1 (stripNode exOpQ) < inner) :
    ∃ v q', a = .ok (.data v) ∧ initOptions exGraph' exStripped = .ok q' ∧
      Completes exGraph' "Query" exOpQ (semQuery exEnv'.sys (endpointData 6 exDumps exEnv 1 none exData) 1 q') v := by
  obtain ⟨q', h1, h2⟩ := c62_reference h (i := 1) rfl hs exConf.1 exConf.2.1 exConf.2.2 rfl rfl
    (exAsks inner 0) exValid exUnique exSelects
  obtain ⟨v, h3, h4⟩ := h2 (exNamesOf h1) hin
  exact ⟨v, q', h3, h1, h4⟩

/-- the first request is started, and one of its tasks is finished: all hypotheses can be met -/
theorem exWaiting : ∃ gi g op st, start exG exEnv' { query := some "Q" } = .waiting gi g op 0 st ∧
    st.q.outstanding = [0, 1] ∧ callCount st.log = 2 := ⟨_, _, _, _, rfl, rfl, rfl⟩

/-- so the batch of two such requests (whose queries are valid) comes to its outcome -/
example : ∃ m s o, Steps exG 20 (fun _ => exEnv') [{ query := some "Q" }, { query := some "Q" }]
    (init [{ query := some "Q" }, { query := some "Q" }]) m s ∧ s.outcome = some o := by
  obtain ⟨m, s, h1, _, _, _, o, h2⟩ := c62_completes (ep := exG) (inner := 20) (envs := fun _ => exEnv')
    (rs := [{ query := some "Q" }, { query := some "Q" }]) (fun _ => exSubs) .refl
  exact ⟨m, s, o, h1, h2⟩

/-- requests which are answered at once with errors, the second one first: the answers are in the order of the
requests -/
example : ∃ s, Steps exG 20 (fun _ => exEnv') [{ query := some "empty" }, { query := some "mutation" }]
    (init [{ query := some "empty" }, { query := some "mutation" }]) 2 s ∧
    s.outcome = some (.ok [.errors [.failedToRead .typeError], .errors [.unsupported .mutation]]) :=
  ⟨_, .next (.next .refl (Step.start (ep := exG) (inner := 20) (envs := fun _ => exEnv') (i := 1)
    (r := { query := some "mutation" }) rfl rfl)) (Step.start (i := 0) (r := { query := some "empty" }) rfl rfl), rfl⟩

/-- the requests of the example are run to the end, one after another or the failing one first: `gather` raises
either way -/
theorem exSteps : ∃ s, Steps exG 20 (fun _ => exEnv') exBatch (init exBatch) 1 s ∧
    s.outcome = some (.error .keyError) ∧ s.cos[0]? = some .ready :=
  ⟨_, .next .refl (Step.start (ep := exG) (inner := 20) (envs := fun _ => exEnv') (rs := exBatch)
    (s := init exBatch) (i := 1) (r := { query := none }) rfl rfl), rfl, rfl⟩

/-- C62 does not say that nothing is executed after the batch has raised: `gather` does not cancel the other
requests, their data functions (of mutations too) are called although the client was already told of a failure -/
theorem c62_goes_on : ∃ s s' gi g op st, Steps exG 20 (fun _ => exEnv') exBatch (init exBatch) 1 s ∧
    s.outcome = some (.error .keyError) ∧ Step exG 20 (fun _ => exEnv') exBatch s s' ∧
    s'.cos[0]? = some (.waiting gi g op 0 st) ∧ callCount st.log = 2 := by
  obtain ⟨s, h1, h2, h3⟩ := exSteps
  obtain ⟨gi, g, op, st, h4, _, h5⟩ := exWaiting
  refine ⟨s, _, gi, g, op, st, h1, h2, .start h3 rfl, ?_, h5⟩
  have hl : 0 < s.cos.length := (List.getElem?_eq_some_iff.1 h3).1
  rw [h4]
  simp [State.put, List.getElem?_set, hl]

end Hiku.Gather
