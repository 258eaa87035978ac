import Verif.Model.Val

/-! # hiku/executors/queue.py

Task sets and futures are numbered.  `κ` is the type of callbacks; the effect of running a callback
is given by the caller of `progress` as a function on the whole state `σ`, in which the queue lives
(`get`/`put`). -/

namespace Hiku

/-- what a callback can be registered on: a future or a task set -/
inductive Obj where
  | fut (f : Nat)
  | ts (t : Nat)
  deriving DecidableEq, Repr

/-- `Queue.__init__`, queue.py:22-26.  `nextTs` numbers the `TaskSet` objects. -/
structure Queue (κ : Type) where
  futures : List (Nat × List Nat) := []
  forks : List (Nat × List Nat) := []
  callbacks : List (Obj × List κ) := []
  nextTs : Nat := 0

namespace Queue
variable {κ : Type}

/-- `Queue.__futures__`, queue.py:28-30 -/
def outstanding (q : Queue κ) : List Nat := q.futures.flatMap (·.2)

/-- `Queue.submit` after the executor has created `fut`, queue.py:55-58: KeyError for a task set
which is not in the queue any more -/
def submit (q : Queue κ) (ts fut : Nat) : Except Err (Queue κ) :=
  match dget q.futures ts with
  | none => .error .keyError
  | some s => .ok { q with futures := dset q.futures ts (s ++ [fut]) }

/-- `Queue.fork`, queue.py:60-66 -/
def fork (q : Queue κ) (from_ : Option Nat) : Except Err (Queue κ × Nat) :=
  let t := q.nextTs
  let q1 : Queue κ := { q with futures := dset q.futures t [], forks := dset q.forks t [], nextTs := t + 1 }
  match from_ with
  | none => .ok (q1, t)
  | some p =>
      match dget q1.forks p with
      | none => .error .keyError
      | some s => .ok ({ q1 with forks := dset q1.forks p (s ++ [t]) }, t)

/-- `Queue.add_callback`, queue.py:68-69 (`_callbacks` is a defaultdict(list)) -/
def addCallback (q : Queue κ) (o : Obj) (cb : κ) : Queue κ :=
  { q with callbacks := dset q.callbacks o ((dget q.callbacks o).getD [] ++ [cb]) }

/-- `self._callbacks.pop(obj, [])` -/
def popCallbacks (q : Queue κ) (o : Obj) : List κ × Queue κ :=
  ((dget q.callbacks o).getD [], { q with callbacks := derase q.callbacks o })

/-- `for future_set in self._futures.values(): future_set.difference_update(done)`, queue.py:33-34 -/
def dropDone (q : Queue κ) (done : List Nat) : Queue κ :=
  { q with futures := q.futures.map fun p => (p.1, p.2.filter fun f => f ∉ done) }

/-- `completed_task_sets`, queue.py:41-43.  `self._forks[ts]` exists for every key of `_futures`
(both are changed together), so the default is never used. -/
def completed (q : Queue κ) : List Nat :=
  (q.futures.filter fun p => p.2.isEmpty && ((dget q.forks p.1).getD []).isEmpty).map (·.1)

/-- queue.py:50-53: `self._futures.pop(task_set)`, `self._forks.pop(task_set)` and the discards -/
def removeTs (q : Queue κ) (t : Nat) : Queue κ :=
  { q with
    futures := derase q.futures t
    forks := (derase q.forks t).map fun p => (p.1, p.2.filter (· ≠ t)) }

end Queue

/-- access to the queue inside the state of a program -/
structure QLens (σ κ : Type) where
  get : σ → Queue κ
  put : σ → Queue κ → σ

section Progress
variable {σ κ : Type} (L : QLens σ κ) (run : κ → σ → Except Err σ)

/-- `for callback in cbs: callback()` -/
def runCallbacks : List κ → σ → Except Err σ
  | [], s => .ok s
  | cb :: r, s => do
      let s' ← run cb s
      runCallbacks r s'

/-- run and forget the callbacks of `o`: `for callback in self._callbacks.pop(o, []): callback()` -/
def fireCallbacks (o : Obj) (s : σ) : Except Err σ :=
  let p := (L.get s).popCallbacks o
  runCallbacks run p.1 (L.put s p.2)

/-- queue.py:36-38 -/
def fireFutures : List Nat → σ → Except Err σ
  | [], s => .ok s
  | f :: r, s => do
      let s' ← fireCallbacks L run (.fut f) s
      fireFutures r s'

/-- queue.py:47-53, the body of the `while` loop for a list of completed task sets -/
def fireTaskSets : List Nat → σ → Except Err σ
  | [], s => .ok s
  | t :: r, s => do
      let s' ← fireCallbacks L run (.ts t) s
      fireTaskSets r (L.put s' ((L.get s').removeTs t))

/-- queue.py:40-53, the `while True` loop.  The first argument bounds the number of iterations;
running out of it is the special error `Err.exception` (never reached by the engine with the fuel
which the termination theorem computes). -/
def drain : Nat → σ → Except Err σ
  | 0, _ => .error .exception
  | fuel + 1, s =>
      match (L.get s).completed with
      | [] => .ok s
      | t :: r => do
          let s' ← fireTaskSets L run (t :: r) s
          drain fuel s'

/-- `Queue.progress`, queue.py:32-53 -/
def progress (fuel : Nat) (done : List Nat) (s : σ) : Except Err σ := do
  let s1 ← fireFutures L run done (L.put s ((L.get s).dropDone done))
  drain L run fuel s1

end Progress

end Hiku
