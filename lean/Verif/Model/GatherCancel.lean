import Verif.Model.Gather

/-! # Cancellation of an asynchronous batch

The task which awaits `AsyncBatchGraphQLEndpoint.dispatch` is cancelled while it waits for `gather`: the future of `gather`
calls `cancel()` on every request which has not ended (asyncio/tasks.py, `_GatheringFuture.cancel`), at once, before
the event loop runs anything else.  Then `CancelledError` is thrown into each of them when the event loop comes to it, also into one
whose `wait` could return (asyncio/tasks.py, `Task.cancel`).  Not represented: data functions which suppress `CancelledError` and
go on. -/

namespace Hiku.Gather
open Hiku.Endpoint

/-- The `CancelledError` handler, executors/asyncio.py:27-29: the tasks on which it calls `cancel()`.  A coroutine which was
not started is never run. -/
def Co.cancels : Co → List Nat
  | .waiting _ _ _ _ st => st.q.outstanding
  | _ => []

/-- a batch which may have been cancelled -/
structure CState where
  s : State
  /-- `cancel()` was called on the requests which had not ended -/
  asked : Bool := false
  /-- the requests into which `CancelledError` was thrown, with the tasks on which they called `cancel()` -/
  thrown : List (Nat × List Nat) := []

/-- `gather(*(... for item in data))`, endpoint/graphql.py:145-148 -/
def cinit (rs : List Request) : CState := { s := init rs }

variable (ep : Endpoint) (inner : Nat)

/-- steps of the event loop, with cancellation of the batch, which has no effect when `gather` is done -/
inductive CStep (envs : Nat → Env) (rs : List Request) : CState → CState → Prop
  | run {c s'} : c.asked = false → Step ep inner envs rs c.s s' → CStep envs rs c { c with s := s' }
  | ask {c} : c.asked = false → c.s.outcome = none → CStep envs rs c { c with asked := true }
  | throw {c i co} : c.asked = true → c.s.cos[i]? = some co → (∀ a, co ≠ .ended a) → i ∉ c.thrown.map Prod.fst →
      CStep envs rs c { c with thrown := c.thrown ++ [(i, co.cancels)] }

inductive CSteps (envs : Nat → Env) (rs : List Request) : CState → Nat → CState → Prop
  | refl {c} : CSteps envs rs c 0 c
  | next {c c' c'' n} : CSteps envs rs c n c' → CStep ep inner envs rs c' c'' → CSteps envs rs c (n + 1) c''

/-- how a task ended -/
inductive TaskEnd where
  | result
  | raised (e : Err)
  | cancelled

/-- `await gather(*queue.__futures__)` and `raise`, executors/asyncio.py:30-31: the exception which leaves `process`; `none`
is `CancelledError`.  The list says how the tasks ended, in the order in which `gather` learns of it. -/
def leaves : List TaskEnd → Option Err
  | [] => none
  | .result :: r => leaves r
  | .raised e :: _ => some e
  | .cancelled :: _ => none

end Hiku.Gather
