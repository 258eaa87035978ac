import Verif.Model.Engine

/-! The loops of the executors, hiku/executors/{sync,threads,asyncio}.py.  The synchronous one and the
one with threads are `execLoop` (Model/Engine) with a particular choice of the finished futures; the
asyncio one can also be interrupted while it waits. -/

namespace Hiku

/-- what `await wait(queue.__futures__, return_when=FIRST_COMPLETED)` ends with, asyncio.py:23-24:
finished tasks, or `CancelledError` if the task which executes the query was cancelled -/
inductive Wake
  | done (l : List Nat)
  | cancelled

/-- how `AsyncIOExecutor.process` ends -/
inductive AsyncOutcome
  /-- `return workflow.result()` -/
  | finished (st : St)
  /-- an exception left `queue.progress` -/
  | raised (e : Err)
  /-- `CancelledError` is raised again; `cancel()` was called on these tasks, in this order -/
  | cancelled (tasks : List Nat) (st : St)

/-- `SyncExecutor.process`, sync.py:15-18: `queue.progress(queue.__futures__)` -/
def syncChoose : Nat → List Nat → List Nat := fun _ out => out

/-- `AsyncIOExecutor.process`, asyncio.py:20-31.  `fuel` bounds the number of rounds (C07 says how much is
enough).  Not modelled: what the event loop does with the cancelled tasks while `gather` waits for
them, and a `CancelledError` raised by a data function itself. -/
def asyncLoop (env : Env) (wake : Nat → List Nat → Wake) (inner : Nat) : Nat → Nat → St → AsyncOutcome
  | 0, _, _ => .raised .exception
  | fuel + 1, round, st =>
      if st.q.outstanding.isEmpty then .finished st
      else
        match wake round st.q.outstanding with
        | .cancelled => .cancelled st.q.outstanding st
        | .done done =>
            match progress qlens (runCB env) inner done { st with log := st.log ++ [.done done] } with
            | .error e => .raised e
            | .ok st' => asyncLoop env wake inner fuel (round + 1) st'

end Hiku
