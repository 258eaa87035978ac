import Verif.Model.Endpoint
import Verif.Model.Executors

/-! # AsyncBatchGraphQLEndpoint: requests of a batch which are executed concurrently

`gather` makes a task of every coroutine; the event loop runs one of them at a time, from one `await` to the next
one.  Each coroutine awaits only `wait(...)` of its own queue (executors/asyncio.py:23-24).  The data functions may
share any state: `envs i` are the outcomes of the calls of the `i`-th request, whatever they depend on.  Cancellation
of the whole batch is in Model/GatherCancel. -/

namespace Hiku.Gather
open Hiku.Endpoint

/-- the coroutine of one `AsyncGraphQLEndpoint.dispatch`, where the event loop can see it: not started; inside of
`wait` with the values of its local variables; ended with an answer or an exception -/
inductive Co where
  | ready
  | waiting (gi : Nat) (g : Graph) (op : Operation) (round : Nat) (st : St)
  | ended (a : Except Err Answer)

variable (ep : Endpoint) (env : Env) (inner : Nat)

/-- after `await self.engine.execute(...)`: endpoint/graphql.py:126-127, 134-136, with executors/asyncio.py:26
(`workflow.result()`, engine.py:296-298) -/
def finish (g : Graph) (op : Operation) (st : St) : Except Err Answer :=
  match st.wfs[0]? with
  | none => .error .assertionError
  | some wf =>
      match denormalizeQ ep.H wf.index g (some (typeName op.kind)) wf.query op.query with
      | .error e => .error e
      | .ok v => .ok (.data v)

/-- the condition of the loop `while queue.__futures__`, executors/asyncio.py:22, and what follows until the next
`await` or the end -/
def resume (gi : Nat) (g : Graph) (op : Operation) (round : Nat) (st : St) : Co :=
  if st.q.outstanding.isEmpty then .ended (finish ep g op st) else .waiting gi g op round st

/-- the coroutine is run for the first time: `AsyncGraphQLEndpoint.dispatch` and `execute`,
endpoint/graphql.py:123-137, and `Engine.execute` engine.py:423-431, until the first `await wait(...)`.  `ep.engine`
is not used. -/
def start (r : Request) : Co :=
  match switchGraph ep r with
  | .error e => .ended (answer (.error e))
  | .ok x =>
      match ep.graphs[x.1]? with
      | none => .ended (.error .assertionError)
      | some g =>
          match processQuery ep g x.2.query with
          | .error e => .ended (answer (.error e))
          | .ok q =>
              match startQuery env x.1 q with
              | .error e => .ended (answer (.error (Raised.ofErr e)))
              | .ok st => resume ep x.1 g x.2 0 st

/-- `wait` returned `done`: executors/asyncio.py:23-25 -/
def wake (gi : Nat) (g : Graph) (op : Operation) (round : Nat) (st : St) (done : List Nat) : Co :=
  match progress qlens (runCB env) inner done { st with log := st.log ++ [.done done] } with
  | .error e => .ended (answer (.error (Raised.ofErr e)))
  | .ok st' => resume ep gi g op (round + 1) st'

/-- the tasks of `gather`, in the order of the requests, and the first exception which one of them raised (it is the
outcome of `gather`; the other tasks go on), endpoint/graphql.py:145-148 -/
structure State where
  cos : List Co
  failed : Option Err := none

/-- the `i`-th task has come to this point -/
def State.put (s : State) (i : Nat) (co : Co) : State where
  cos := s.cos.set i co
  failed :=
    match s.failed, co with
    | none, .ended (.error e) => some e
    | f, _ => f

/-- `gather(*(... for item in data))`, endpoint/graphql.py:145-148 -/
def init (rs : List Request) : State := { cos := rs.map fun _ => .ready }

/-- the answers, if all tasks have ended with an answer -/
def collect : List Co → Option (List Answer)
  | [] => some []
  | .ended (.ok a) :: r => (collect r).map (a :: ·)
  | _ :: _ => none

/-- what `await gather(...)` gives; `none`: not yet -/
def State.outcome (s : State) : Option (Except Err (List Answer)) :=
  match s.failed with
  | some e => some (.error e)
  | none => (collect s.cos).map .ok

/-- The event loop runs one of the tasks until its next `await`: a new one, or one for which `wait` has got at least
one finished future. -/
inductive Step (envs : Nat → Env) (rs : List Request) : State → State → Prop
  | start {s i r} : s.cos[i]? = some .ready → rs[i]? = some r →
      Step envs rs s (s.put i (start ep (envs i) r))
  | wake {s i gi g op round st done} : s.cos[i]? = some (.waiting gi g op round st) → done ≠ [] →
      (∀ f ∈ done, f ∈ st.q.outstanding) →
      Step envs rs s (s.put i (wake ep (envs i) inner gi g op round st done))

/-- `n` steps of the event loop -/
inductive Steps (envs : Nat → Env) (rs : List Request) : State → Nat → State → Prop
  | refl {s} : Steps envs rs s 0 s
  | next {s s' s'' n} : Steps envs rs s n s' → Step ep inner envs rs s' s'' → Steps envs rs s (n + 1) s''

end Hiku.Gather
