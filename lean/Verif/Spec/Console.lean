import Verif.Model.Console
import Verif.Spec.Validate

/-! Specification for C49: answers of the console -/

namespace Hiku.Console

/-- `start_response` was called exactly once, with this status, this content type and the length of the returned
content (in bytes), declared once -/
structure Answered (o : Out) (status : String) (type : Option String) (content : ByteArray) : Prop where
  returned : o.result = .ok content
  once : ∃ headers, o.started = [(status, headers)] ∧ dget headers "Content-Type" = type ∧
    headers.filter (fun h => h.1 == "Content-Length") = [("Content-Length", toString content.size)]

/-- an exception left the application and the client got nothing -/
structure Escaped (o : Out) (e : Err) : Prop where
  error : o.result = .error e
  started : o.started = []

/-- nothing was read from the client and nothing was executed -/
structure Idle (o : Out) (log : List QNode) : Prop where
  reads : o.reads = []
  log : o.log = log

/-- the paths of the console -/
inductive Page where
  | index
  | docs
  | script
  deriving DecidableEq

def pageOf : String → Option Page
  | "" => some .index
  | "/" => some .index
  | "/docs" => some .docs
  | "/console.js" => some .script
  | _ => none

/-- the request has this path and this method -/
def Asks (env : Environ) (path method : String) : Prop := env.path = some path ∧ env.method = some method

/-- the declared length of the request; nothing declared is 0, a negative number is 0 -/
def Declares (app : App) (env : Environ) (n : Nat) : Prop :=
  ((env.length = none ∨ env.length = some "") ∧ n = 0) ∨
    ∃ s i, s ≠ "" ∧ env.length = some s ∧ app.pyInt s = some i ∧ n = i.toNat

/-- the sent bytes are the text of this query -/
def Sends (app : App) (env : Environ) (n : Nat) (q : QNode) : Prop :=
  ∃ src, app.decode (env.input.take n) = some src ∧ app.read src = .ok q

/-- a query, from its text to the value: the exception, if there is one -/
inductive Fails (app : App) (bytes : List UInt8) (log : List QNode) : Err → Prop
  | decode : app.decode bytes = none → Fails app bytes log .valueError
  | read {src : String} {e : Err} : app.decode bytes = some src → app.read src = .error e → Fails app bytes log e
  | validate {src : String} {q : QNode} {e : Err} : app.decode bytes = some src → app.read src = .ok q →
      Hiku.validate app.root app.lim q = .error e → Fails app bytes log e
  | execute {src : String} {q : QNode} {e : Err} : app.decode bytes = some src → app.read src = .ok q →
      Hiku.validate app.root app.lim q = .ok [] → app.engine log q = .error e → Fails app bytes log e
  | denormalize {src : String} {q : QNode} {r : Index × QNode} {e : Err} : app.decode bytes = some src → app.read src = .ok q →
      Hiku.validate app.root app.lim q = .ok [] → app.engine log q = .ok r →
      Hiku.denormalize app.H r.1 app.root r.2 = .error e → Fails app bytes log e

end Hiku.Console
