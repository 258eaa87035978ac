import Verif.Spec.Runs

/-! Specification for C16 and C17: arbitrary programs using the queue.

A program is a set of callbacks `κ` and, for every callback, the queue operations it performs when it
runs (they may depend on the whole state).  The state records a history of what happened. -/

namespace Hiku

/-- the queue operations available to a program (queue.py:7-18, 55-69) -/
inductive QOp (κ : Type) where
  | submit (t : Nat)
  | fork (from_ : Option Nat)
  | addCallback (o : Obj) (c : κ)

/-- history events -/
inductive QEv (κ : Type) where
  | submitted (t f : Nat)
  | forked (from_ : Option Nat) (t : Nat)
  | registered (o : Obj) (c : κ)
  | reported (done : List Nat)
  | ran (o : Obj) (c : κ)

/-- `nf`: number of futures created so far.  A stored callback remembers its object, only for the
history. -/
structure QState (κ : Type) where
  q : Queue (Obj × κ) := {}
  nf : Nat := 0
  trace : List (QEv κ) := []

section
variable {κ : Type}

def QOp.apply (s : QState κ) : QOp κ → Except Err (QState κ)
  | .submit t => do
      let q ← s.q.submit t s.nf
      .ok { q := q, nf := s.nf + 1, trace := s.trace ++ [.submitted t s.nf] }
  | .fork p =>
      -- a program can only name task sets which exist already
      if p.all (· < s.q.nextTs) then do
        let (q, t) ← s.q.fork p
        .ok { s with q := q, trace := s.trace ++ [.forked p t] }
      else .error .nameError
  | .addCallback o c =>
      .ok { s with q := s.q.addCallback o (o, c), trace := s.trace ++ [.registered o c] }

def QOp.applyAll (s : QState κ) : List (QOp κ) → Except Err (QState κ)
  | [] => .ok s
  | op :: r => do
      let s' ← op.apply s
      applyAll s' r

/-- what the callbacks of the program do -/
abbrev Prog (κ : Type) := κ → QState κ → List (QOp κ)

def Prog.run (prog : Prog κ) (c : Obj × κ) (s : QState κ) : Except Err (QState κ) :=
  QOp.applyAll { s with trace := s.trace ++ [.ran c.1 c.2] } (prog c.2 s)

def clientLens (κ : Type) : QLens (QState κ) (Obj × κ) where
  get s := s.q
  put s q := { s with q := q }

/-- the states a program can be in between its calls of `progress` and of the other operations -/
inductive History (prog : Prog κ) : QState κ → Prop
  | init : History prog {}
  | op {s s'} (op : QOp κ) : History prog s → op.apply s = .ok s' → History prog s'
  | progress {s s'} (done : List Nat) : History prog s →
      Progresses (clientLens κ) prog.run done { s with trace := s.trace ++ [.reported done] } (.ok s') →
      History prog s'

/-- callbacks registered on `o`, in the order of registration -/
def registeredOn [DecidableEq κ] (o : Obj) (l : List (QEv κ)) : List κ :=
  l.filterMap fun | .registered o' c => if o' = o then some c else none | _ => none

/-- callbacks of `o` which were run, in the order of running -/
def ranOn [DecidableEq κ] (o : Obj) (l : List (QEv κ)) : List κ :=
  l.filterMap fun | .ran o' c => if o' = o then some c else none | _ => none

def Reported (l : List (QEv κ)) (f : Nat) : Prop := ∃ done, QEv.reported done ∈ l ∧ f ∈ done

/-- `d` is `t` or was forked from it, directly or not -/
inductive Descendant (l : List (QEv κ)) (t : Nat) : Nat → Prop
  | self : Descendant l t t
  | fork {p d} : Descendant l t p → QEv.forked (some p) d ∈ l → Descendant l t d

/-- Callbacks submit to and fork from task sets which are still waiting for something, or which were
created by the callback itself. -/
def Disciplined (prog : Prog κ) : Prop :=
  ∀ c s, ∀ op ∈ prog c s, ∀ t, op = .submit t ∨ op = .fork (some t) →
    t ∉ s.q.completed ∨ s.q.nextTs ≤ t

end

end Hiku
