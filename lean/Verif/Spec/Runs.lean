import Verif.Model.Engine

/-! Specification for C07: complete runs of the loops, without any bound on the number of
iterations.  A run which does not end is not related to any outcome. -/

namespace Hiku

section
variable {σ κ : Type} (L : QLens σ κ) (run : κ → σ → Except Err σ)

/-- the `while True` loop of `Queue.progress` (queue.py:40-53) ends with the outcome -/
inductive Drains : σ → Except Err σ → Prop
  | stop {s} : (L.get s).completed = [] → Drains s (.ok s)
  | fail {s e} : (L.get s).completed ≠ [] →
      fireTaskSets L run (L.get s).completed s = .error e → Drains s (.error e)
  | next {s s' r} : (L.get s).completed ≠ [] →
      fireTaskSets L run (L.get s).completed s = .ok s' → Drains s' r → Drains s r

/-- `Queue.progress` (queue.py:32-53) ends with the outcome -/
inductive Progresses (done : List Nat) (s : σ) : Except Err σ → Prop
  | fail {e} : fireFutures L run done (L.put s ((L.get s).dropDone done)) = .error e →
      Progresses done s (.error e)
  | ok {s1 r} : fireFutures L run done (L.put s ((L.get s).dropDone done)) = .ok s1 →
      Drains L run s1 r → Progresses done s r

end

/-- The executor loop (executors/threads.py:12-16 and the others) started in round `round` ends
after `n` rounds with the outcome. -/
inductive Loops (env : Env) (choose : Nat → List Nat → List Nat) :
    Nat → St → Nat → Except Err St → Prop
  | stop {round st} : st.q.outstanding = [] → Loops env choose round st 0 (.ok st)
  | fail {round st e} : st.q.outstanding ≠ [] →
      Progresses qlens (runCB env) (choose round st.q.outstanding)
        { st with log := st.log ++ [.done (choose round st.q.outstanding)] } (.error e) →
      Loops env choose round st 1 (.error e)
  | next {round st st' n r} : st.q.outstanding ≠ [] →
      Progresses qlens (runCB env) (choose round st.q.outstanding)
        { st with log := st.log ++ [.done (choose round st.q.outstanding)] } (.ok st') →
      Loops env choose (round + 1) st' n r → Loops env choose round st (n + 1) r

/-- An executor waits until at least one of the outstanding futures is finished. -/
def ValidChoice (choose : Nat → List Nat → List Nat) : Prop :=
  ∀ round out, out ≠ [] → choose round out ≠ [] ∧ ∀ f ∈ choose round out, f ∈ out

end Hiku
