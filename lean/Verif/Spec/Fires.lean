import Verif.Spec.Runs

/-! Specification for C17 on runs of the engine: the moments at which callbacks of task sets run. -/

namespace Hiku

section
variable {σ κ : Type} (L : QLens σ κ) (run : κ → σ → Except Err σ)

/-- when the callbacks of the list are run one after another from the first state, `cb` is started in
the last state -/
inductive RunningIn : List κ → σ → κ → σ → Prop
  | here {cb r s} : RunningIn (cb :: r) s cb s
  | later {c r s s' cb s''} : run c s = .ok s' → RunningIn r s' cb s'' → RunningIn (c :: r) s cb s''

/-- when the listed task sets are processed from the first state (queue.py:47-53), the callback `cb` of
the task set `t` is started in the last state -/
inductive FiredIn : List Nat → σ → Nat → κ → σ → Prop
  | here {t r s cb s'} :
      RunningIn run ((L.get s).popCallbacks (.ts t)).1 (L.put s ((L.get s).popCallbacks (.ts t)).2) cb s' →
      FiredIn (t :: r) s t cb s'
  | later {u r s s' t cb s''} : fireCallbacks L run (.ts u) s = .ok s' →
      FiredIn r (L.put s' ((L.get s').removeTs u)) t cb s'' → FiredIn (u :: r) s t cb s''

/-- in the `while True` loop (queue.py:40-53) started in the first state, the callback `cb` of the task
set `t` is started in the last state -/
inductive DrainFires : σ → Nat → κ → σ → Prop
  | now {s t cb s'} : FiredIn L run (L.get s).completed s t cb s' → DrainFires s t cb s'
  | later {s s' t cb s''} : fireTaskSets L run (L.get s).completed s = .ok s' →
      DrainFires s' t cb s'' → DrainFires s t cb s''

/-- in `Queue.progress(done)` (queue.py:32-53) the callback `cb` of the task set `t` is started in the
last state -/
def ProgressFires (done : List Nat) (s : σ) (t : Nat) (cb : κ) (s' : σ) : Prop :=
  ∃ s1, fireFutures L run done (L.put s ((L.get s).dropDone done)) = .ok s1 ∧
    DrainFires L run s1 t cb s'

end

/-- `d` was forked from `t`, directly or not, and is still in the queue, as all task sets between -/
inductive WaitsFor {κ : Type} (q : Queue κ) : Nat → Nat → Prop
  | child {t l d} : dget q.forks t = some l → d ∈ l → WaitsFor q t d
  | deeper {t p l d} : WaitsFor q t p → dget q.forks p = some l → d ∈ l → WaitsFor q t d

end Hiku
