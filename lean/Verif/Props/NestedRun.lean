import Verif.Props.NestedIndex
import Verif.Proofs.StateOps
import Verif.Props.Store
import Verif.Props.Cancel
import Verif.Props.Semantics

/-! # C72: every index of a running query is what the nested index would be -/

namespace Hiku.NIdx
open Hiku

variable {env : Env} {H : PyHash}

/-- a history without failures gives this flat index -/
def Made (H : PyHash) (idx : Index) : Prop :=
  ∃ ops, (∀ x ∈ (frun H ops []).1, ∃ v, x = .ok v) ∧ (frun H ops []).2 = idx

theorem frun_append (ops more : List Op) : ∀ idx : Index, frun H (ops ++ more) idx =
    ((frun H ops idx).1 ++ (frun H more (frun H ops idx).2).1, (frun H more (frun H ops idx).2).2) := by
  induction ops with
  | nil => exact fun _ => rfl
  | cons op r ih =>
    intro idx
    show frun H (op :: (r ++ more)) idx = _
    rw [frun, ih]
    rfl

theorem Made.snoc {idx idx' : Index} (h : Made H idx) {op : Op} {v : Option Val} (e : fstep H op idx = (.ok v, idx')) :
    Made H idx' := by
  obtain ⟨ops, h1, h2⟩ := h
  refine ⟨ops ++ [op], ?_, ?_⟩
  · intro x hx
    rw [frun_append, h2] at hx
    rcases List.mem_append.1 hx with hx | hx
    · exact h1 x hx
    · rw [frun, frun, e] at hx
      exact ⟨v, by simpa using hx⟩
  · rw [frun_append, h2, frun, frun, e]

theorem Made.stored {idx idx' : Index} (h : Made env.H idx) (hs : StOp.Stored env idx idx') : Made env.H idx' := by
  rcases hs with ⟨node, qfs, ids, r, e⟩ | ⟨node, gl, ql, ids, r, e⟩
  · rw [← storeFieldsFx_eq] at e
    refine h.snoc (op := .fields node qfs ids r) (v := none) ?_
    unfold fstep
    unfold fxResult at e
    dsimp only
    cases hx : storeFieldsFx env.H idx node qfs ids r with
    | mk i x =>
      rw [hx] at e
      cases x with
      | error e' => simp at e
      | ok u => simp at e; rw [e]; rfl
  · rw [← storeLinksFx_eq] at e
    refine h.snoc (op := .links node gl ql ids r) (v := none) ?_
    unfold fstep
    unfold fxResult at e
    dsimp only
    cases hx : storeLinksFx env.H idx node gl ql ids r with
    | mk i x =>
      rw [hx] at e
      cases x with
      | error e' => simp at e
      | ok u => simp at e; rw [e]; rfl

/-- every workflow has such an index -/
def AllMade (env : Env) (st : St) : Prop := ∀ (w : Nat) wf, st.wfs[w]? = some wf → Made env.H wf.index

theorem allMade_closed : StOp.StClosed env (AllMade env) where
  submit := by
    intro w nd f args st st' fut h hp
    unfold submitCall at h
    split at h
    · simp at h
    simp only at h
    split at h
    · simp at h
    split at h
    · simp at h
    simp at h
    obtain ⟨rfl, _⟩ := h
    exact hp
  fork := fun _ hp => hp
  add := fun _ _ hp => hp
  idx := by
    intro st w wf i hw hs hp w' wf' e
    simp only [setIndex, List.getElem?_modify] at e
    by_cases h : w = w'
    · subst h
      rw [hw] at e
      simp at e
      subst e
      exact (hp w wf hw).stored hs
    · simp [h] at e
      exact hp w' wf' e
  wf := by
    intro st wf h0 hp w' wf' e
    rcases lt_or_ge w' st.wfs.length with hl | hl
    · rw [List.getElem?_append_left hl] at e
      exact hp w' wf' e
    · rw [List.getElem?_append_right hl] at e
      have : wf' = wf := by
        cases hn : w' - st.wfs.length with
        | zero => rw [hn] at e; simpa using e.symm
        | succ n => rw [hn] at e; simp at e
      subst this
      rw [h0]
      exact ⟨[], by simp [frun], rfl⟩

theorem allMade_start {gi : Nat} {q : QNode} {st : St} (h : startQuery env gi q = .ok st) : AllMade env st := by
  unfold startQuery at h
  split at h
  · simp at h
  simp only [bind_ok_iff] at h
  obtain ⟨q', _, ⟨queue, ts⟩, _, h⟩ := h
  refine StOp.st_processNode allMade_closed (StOp.st_subCall allMade_closed env.levels) h ?_
  intro w wf e
  cases w with
  | succ n => simp at e
  | zero =>
    simp at e
    subst e
    exact ⟨[], by simp [frun], rfl⟩

theorem allMade_loop {choose : Nat → List Nat → List Nat} {inner : Nat} : ∀ (fuel round : Nat) {st st' : St},
    execLoop env choose inner fuel round st = .ok st' → AllMade env st → AllMade env st'
  | 0, _, _, _, h, _ => by simp [execLoop] at h
  | fuel + 1, round, st, st', h, hp => by
    unfold execLoop at h
    split at h
    · cases h; exact hp
    · simp only [bind_ok_iff] at h
      obtain ⟨s1, h1, h⟩ := h
      refine allMade_loop fuel (round + 1) h ?_
      exact StOp.st_progresses allMade_closed (fun _ hp => hp) (fun _ hp => hp) (progress_progresses h1) hp

theorem allMade_between {choose : Nat → List Nat → List Nat} {r r' : Nat} {st st' : St} (hb : Between env choose r st r' st')
    (h : AllMade env st) : AllMade env st' := by
  induction hb with
  | here => exact h
  | next _ hp _ ih => exact ih (StOp.st_progresses allMade_closed (fun _ hp => hp) (fun _ hp => hp) hp h)

/-- what the nested index of a history gives for every proxy -/
theorem Made.reads {idx : Index} (h : Made H idx) : ∃ ops, (∀ x ∈ (nrun H ops {}).1, ∃ v, x = .ok v) ∧
    ∀ n i p key, proxyCell H n i p key (finish (nrun H ops {}).2) =
      (Hiku.proxyCell H idx n i p key, finish (nrun H ops {}).2) := by
  obtain ⟨ops, ho, e⟩ := h
  refine ⟨ops, ?_, ?_⟩
  · rw [c72_outcomes]; exact ho
  · intro n i p key
    rw [← e]
    exact c72_proxy ops n i p key

/-- C72: in every round of every execution, also of one which fails later, the index of each workflow - the query's and those
of the sub-graphs - is one which the nested index gives. -/
theorem c72_rounds {choose : Nat → List Nat → List Nat} {gi round w : Nat} {q : QNode} {st st' : St} {wf : Wf}
    (h : startQuery env gi q = .ok st) (hb : Between env choose 0 st round st') (hw : st'.wfs[w]? = some wf) :
    ∃ ops, (∀ x ∈ (nrun env.H ops {}).1, ∃ v, x = .ok v) ∧
      ∀ n i p key, proxyCell env.H n i p key (finish (nrun env.H ops {}).2) =
        (Hiku.proxyCell env.H wf.index n i p key, finish (nrun env.H ops {}).2) :=
  (allMade_between hb (allMade_start h) w wf hw).reads

/-- C72: the result of every query is one which the nested index gives: a history of stores, none of which fails, makes a
nested index in which every proxy reads what the result has. -/
theorem c72_execute {choose : Nat → List Nat → List Nat} {inner fuel gi : Nat} {q q' : QNode} {idx : Index}
    (h : execute env choose inner fuel gi q = .ok (idx, q')) :
    ∃ ops, (∀ x ∈ (nrun env.H ops {}).1, ∃ v, x = .ok v) ∧
      ∀ n i p key, proxyCell env.H n i p key (finish (nrun env.H ops {}).2) =
        (Hiku.proxyCell env.H idx n i p key, finish (nrun env.H ops {}).2) := by
  unfold execute at h
  simp only [bind_ok_iff] at h
  obtain ⟨st, h1, st', h2, h⟩ := h
  split at h
  · simp at h
  rename_i wf hw
  simp at h
  obtain ⟨rfl, _⟩ := h
  exact (allMade_loop fuel 0 h2 (allMade_start h1) 0 wf hw).reads

/-- the result of the example query, in a nested index -/
example : ∃ idx ops, execute exEnv (fun _ l => l.take 1) 3 6 1 exQuery = .ok (idx, exQuery) ∧
    ∀ n i p key, proxyCell exEnv.H n i p key (finish (nrun exEnv.H ops {}).2) =
      (Hiku.proxyCell exEnv.H idx n i p key, finish (nrun exEnv.H ops {}).2) := by
  obtain ⟨idx, h, _⟩ : ∃ idx, execute exEnv (fun _ l => l.take 1) 3 6 1 exQuery = .ok (idx, exQuery) ∧
      readNode exEnv.H idx rootName rootIdent exQuery = .ok (semQuery exEnv.sys exData 1 exQuery) :=
    c06_result exGood exFaithful exConforms validChoice_first (g := exHigh) rfl rfl exQuery_ok
      (by rw [exCost]; omega) (by rw [exForks]; omega)
  obtain ⟨ops, _, h'⟩ := c72_execute h
  exact ⟨idx, ops, h, h'⟩

end Hiku.NIdx
