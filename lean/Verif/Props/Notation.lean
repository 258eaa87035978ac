import Verif.Props.SubExpr
import Verif.Props.SubExprExample
import Mathlib.Data.List.Induction

/-! # C55: which expression is written by `S.x.f.g` -/

namespace Hiku.SubExpr

open Hiku.Expr

theorem dotExpr_snoc (x f : String) (path : List String) :
    dotExpr x (path ++ [f]).reverse = .tup [.sym "get" none, dotExpr x path.reverse, .sym f none] none := by
  simp [dotExpr]

theorem attrs_plain (x : String) (path : List String) (h : "obj" ∉ path) :
    path.foldlM SObj.attr (.handler (.sym x none)) = .ok (.handler (dotExpr x path.reverse)) := by
  induction path using List.reverseRecOn with
  | nil => rfl
  | append_singleton p f ih =>
    simp only [List.mem_append, List.mem_singleton, not_or] at h
    rw [List.foldlM_append, ih h.1, dotExpr_snoc]
    simp only [ok_bind', List.foldlM_cons, List.foldlM_nil, SObj.attr]
    rw [if_neg (fun e => h.2 e.symm)]
    rfl

theorem first_split {α : Type} [DecidableEq α] {a : α} : ∀ {l : List α}, a ∈ l → ∃ p r, l = p ++ a :: r ∧ a ∉ p
  | b :: l, h => by
    by_cases e : b = a
    · exact ⟨[], l, by simp [e], by simp⟩
    · obtain ⟨p, r, h1, h2⟩ := first_split (l := l) (a := a) (by
        rcases List.mem_cons.1 h with h | h
        · exact absurd h.symm e
        · exact h)
      exact ⟨b :: p, r, by simp [h1], by simp [h2, Ne.symm e]⟩

/-- C55: `S.x.f.g` is the field `g` of the field `f` of `x`, unless one of the fields is called `obj`: then `S.x.f.obj` is
`S.x.f`, without an error, and nothing can be read from it. -/
theorem c55_written (x : String) (path : List String) (e : Ex) : written x path = .ok e ↔
    ("obj" ∉ path ∧ e = toExpr (.dot x path)) ∨ ∃ p, path = p ++ ["obj"] ∧ "obj" ∉ p ∧ e = toExpr (.dot x p) := by
  by_cases h : "obj" ∈ path
  · obtain ⟨p, r, rfl, hp⟩ := first_split h
    unfold written
    rw [List.foldlM_append, attrs_plain x p hp]
    simp only [ok_bind', List.foldlM_cons, SObj.attr, if_pos]
    cases r with
    | nil =>
      simp only [List.foldlM_nil, toExpr]
      constructor
      · intro h1; cases h1; exact .inr ⟨p, rfl, hp, rfl⟩
      · rintro (⟨h1, _⟩ | ⟨p', h1, _, rfl⟩)
        · exact absurd h h1
        · have := (List.append_left_inj ["obj"]).1 h1
          subst this; rfl
    | cons f r =>
      simp only [List.foldlM_cons, SObj.attr, error_bind']
      constructor
      · intro h1; cases h1
      · rintro (⟨h1, _⟩ | ⟨p', h1, h2, _⟩)
        · exact absurd h h1
        · exfalso
          have h3 : (p ++ "obj" :: f :: r).dropLast = p' := by rw [h1]; simp
          apply h2
          rw [← h3]
          simp [List.dropLast_append_of_ne_nil]
  · unfold written
    rw [attrs_plain x path h]
    simp only [ok_bind', toExpr, SObj.expr]
    constructor
    · intro h1; cases h1; exact .inl ⟨h, rfl⟩
    · rintro (⟨_, rfl⟩ | ⟨p', rfl, _⟩)
      · rfl
      · simp at h

/-- a field which is taken from the sub-graph as it is, sources/graph.py:101-102: `getattr(S.this, field.name)` -/
theorem c55_field (f : String) (h : f ≠ "obj") : written THIS [f] = .ok (toExpr (.dot THIS [f])) :=
  (c55_written _ _ _).2 (.inl ⟨by simpa using h.symm, rfl⟩)

def oTrack : GNode := { name := some "Track", fields := [.field { name := "obj", ty := some .string, func := .plain { id := 1 } }] }
def oLow : Graph := { items := [oTrack] }

/-- C55 does not hold of fields with the name `obj`: such a field of the sub-graph is accepted, but it is not requested, and what is
computed is the object itself. -/
theorem c55_obj : ∃ e c, written THIS ["obj"] = .ok e ∧ postprocess xHash 100 oLow "Track" [] [] e = .ok c ∧
    c.reqs = .mk [.link THIS (.mk [] false) none none] false ∧ c.code = .name THIS :=
  ⟨_, _, rfl, rfl, rfl, rfl⟩

end Hiku.SubExpr
