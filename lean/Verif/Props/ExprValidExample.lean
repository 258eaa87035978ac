import Verif.Props.ExprValid
import Verif.Props.SubExprExample

/-! C56: an example which meets all hypotheses, and what the hypotheses are for -/

namespace Hiku.SubExpr

open Hiku.Expr

/-! ### The field of the example of C55 -/

theorem xLow_item {gn : GNode} {n : String} {it : GItem} (hn : IsNode xLow gn) (h : gn.get n = some it) :
    (n, it) ∈ [("site", GItem.field xSite), ("title", .field xTitle), ("genres", .link xGenres), ("name", .field xName)] := by
  rcases xItems (gi := 0) (g := xLow) rfl hn h with ⟨_, _, rfl, rfl, rfl⟩ | ⟨_, _, rfl, rfl, rfl⟩ | ⟨_, _, rfl, rfl, rfl⟩ |
      ⟨_, _, rfl, rfl, rfl⟩ | ⟨h, _⟩ | ⟨h, _⟩
  · simp
  · simp
  · simp
  · simp
  · cases h
  · cases h

theorem xLow_leads : LinksLead xLow := by
  intro gn hn n gl h
  have := xLow_item hn h
  simp at this
  rw [this.2]
  exact ⟨xGenre, rfl⟩

theorem xLow_noOptions : NoOptions xLow := by
  intro gn hn n gf h
  have := xLow_item hn h
  simp at this
  rcases this with ⟨_, rfl⟩ | ⟨_, rfl⟩ | ⟨_, rfl⟩ <;> rfl

theorem xLow_named : Named xU xLow := by
  intro gn hn n h
  obtain ⟨it, h⟩ := Option.isSome_iff_exists.1 h
  have := xLow_item hn h
  simp at this
  rcases this with ⟨rfl, _⟩ | ⟨rfl, _⟩ | ⟨rfl, _⟩ | ⟨rfl, _⟩ <;> simp [xU, xPairs]

/-- all hypotheses of `c56_requirements_valid` hold of the example: its requirements are a valid query, and they ask for
`this` and for `site`, but not for the option `sep`, the function `show` or the variable `g` -/
theorem xReqs_valid : ∃ c, xCompiled = .ok c ∧ c.reqs = xReqs ∧ ReqsOk xU xLow xTrack c.reqs ∧
    ∀ y, (∃ i ∈ c.reqs.fields, i.name = y) ↔ y = "this" ∨ y = "site" := by
  obtain ⟨c, hc⟩ : ∃ c, xCompiled = .ok c := by
    have := xCompiled_reqs
    cases h : xCompiled with
    | ok c => exact ⟨c, rfl⟩
    | error e => rw [h] at this; cases this
  have hr : c.reqs = xReqs := by
    have := xCompiled_reqs
    rw [hc] at this
    exact Option.some.inj this
  obtain ⟨h1, h2⟩ := c56_requirements_valid (U := xU) xHash 100 "Track" xTrack xDecl c xTerm hc rfl rfl xLow_leads xLow_noOptions
    xLow_named xSimple (by
      intro f ats h
      have := dget_mem h
      simp only [xDecl, List.mem_cons, List.not_mem_nil, or_false, Prod.mk.injEq, Ty.callable.injEq] at this
      rcases this with ⟨rfl, rfl⟩ | ⟨rfl, rfl⟩ | ⟨rfl, rfl⟩ <;> simp [ArgTy]) xSource (by decide) (by decide) (by decide)
  refine ⟨c, hc, hr, h1, fun y => ?_⟩
  rw [h2]
  have : reads xTerm = ["this", "sep", "this", "site"] := by rfl
  rw [this]
  simp only [xDecl, Decl.params, List.map, List.mem_cons, List.not_mem_nil, or_false]
  constructor
  · rintro ⟨h | h | h | h, h'⟩
    · exact .inl h
    · exact absurd h h'
    · exact .inl h
    · exact .inr h
  · rintro (rfl | rfl) <;> simp

/-! ### Without the hypotheses -/

/-- the requirements of an expression over the tracks of the example -/
def xReqsOf (fns : List (String × Ty)) (s : Src) : Option QNode :=
  match postprocess xHash 100 xLow "Track" fns [] (toExpr s) with
  | .ok c => some c.reqs
  | .error _ => none

/-- An argument which is a record with a field of the type `Any`: when it is a link, the expression is accepted, but the link
is requested as a field, which is not a valid query. -/
theorem c56_any_field : ∃ q, xReqsOf [("f", .callable [.record [("genres", .any)]])] (.call "f" [.dot "this" []]) = some q ∧
    q = .mk [.link "this" (.mk [.field "genres" none none] false) none none] false ∧
    ∀ U, ¬ ReqsOk U xLow xTrack q := by
  refine ⟨_, rfl, rfl, fun U h => ?_⟩
  have := h.2.2 _ (List.mem_singleton.2 rfl)
  rw [if_pos (show QItem.name _ = THIS from rfl)] at this
  obtain ⟨q, hq, hn⟩ := this
  cases hq
  have := (nodeOk_iff.1 hn).1 _ (List.mem_singleton.2 rfl)
  simp only [ItemOk] at this
  obtain ⟨_, gf, h1, _⟩ := this
  have h2 : xTrack.get "genres" = some (.link xGenres) := rfl
  rw [h2] at h1
  cases h1

/-- A function passed as an argument is requested from the root as a field, which the root does not have. -/
theorem c56_function_argument : ∃ q, xReqsOf [("f", .callable [.string, .any]), ("h", .callable [.string])]
      (.call "f" [.dot "this" ["title"], .dot "h" []]) = some q ∧
    (∃ i ∈ q.fields, i.name = "h") ∧ xLow.root.get "h" = none ∧ ∀ U, ¬ ReqsOk U xLow xTrack q := by
  refine ⟨.mk [.field "h" none none, .link "this" (.mk [.field "title" none none] false) none none] false, rfl,
    ⟨_, List.mem_cons_self, rfl⟩, rfl, fun U h => ?_⟩
  have := h.2.2 _ List.mem_cons_self
  rw [if_neg (by decide)] at this
  simp only [ItemOk] at this
  obtain ⟨_, gf, h1, _⟩ := this
  cases h1

/-- An expression which does not read `this` does not ask for it -/
theorem c56_no_this : ∃ q, xReqsOf [] (.dot "site" []) = some q ∧ (∀ i ∈ q.fields, i.name ≠ THIS) ∧
    ∀ U, ¬ ReqsOk U xLow xTrack q := by
  refine ⟨.mk [.field "site" none none] false, rfl, ?_, ?_⟩
  · intro i hi
    simp only [QNode.fields, List.mem_singleton] at hi
    subst hi
    decide
  · rintro U ⟨_, ⟨i, hi, h⟩, _⟩
    simp only [QNode.fields, List.mem_singleton] at hi
    subst hi
    revert h
    decide

end Hiku.SubExpr
