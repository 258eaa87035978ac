import Verif.Props.ExprPaths
import Verif.Props.SubExprExample

/-! C57 and C58: calls of annotated functions, and examples -/

namespace Hiku.Expr

theorem Means.free_iff {t : Ty} (h : Means .none t) : t = .any := by
  cases h with
  | free => rfl
  | query _ _ _ h => simp [Annotation] at h

theorem Means.tyWants {v : Val} {t : Ty} (h : Means v t) (hv : v ≠ .none) : HasRecord t = true ∧ ∀ p, TyWants t p ↔ Wants v p := by
  cases h with
  | free => exact absurd rfl hv
  | query _ _ q _ h1 _ h2 =>
    refine ⟨by rw [hasRecord_iff, h1]; rfl, fun p => ?_⟩
    rw [← asksFor_tyWants _ t (Nat.le_refl _) q h1 p, h2]

theorem mem_zip_forall2 {α β γ : Type} {R : β → γ → Prop} : ∀ {as : List α} {bs : List β} {cs : List γ}, List.Forall₂ R bs cs →
    ∀ {a : α} {c : γ}, (a, c) ∈ as.zip cs → ∃ b, (a, b) ∈ as.zip bs ∧ R b c
  | [], _, _, _, _, _, h => by simp at h
  | x :: as, _, _, .nil, _, _, h => by simp at h
  | x :: as, _, _, .cons h1 h2, a, c, h => by
    simp only [List.zip_cons_cons, List.mem_cons, Prod.mk.injEq] at h
    rcases h with ⟨rfl, rfl⟩ | h
    · exact ⟨_, by simp, h1⟩
    · obtain ⟨b, h3, h4⟩ := mem_zip_forall2 (as := as) h2 h
      exact ⟨b, by simp [h3], h4⟩

theorem forall2_flip {β γ : Type} {R : β → γ → Prop} {bs : List β} {cs : List γ} (h : List.Forall₂ R bs cs) :
    List.Forall₂ (fun c b => R b c) cs bs := by
  induction h with
  | nil => exact .nil
  | cons h _ ih => exact .cons h ih

/-- C57.  The requirements of a call of an annotated function: for an argument annotated by `nil`, what the argument uses;
for an object, everything on the way to it, and below it exactly the paths of the annotation. -/
theorem c57_call (H : PyHash) (types vars : List (String × Ty)) (lim : Nat) (e e' : Ex) (q : QNode) (t : Term)
    (hA : NoAlias types) (hT : NoFnTypes types)
    (hv : ∀ x t, dget vars x = some t → NoFn t = true ∨ ∃ ats, t = .callable ats)
    (hraw : Raw e = true) (hcheck : check types lim (rootEnv vars) e = .ok e') (hreq : extract H types e' = .ok q)
    (hp : parse e' = some t)
    (f : String) (args : List Term) (hcall : asCall t = some (f, args)) (vs : List Val) (ats : List Ty)
    (hf : dget vars f = some (.callable ats)) (hmeans : List.Forall₂ Means vs ats) (p : List String) :
    AsksFor q p ↔ ∃ a v, (a, v) ∈ args.zip vs ∧
      ((v = .none ∧ Uses vars (vars.map fun v => (v.1, [v.1])) a p) ∨
       (v ≠ .none ∧ ∃ path, place (vars.map fun v => (v.1, [v.1])) a = some path ∧
          ((p ≠ [] ∧ p <+: path) ∨ ∃ p', p = path ++ p' ∧ Wants v p'))) := by
  rw [c58_exact H types vars lim e e' q t hA hT hv hraw hcheck hreq hp p]
  rw [uses_call hcall (g := f) (ats := ats) (by
    rw [show (fun v : String × Ty => (v.1, [v.1])) = fun v => (v.1, [v.1]) from rfl]
    have := dget_scope (rootEnv vars) f
    rw [show scope (rootEnv vars) = vars.map fun v => (v.1, [v.1]) by simp [scope, rootEnv, Ref.path], dget_rootEnv, hf] at this
    exact this) hf]
  constructor
  · rintro ⟨a, ty, hm, h⟩
    obtain ⟨v, hm', hmv⟩ := mem_zip_forall2 hmeans hm
    refine ⟨a, v, hm', ?_⟩
    by_cases hn : v = .none
    · subst hn
      have := hmv.free_iff
      subst this
      rcases h with ⟨_, h⟩ | ⟨h, _⟩ | ⟨_, _, _, _, h⟩
      · exact .inl ⟨rfl, h⟩
      · cases h
      · cases h
    · obtain ⟨h1, h2⟩ := hmv.tyWants hn
      rcases h with ⟨h, _⟩ | ⟨_, path, h, h', h''⟩ | ⟨path, p', h, rfl, h'⟩
      · rw [h1] at h; cases h
      · exact .inr ⟨hn, path, h, .inl ⟨h', h''⟩⟩
      · exact .inr ⟨hn, path, h, .inr ⟨p', rfl, (h2 p').1 h'⟩⟩
  · rintro ⟨a, v, hm, h⟩
    obtain ⟨ty, hm', hmv⟩ := mem_zip_forall2 (forall2_flip hmeans) hm
    refine ⟨a, ty, hm', ?_⟩
    rcases h with ⟨rfl, h⟩ | ⟨hn, path, h, ⟨h1, h2⟩ | ⟨p', rfl, h1⟩⟩
    · have := hmv.free_iff
      subst this
      exact .inl ⟨rfl, h⟩
    · exact .inr (.inl ⟨(hmv.tyWants hn).1, path, h, h1, h2⟩)
    · exact .inr (.inr ⟨path, p', h, rfl, ((hmv.tyWants hn).2 p').2 h1⟩)

/-! ### An example -/

/-- a function of an article and of something else -/
def dText : List Char := "[[:id {:author [:name]} {:author [:age] :site []} :author] nil]".toList

def dValues : List Val :=
  [.elist [.kw "id", .edict [(.kw "author", .elist [.kw "name"])],
    .edict [(.kw "author", .elist [.kw "age"]), (.kw "site", .elist [])], .kw "author"], .none]

theorem dLoads : loads exPyText noTags dText = .ok (.seq .elist dValues) := by decide +kernel

theorem dAnnotation : ∀ v ∈ dValues, v = .none ∨ Annotation v := by
  intro v hv
  simp only [dValues, List.mem_cons, List.not_mem_nil, or_false] at hv
  rcases hv with rfl | rfl
  · right; simp [Annotation, AnnotationItems, AnnotationLinks]
  · exact .inl rfl

def dArgs : List Ty :=
  [.record [("id", .any), ("author", .record [("name", .any), ("age", .any)]), ("site", .record [])], .any]

theorem dDefine (H : PyHash) : defineTypes exPyText noTags H dText = .ok (.callable dArgs) := by
  simp only [defineTypes, dLoads, ok_bind', iterValue]
  rfl

/-- the annotation means what is written -/
theorem dMeans : List.Forall₂ Means dValues dArgs := by
  obtain ⟨ats, h1, h2⟩ := c57_define exPyText noTags SubExpr.xHash dText dValues dLoads dAnnotation
  rw [dDefine] at h1
  cases h1
  exact h2

def dTypes : List (String × Ty) :=
  [("Article", .record [("id", .integer), ("author", .ref "Author"), ("site", .ref "Site"), ("title", .string)]),
   ("Author", .record [("name", .string), ("age", .integer), ("articles", .sequence (.ref "Article"))]),
   ("Site", .record [("url", .string)])]

def dVars : List (String × Ty) := [("show", .callable dArgs), ("this", .ref "Article"), ("now", .integer)]

/-- `show(S.this, S.this.title)` -/
def dExpr : Ex :=
  .tup [.sym "show" none, .sym "this" none, .tup [.sym "get" none, .sym "this" none, .sym "title" none] none] none

def dTerm : Term := .call (.var "show" true) [.var "this" false, .get (.var "this" false) "title"]

def dRequirements : Except Err QNode := do
  let e' ← check dTypes 100 (rootEnv dVars) dExpr
  extract SubExpr.xHash dTypes e'

theorem dRequirements_eq : dRequirements = .ok (.mk [.link "this" (.mk [.field "id" none none, .field "title" none none,
    .link "author" (.mk [.field "name" none none, .field "age" none none] false) none none,
    .link "site" (.mk [] false) none none] false) none none] false) := by rfl

theorem dNoAlias : NoAlias dTypes := by
  intro n t h m
  have := dget_mem h
  simp only [dTypes, List.mem_cons, Prod.mk.injEq, List.not_mem_nil, or_false] at this
  rcases this with ⟨_, rfl⟩ | ⟨_, rfl⟩ | ⟨_, rfl⟩ <;> simp

theorem dNoFn : NoFnTypes dTypes := by
  intro n t h
  have := dget_mem h
  simp only [dTypes, List.mem_cons, Prod.mk.injEq, List.not_mem_nil, or_false] at this
  rcases this with ⟨_, rfl⟩ | ⟨_, rfl⟩ | ⟨_, rfl⟩ <;> rfl

/-- all hypotheses of `c57_call` (and of `c58_exact`) hold of the example -/
theorem dCall : ∃ q, dRequirements = .ok q ∧ ∀ p, AsksFor q p ↔ ∃ a v, (a, v) ∈ [Term.var "this" false, .get (.var "this" false) "title"].zip dValues ∧
      ((v = .none ∧ Uses dVars (dVars.map fun v => (v.1, [v.1])) a p) ∨
       (v ≠ .none ∧ ∃ path, place (dVars.map fun v => (v.1, [v.1])) a = some path ∧
          ((p ≠ [] ∧ p <+: path) ∨ ∃ p', p = path ++ p' ∧ Wants v p'))) := by
  refine ⟨_, dRequirements_eq, fun p => ?_⟩
  obtain ⟨e', h1, h2⟩ := bind_ok_iff.1 dRequirements_eq
  refine c57_call SubExpr.xHash dTypes dVars 100 dExpr e' _ dTerm dNoAlias dNoFn ?_ rfl h1 h2 ?_ "show" _ rfl dValues dArgs rfl dMeans p
  · intro x t h
    have := dget_mem h
    simp only [dVars, List.mem_cons, Prod.mk.injEq, List.not_mem_nil, or_false] at this
    rcases this with ⟨_, rfl⟩ | ⟨_, rfl⟩ | ⟨_, rfl⟩
    · exact .inr ⟨_, rfl⟩
    · exact .inl rfl
    · exact .inl rfl
  · have h3 : check dTypes 100 (rootEnv dVars) dExpr = .ok (.tup [.sym "show" (some (.root "show" (.callable dArgs))),
        .sym "this" (some (.root "this" (.ref "Article"))),
        .tup [.sym "get" none, .sym "this" (some (.root "this" (.ref "Article"))), .sym "title" none]
          (some (.named (.root "this" (.ref "Article")) "title" .string))] none) := by rfl
    rw [h3] at h1
    cases h1
    rfl

/-! ### What annotations cannot say -/

/-- Options are not looked at: `[[(:a {:x true})]]` means the same as `[[:a]]`. -/
theorem c57_options (H : PyHash) : defineTypes exPyText noTags H "[[(:a {:x true})]]".toList = defineTypes exPyText noTags H "[[:a]]".toList ∧
    defineTypes exPyText noTags H "[[:a]]".toList = .ok (.callable [.record [("a", .any)]]) := by
  have h1 : loads exPyText noTags "[[(:a {:x true})]]".toList = .ok (.elist [.elist [.etup [.kw "a", .edict [(.kw "x", .bool true)]]]]) := by
    decide +kernel
  have h2 : loads exPyText noTags "[[:a]]".toList = .ok (.elist [.elist [.kw "a"]]) := by decide +kernel
  simp only [defineTypes, h1, h2, ok_bind']
  exact ⟨rfl, rfl⟩

/-- a hash which tells `true` from `nil` -/
def dHash : PyHash where
  atom v := match v with
    | .bool true => 1
    | _ => 0
  pairs l := (l.map fun p => p.1 + 2 * p.2).sum
  ints l := l.sum

/-- Of two links with different options only the last one is kept: `:p` is not required. -/
theorem c57_options_lost : defineTypes exPyText noTags dHash "[[{(:a {:x true}) [:p]} {(:a {:x nil}) [:q]}]]".toList =
    .ok (.callable [.record [("a", .record [("q", .any)])]]) := by
  have h1 : loads exPyText noTags "[[{(:a {:x true}) [:p]} {(:a {:x nil}) [:q]}]]".toList =
      .ok (.elist [.elist [.edict [(.etup [.kw "a", .edict [(.kw "x", .bool true)]], .elist [.kw "p"])],
        .edict [(.etup [.kw "a", .edict [(.kw "x", .none)]], .elist [.kw "q"])]]]) := by
    decide +kernel
  simp only [defineTypes, h1, ok_bind']
  rfl

/-- Links to many objects cannot be used: `[[{:articles [:id]}]]` does not accept authors, although they have articles, and
articles have `id`. -/
theorem c57_many : defineTypes exPyText noTags SubExpr.xHash "[[{:articles [:id]}]]".toList =
      .ok (.callable [.record [("articles", .record [("id", .any)])]]) ∧
    ∀ lim, checkType dTypes lim (.ref "Author") (.record [("articles", .record [("id", .any)])]) ≠ .ok () := by
  constructor
  · have h1 : loads exPyText noTags "[[{:articles [:id]}]]".toList =
        .ok (.elist [.elist [.edict [(.kw "articles", .elist [.kw "id"])]]]) := by decide +kernel
    simp only [defineTypes, h1, ok_bind']
    rfl
  · intro lim h
    cases lim with
    | zero => cases h
    | succ lim =>
      obtain ⟨fs, h1, h2⟩ := (checkType_record dNoAlias).1 h
      obtain ⟨t, t', h3, h4, h5⟩ := h2 _ (List.mem_singleton.2 rfl)
      rw [← resolves_iff] at h1
      cases h1
      simp only [dget] at h3
      cases h3
      rw [← resolves_iff] at h4
      cases h4
      cases lim with
      | zero => cases h5
      | succ lim =>
        obtain ⟨fs, h6, _⟩ := (checkType_record dNoAlias).1 h5
        cases h6

end Hiku.Expr

namespace Hiku.SubExpr

open Hiku.Expr

/-- all hypotheses of `c58_field` hold of the example of C55; its requirements are written out in `xCompiled_reqs` -/
theorem xPaths : ∃ c rt, xCompiled = .ok c ∧ c.reqs = xReqs ∧ ∀ p, AsksFor c.reqs p ↔
    Uses (exprVars rt xDecl.fns "Track" xDecl.opts) ((exprVars rt xDecl.fns "Track" xDecl.opts).map fun v => (v.1, [v.1])) xTerm p ∧
      ∀ x ∈ p.head?, x ∉ xDecl.params := by
  obtain ⟨c, hc⟩ : ∃ c, xCompiled = .ok c := by
    have := xCompiled_reqs
    cases h : xCompiled with
    | ok c => exact ⟨c, rfl⟩
    | error e => rw [h] at this; cases this
  have hr : c.reqs = xReqs := by
    have := xCompiled_reqs
    rw [hc] at this
    exact Option.some.inj this
  exact ⟨c, _, hc, hr, fun p => c58_field xHash 100 xLow "Track" xDecl _ c xTerm rfl hc xSimple xSource (by decide) p⟩

end Hiku.SubExpr
