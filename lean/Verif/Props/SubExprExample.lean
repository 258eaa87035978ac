import Verif.Props.SubExpr

/-! C55: an example which meets all hypotheses -/

namespace Hiku.SubExpr

open Hiku.Expr

/-! A low-level graph with tracks, genres and the name of the site; the label of a track of the high-level graph is the
expression `[show(S.this.title, S.sep), each(S.g, S.this.genres, if_(S.g.name, show(S.g.name, S.site), None))]` with the
option `sep`. -/

def xTitle : GField := { name := "title", ty := some .string, func := .plain { id := 1 } }
def xName : GField := { name := "name", ty := some .string, func := .plain { id := 1 } }
def xSite : GField := { name := "site", ty := some .string, func := .plain { id := 1 } }
def xGenres : GLink := { name := "genres", typeEnum := .many, node := "Genre", func := { id := 2 }, requires := none }
def xTracks : GLink := { name := "tracks", typeEnum := .many, node := "Track", func := { id := 3 }, requires := none }
def xTrack : GNode := { name := some "Track", fields := [.field xTitle, .link xGenres] }
def xGenre : GNode := { name := some "Genre", fields := [.field xName] }
def xLow : Graph := { items := [xTrack, xGenre, { name := none, fields := [.field xSite] }] }

/-- the types of functions, expr/core.py:131-133, 154-156 -/
def xTypes (n : String) : Ty := if n = "show" then .callable [.string, .string] else .callable [.any, .any, .any]

def xDecl : Decl where
  fns := [("show", .callable [.string, .string]), ("each", .callable [.any, .any, .any]), ("if", .callable [.any, .any, .any])]
  opts := [{ name := "sep", ty := some .string }]
  src := .list [.call "show" [.dot "this" ["title"], .dot "sep" []],
    .call "each" [.dot "g" [], .dot "this" ["genres"],
      .call "if" [.dot "g" ["name"], .call "show" [.dot "g" ["name"], .dot "site" []], .other .none]]]

/-- the functions are those which are found in the expression -/
example : fnTypes xTypes id xDecl.src = xDecl.fns := by rfl

def xReqs : QNode :=
  .mk [.field "site" none none,
    .link "this" (.mk [.field "title" none none, .link "genres" (.mk [.field "name" none none] false) none none] false) none none]
    false

def xLabel : GField := { name := "label", ty := none, func := .checked 0 xReqs 0, options := xDecl.opts }
def xHighTrack : GNode := { name := some "Track", fields := [.field xLabel] }
def xHigh : Graph := { items := [xHighTrack, { name := none, fields := [.link xTracks] }] }

def xHash : PyHash := { atom := fun _ => 0, pairs := fun _ => 0, ints := fun _ => 0 }

def xCompiled : Except Err Compiled := postprocess xHash 100 xLow "Track" xDecl.fns xDecl.opts (toExpr xDecl.src)

theorem xCompiled_reqs : (match xCompiled with | .ok c => some c.reqs | .error _ => none) = some xReqs := by rfl

def xCode : Py :=
  match xCompiled with
  | .ok c => c.code
  | .error _ => .name ""

/-- `show` puts two values together; the bodies of the others are empty, expr/core.py:131-187 -/
def xF : Fns := fun _ n args =>
  if n = "show" then
    match args with
    | [.val a, .val b] => .ok (.val (.tup [a, b]))
    | _ => .error .typeError
  else .ok (.val .none)

/-- strings of the objects: tracks and genres are known by their names -/
def xText (n : String) : Option Val → String
  | some (.str s) => s
  | _ => n

def xRows : List Arg → Except Err Val
  | [.fields fs] => .ok (.list (fs.map fun q => .str (xText q.name none)))
  | [.fields fs, .ids ids] => .ok (.list (ids.map fun i => .list (fs.map fun q => .str (xText q.name (some i)))))
  | _ => .error .typeError

def xWorld : World where
  call := fun _ f args =>
    match f with
    | 1 => xRows args
    | 2 => .ok (.list [.str "rock", .str "jazz"])
    | _ => .ok (.list [.str "A", .str "B"])
  proc := fun _ => Proc.run xF ⟨xLow, xTrack, ["show", "each", "if"], ["sep"], xCode⟩

def xEnv : Env where
  sys := { graphs := [xLow, xHigh], subs := [{ graph := 0, node := "Track" }] }
  world := xWorld
  H := xHash

def xData : Data where
  field := fun _ n _ i => .str (xText n i)
  link := fun f _ _ => if f.id = 2 then .list [.str "rock", .str "jazz"] else .list [.str "A", .str "B"]
  proc := fun _ _ _ _ => .none
  obj := fun _ _ _ => True

def xPairs : List (String × Opts) := [("this", none), ("title", none), ("genres", none), ("name", none), ("site", none),
  ("tracks", none), ("label", some [("sep", .str "-")])]

def xU (n : String) (o : Opts) : Prop := (n, o) ∈ xPairs

def xBase (t : Ty) (v : Val) : Prop := t = .string ∧ ∃ s, v = .str s

theorem xKeys : (xPairs.map fun p => indexKey xHash p.1 p.2).Nodup := by decide

theorem xFaithful : Faithful xEnv.H xData xU := by
  intro n o n' o' hu hu' h
  have := List.inj_on_of_nodup_map xKeys hu hu' h
  cases this
  exact ⟨rfl, fun _ _ _ => rfl, fun _ _ => rfl, fun _ => rfl⟩

theorem xGraphs {gi : Nat} {g : Graph} (hg : xEnv.sys.graphs[gi]? = some g) : gi = 0 ∧ g = xLow ∨ gi = 1 ∧ g = xHigh := by
  match gi, hg with
  | 0, hg => simp [xEnv] at hg; exact .inl ⟨rfl, hg.symm⟩
  | 1, hg => simp [xEnv] at hg; exact .inr ⟨rfl, hg.symm⟩
  | n + 2, hg => simp [xEnv] at hg

/-- the fields and links of the example -/
theorem xItems {gi : Nat} {g : Graph} {gn : GNode} {n : String} {it : GItem}
    (hg : xEnv.sys.graphs[gi]? = some g) (hn : IsNode g gn) (h : gn.get n = some it) :
    (gi = 0 ∧ g = xLow ∧ gn = xLow.root ∧ n = "site" ∧ it = .field xSite) ∨
    (gi = 0 ∧ g = xLow ∧ gn = xTrack ∧ n = "title" ∧ it = .field xTitle) ∨
    (gi = 0 ∧ g = xLow ∧ gn = xTrack ∧ n = "genres" ∧ it = .link xGenres) ∨
    (gi = 0 ∧ g = xLow ∧ gn = xGenre ∧ n = "name" ∧ it = .field xName) ∨
    (gi = 1 ∧ g = xHigh ∧ gn = xHigh.root ∧ n = "tracks" ∧ it = .link xTracks) ∨
    (gi = 1 ∧ g = xHigh ∧ gn = xHighTrack ∧ n = "label" ∧ it = .field xLabel) := by
  have hmem : (n, it) ∈ gn.fieldsMap := dget_mem h
  rcases xGraphs hg with ⟨rfl, rfl⟩ | ⟨rfl, rfl⟩
  · rcases hn with rfl | ⟨t, ht⟩
    · simp [xLow, xTrack, xGenre, Graph.root, GNode.fieldsMap, dmk, dupdate, dset, GItem.name, xSite] at hmem
      obtain ⟨rfl, rfl⟩ := hmem
      simp [xSite]
    · have ht' := dget_mem ht
      have e : gn = xTrack ∨ gn = xGenre := by
        simp [xLow, xTrack, xGenre, Graph.nodesMap, dmk, dupdate, dset] at ht'
        rcases ht' with ⟨_, rfl⟩ | ⟨_, rfl⟩ <;> simp [xTrack, xGenre]
      rcases e with rfl | rfl
      · simp [xTrack, GNode.fieldsMap, dmk, dupdate, dset, GItem.name, xTitle, xGenres] at hmem
        rcases hmem with ⟨rfl, rfl⟩ | ⟨rfl, rfl⟩ <;> simp [xTitle, xGenres]
      · simp [xGenre, GNode.fieldsMap, dmk, dupdate, dset, GItem.name, xName] at hmem
        obtain ⟨rfl, rfl⟩ := hmem
        simp [xName]
  · rcases hn with rfl | ⟨t, ht⟩
    · simp [xHigh, xHighTrack, Graph.root, GNode.fieldsMap, dmk, dupdate, dset, GItem.name, xTracks] at hmem
      obtain ⟨rfl, rfl⟩ := hmem
      simp [xTracks]
    · have ht' := dget_mem ht
      have e : gn = xHighTrack := by
        simp [xHigh, xHighTrack, Graph.nodesMap, dmk, dupdate, dset] at ht'
        obtain ⟨_, rfl⟩ := ht'
        rfl
      subst e
      simp [xHighTrack, GNode.fieldsMap, dmk, dupdate, dset, GItem.name, xLabel] at hmem
      obtain ⟨rfl, rfl⟩ := hmem
      simp [xLabel]

theorem xReqs_ok : ReqsOk xU xLow xTrack xReqs := by
  refine ⟨?_, ?_, ?_⟩
  · simp [xReqs, QNode.Plain, PlainItems, QItem.Plain]
  · exact ⟨_, List.mem_cons_of_mem _ (List.mem_singleton.2 rfl), rfl⟩
  · intro i hi
    simp only [xReqs, QNode.fields, List.mem_cons, List.not_mem_nil, or_false] at hi
    rcases hi with rfl | rfl
    · rw [if_neg (by decide), ItemOk]
      exact ⟨by simp [xU, xPairs], xSite, rfl, by simp [OptsGiven, xSite]⟩
    · rw [if_pos (show QItem.name _ = THIS from rfl)]
      refine ⟨_, rfl, ?_⟩
      rw [NodeOk, ItemsOk, ItemOk, ItemsOk, ItemOk, ItemsOk]
      refine ⟨⟨⟨by simp [xU, xPairs], xTitle, rfl, by simp [OptsGiven, xTitle]⟩,
        ⟨by simp [xU, xPairs], .inl ⟨xGenres, xGenre, rfl, rfl, ?_⟩⟩, trivial⟩, by simp⟩
      rw [NodeOk, ItemsOk, ItemOk, ItemsOk]
      exact ⟨⟨⟨by simp [xU, xPairs], xName, rfl, by simp [OptsGiven, xName]⟩, trivial⟩, by simp⟩

theorem xGood : GoodSys xU xEnv.sys where
  this := by simp [xU, xPairs, THIS]
  nodes := by
    intro gi g hg
    rcases xGraphs hg with ⟨rfl, rfl⟩ | ⟨rfl, rfl⟩ <;> rfl
  links := by
    intro gi g hg gn hn n gl h
    rcases xItems hg hn h with ⟨rfl, rfl, rfl, rfl, h⟩ | ⟨rfl, rfl, rfl, rfl, h⟩ | ⟨rfl, rfl, rfl, rfl, h⟩ |
      ⟨rfl, rfl, rfl, rfl, h⟩ | ⟨rfl, rfl, rfl, rfl, h⟩ | ⟨rfl, rfl, rfl, rfl, h⟩ <;> cases h
    · exact ⟨⟨xGenre, rfl⟩, by simp [xGenres]⟩
    · exact ⟨⟨xHighTrack, rfl⟩, by simp [xTracks]⟩
  subs := by
    intro gi g hg gn hn n gf h sg reqs p hf
    rcases xItems hg hn h with ⟨rfl, rfl, rfl, rfl, h⟩ | ⟨rfl, rfl, rfl, rfl, h⟩ | ⟨rfl, rfl, rfl, rfl, h⟩ |
      ⟨rfl, rfl, rfl, rfl, h⟩ | ⟨rfl, rfl, rfl, rfl, h⟩ | ⟨rfl, rfl, rfl, rfl, h⟩ <;> cases h <;>
      simp [xTitle, xSite, xName, xLabel] at hf
    obtain ⟨rfl, rfl, rfl⟩ := hf
    exact ⟨rfl, { graph := 0, node := "Track" }, xLow, xTrack, rfl, by simp, rfl, rfl, rfl, xReqs_ok⟩

theorem xLoads (sub : Nat → SubSem) : Loads xEnv xData sub xU where
  fieldsRoot := by
    intro n gi g f qfs hg hne h
    obtain ⟨x, hx⟩ := List.exists_mem_of_ne_nil _ hne
    obtain ⟨_, gf, h1, h2⟩ := h x hx
    have hf : f = { id := 1 } := by
      rcases xItems hg (.inl rfl) h1 with ⟨rfl, rfl, _, _, h⟩ | ⟨rfl, rfl, _, _, h⟩ | ⟨rfl, rfl, _, _, h⟩ |
        ⟨rfl, rfl, _, _, h⟩ | ⟨rfl, rfl, _, _, h⟩ | ⟨rfl, rfl, _, _, h⟩ <;> cases h <;>
        simp [xTitle, xSite, xName, xLabel] at h2 <;> exact h2.symm
    subst hf
    exact ⟨_, rfl, rfl⟩
  fieldsNode := by
    intro n gi g nm gn f qfs ids hg hgn hne h _ _
    obtain ⟨x, hx⟩ := List.exists_mem_of_ne_nil _ hne
    obtain ⟨_, gf, h1, h2⟩ := h x hx
    have hf : f = { id := 1 } := by
      rcases xItems hg (.inr ⟨nm, hgn⟩) h1 with ⟨rfl, rfl, _, _, h⟩ | ⟨rfl, rfl, _, _, h⟩ | ⟨rfl, rfl, _, _, h⟩ |
        ⟨rfl, rfl, _, _, h⟩ | ⟨rfl, rfl, _, _, h⟩ | ⟨rfl, rfl, _, _, h⟩ <;> cases h <;>
        simp [xTitle, xSite, xName, xLabel] at h2 <;> exact h2.symm
    subst hf
    refine ⟨_, _, rfl, rfl, ?_⟩
    rw [List.forall₂_map_right_iff, List.forall₂_same]
    intro i _
    rfl
  linkPlain := by
    intro n gi g gn nm gl o hg hn h _ _
    rcases xItems hg hn h with ⟨rfl, rfl, rfl, rfl, h⟩ | ⟨rfl, rfl, rfl, rfl, h⟩ | ⟨rfl, rfl, rfl, rfl, h⟩ |
      ⟨rfl, rfl, rfl, rfl, h⟩ | ⟨rfl, rfl, rfl, rfl, h⟩ | ⟨rfl, rfl, rfl, rfl, h⟩ <;> cases h <;> rfl
  linkRoot := by
    intro n gi g nm gl o r v hg h _ hr _
    rcases xItems hg (.inl rfl) h with ⟨rfl, rfl, _, rfl, h⟩ | ⟨rfl, rfl, _, rfl, h⟩ | ⟨rfl, rfl, _, rfl, h⟩ |
      ⟨rfl, rfl, _, rfl, h⟩ | ⟨rfl, rfl, _, rfl, h⟩ | ⟨rfl, rfl, _, rfl, h⟩ <;> cases h <;> cases hr
  linkNode := by
    intro n gi g nn gn nm gl o r ids vs hg hgn hget _ hr _ _ _
    rcases xItems hg (.inr ⟨nn, hgn⟩) hget with ⟨_, _, _, _, h⟩ | ⟨_, _, _, _, h⟩ | ⟨_, _, _, _, h⟩ | ⟨_, _, _, _, h⟩ |
      ⟨_, _, _, _, h⟩ | ⟨_, _, _, _, h⟩ <;> cases h <;> cases hr
  linkValue := by
    intro gi g gn nm gl o i v hg hn h hu hi hv
    rcases xItems hg hn h with ⟨rfl, rfl, rfl, rfl, h⟩ | ⟨rfl, rfl, rfl, rfl, h⟩ | ⟨rfl, rfl, rfl, rfl, h⟩ |
      ⟨rfl, rfl, rfl, rfl, h⟩ | ⟨rfl, rfl, rfl, rfl, h⟩ | ⟨rfl, rfl, rfl, rfl, h⟩ <;> cases h
    · have : v = .list [.str "rock", .str "jazz"] := hv
      subst this
      exact ⟨⟨_, rfl⟩, by simp [xGenres], fun _ _ => trivial⟩
    · have : v = .list [.str "A", .str "B"] := hv
      subst this
      exact ⟨⟨_, rfl⟩, by simp [xTracks], fun _ _ => trivial⟩
  noRefs := by intros; rfl

theorem xF_parametric : Parametric xF := by
  intro O1 O2 get1 get2 R _ n xs ys h r hr
  simp only [xF] at hr ⊢
  by_cases hn : n = "show"
  · rw [if_pos hn] at hr ⊢
    cases h with
    | nil => cases hr
    | cons h1 h =>
      cases h1 with
      | val a =>
        cases h with
        | nil => cases hr
        | cons h2 h =>
          cases h2 with
          | val b =>
            cases h with
            | nil => cases hr; exact ⟨_, rfl, .val _⟩
            | cons h3 h => cases hr
          | obj _ => cases hr
          | list _ => cases hr
          | dict _ _ => cases hr
          | fn _ => cases hr
          | fns _ => cases hr
      | obj _ => cases hr
      | list _ => cases hr
      | dict _ _ => cases hr
      | fn _ => cases hr
      | fns _ => cases hr
  · rw [if_neg hn] at hr ⊢
    cases hr
    exact ⟨_, rfl, .val _⟩

theorem declared_scalar {D : PyDom (Except Err)} {B : Sem D.V} {t : Ty} (ht : t ∈ [Ty.boolean, .string, .integer, .float])
    {v : D.V} (h : Declared D B t v) : B.base t v := by
  cases h <;> first | assumption | simp at ht

theorem xF_total : Total xF xBase xDecl.fns := by
  intro O get ats f args hb ha
  have hb : (match f with | .fn n => dget xDecl.fns n = some (.callable ats) | _ => False) := by
    cases f <;> exact hb
  cases f with
  | fn n =>
    have hb : dget xDecl.fns n = some (.callable ats) := hb
    have hm := dget_mem hb
    simp only [xDecl, List.mem_cons, List.not_mem_nil, or_false, Prod.mk.injEq, Ty.callable.injEq] at hm
    rcases hm with ⟨rfl, rfl⟩ | ⟨rfl, rfl⟩ | ⟨rfl, rfl⟩
    rotate_left
    · exact ⟨_, rfl⟩
    · exact ⟨_, rfl⟩
    have str : ∀ v : PV O, Declared (pyDom xF get) (exprSem xBase xDecl.fns) .string v → ∃ a, v = .val a := by
      intro v h
      rcases declared_scalar (t := .string) (by simp) h with hbase
      cases v with
      | val a => exact ⟨a, rfl⟩
      | _ => exact hbase.elim
    cases ha with
    | cons h1 ha =>
      cases ha with
      | cons h2 ha =>
        cases ha
        obtain ⟨a, rfl⟩ := str _ h1
        obtain ⟨b, rfl⟩ := str _ h2
        exact ⟨_, rfl⟩
  | val _ => exact hb.elim
  | obj _ => exact hb.elim
  | list _ => exact hb.elim
  | dict _ => exact hb.elim
  | fns _ => exact hb.elim

def xTerm : Term :=
  .list [.call (.var "show" true) [.get (.var "this" false) "title", .var "sep" false],
    .each "g" (.get (.var "this" false) "genres") (.ite (.get (.var "g" false) "name")
      (.call (.var "show" true) [.get (.var "g" false) "name", .var "site" false]) (.const .none))]

theorem xSource : source (xDecl.isFn xLow) xDecl.src = some xTerm := by rfl

theorem xHygienic : Hygienic xDecl.params xTerm where
  clean := clean_of_simple (by
    intro x hx
    have hx : x ∈ ["this", "sep", "g"] := hx
    simp only [List.mem_cons, List.not_mem_nil, or_false] at hx
    rcases hx with rfl | rfl | rfl <;> exact ⟨by decide, by decide⟩)
  distinct := by decide
  globals := by
    intro x hx h1 h2
    have h2 : x ∈ ["g"] := h2
    simp only [List.mem_singleton] at h2
    subst h2
    revert hx
    decide
  fresh := by simp [xTerm, SomeFresh, SomeFreshAll]

theorem xSimple : SimpleTypes xLow xDecl where
  alias_ := by
    intro n t h m
    have := dget_mem h
    have : (n, t) ∈ [("Track", _), ("Genre", _), ("__root__", _)] := this
    simp only [List.mem_cons, List.not_mem_nil, or_false, Prod.mk.injEq] at this
    rcases this with ⟨_, rfl⟩ | ⟨_, rfl⟩ | ⟨_, rfl⟩ <;> exact fun e => by cases e
  noFn := by
    intro n t h
    have := dget_mem h
    have : (n, t) ∈ [("Track", _), ("Genre", _), ("__root__", _)] := this
    simp only [List.mem_cons, List.not_mem_nil, or_false, Prod.mk.injEq] at this
    rcases this with ⟨_, rfl⟩ | ⟨_, rfl⟩ | ⟨_, rfl⟩ <;> rfl
  fns := by
    intro x t h
    have := dget_mem h
    simp only [xDecl, List.mem_cons, List.not_mem_nil, or_false, Prod.mk.injEq] at this
    rcases this with ⟨_, rfl⟩ | ⟨_, rfl⟩ | ⟨_, rfl⟩ <;> exact ⟨_, rfl, by simp [NoFn]⟩
  opts := by simp [xDecl, NoFn]

theorem xField : ExprField xEnv xF xBase 0 xLow "Track" xTrack xDecl xLabel xReqs 0 where
  options := rfl
  made := ⟨100, _, rfl, rfl, rfl⟩
  simple := xSimple
  total := xF_total
  source := ⟨xTerm, xSource, xHygienic⟩

/-- the value of the expression -/
theorem xMeaning (sub : SubSem) (i : Val) (sep : Val) : meaning xF xData sub xLow xTrack xDecl i [sep] =
    .ok (.list [.val (.tup [.str (xText "title" (some i)), sep]),
      .list [.val (.tup [.str "rock", .str "site"]), .val (.tup [.str "jazz", .str "site"])]]) := by rfl

theorem xFields : ExprFields xEnv xData xF (fun _ => xDecl) xBase xU where
  parametric := xF_parametric
  typed := by
    intro gi g hg hs gn n gf i hn hu hget ho hi
    have str : ∀ s, OfType g.types xBase .string (.str s) := fun s => .scalar _ _ (by simp) ⟨rfl, _, rfl⟩
    rcases xItems hg hn hget with ⟨rfl, rfl, rfl, rfl, h⟩ | ⟨rfl, rfl, rfl, rfl, h⟩ | ⟨rfl, rfl, rfl, rfl, h⟩ |
      ⟨rfl, rfl, rfl, rfl, h⟩ | ⟨rfl, rfl, rfl, rfl, h⟩ | ⟨rfl, rfl, rfl, rfl, h⟩ <;> cases h
    · exact str _
    · exact str _
    · exact str _
    · exact .any _
  obj := by intros; trivial
  fields := by
    intro gi g nn gn n gf sg reqs p s g' t hg hgn hget hf hs hg' ht
    rcases xItems hg (.inr ⟨nn, hgn⟩) hget with ⟨rfl, rfl, rfl, rfl, h⟩ | ⟨rfl, rfl, rfl, rfl, h⟩ | ⟨rfl, rfl, rfl, rfl, h⟩ |
      ⟨rfl, rfl, rfl, rfl, h⟩ | ⟨rfl, rfl, rfl, rfl, h⟩ | ⟨rfl, rfl, rfl, rfl, h⟩ <;> cases h <;>
      simp [xTitle, xSite, xName, xLabel] at hf
    obtain ⟨rfl, rfl, rfl⟩ := hf
    have hs : some _ = some _ := hs
    cases hs
    have hg' : some _ = some _ := hg'
    cases hg'
    have ht : some _ = some _ := ht
    cases ht
    exact xField
  options := by
    intro gi g nn gn n o gf sg reqs p s g' hg hgn hget hf hu ho hs hg'
    rcases xItems hg (.inr ⟨nn, hgn⟩) hget with ⟨rfl, rfl, rfl, rfl, h⟩ | ⟨rfl, rfl, rfl, rfl, h⟩ | ⟨rfl, rfl, rfl, rfl, h⟩ |
      ⟨rfl, rfl, rfl, rfl, h⟩ | ⟨rfl, rfl, rfl, rfl, h⟩ | ⟨rfl, rfl, rfl, rfl, h⟩ <;> cases h <;>
      simp [xTitle, xSite, xName, xLabel] at hf
    simp only [xU, xPairs, List.mem_cons, Prod.mk.injEq, List.not_mem_nil, or_false] at hu
    have ho' : o = some [("sep", .str "-")] := by
      simpa using hu
    subst ho'
    exact .cons (.scalar _ _ (by simp) ⟨rfl, _, rfl⟩) .nil
  values := by
    intro gi g nn gn n o gf sg reqs p s g' t i w hg hgn hget hf hu ho hs hi hg' ht hw
    rcases xItems hg (.inr ⟨nn, hgn⟩) hget with ⟨rfl, rfl, rfl, rfl, h⟩ | ⟨rfl, rfl, rfl, rfl, h⟩ | ⟨rfl, rfl, rfl, rfl, h⟩ |
      ⟨rfl, rfl, rfl, rfl, h⟩ | ⟨rfl, rfl, rfl, rfl, h⟩ | ⟨rfl, rfl, rfl, rfl, h⟩ <;> cases h <;>
      simp [xTitle, xSite, xName, xLabel] at hf
    obtain ⟨rfl, rfl, rfl⟩ := hf
    have hs : some _ = some _ := hs
    cases hs
    have hg' : some _ = some _ := hg'
    cases hg'
    have ht : some _ = some _ := ht
    cases ht
    have hw' := (xMeaning (exprSub xF (fun _ => xDecl) xEnv.sys xData 0) i _).symm.trans hw
    cases hw'
    exact ⟨_, rfl, rfl⟩

def xQuery : QNode := .mk [.link "tracks" (.mk [.field "label" (some [("sep", .str "-")]) none] false) none none] false

theorem xQuery_ok : NodeOk xU xHigh xHigh.root xQuery := by
  rw [xQuery, NodeOk, ItemsOk, ItemOk, ItemsOk]
  refine ⟨⟨⟨by simp [xU, xPairs], .inl ⟨xTracks, xHighTrack, rfl, rfl, ?_⟩⟩, trivial⟩, by simp⟩
  rw [NodeOk, ItemsOk, ItemOk, ItemsOk]
  refine ⟨⟨⟨by simp [xU, xPairs], xLabel, rfl, ?_⟩, trivial⟩, by simp⟩
  intro op hop
  simp only [xLabel, xDecl, List.mem_singleton] at hop
  subst hop
  exact ⟨_, _, rfl, rfl⟩

/-- all hypotheses of `c55_result` hold for the example: a field with an option, computed from a field and a link of the
object and from a field of the root -/
example : ∃ idx, execute xEnv (fun _ l => l.take 1) (2 + costQuery xEnv.sys 0 1 1 xQuery) (costQuery xEnv.sys 1 0 1 xQuery + 1) 1 xQuery =
      .ok (idx, xQuery) ∧
    readNode xEnv.H idx rootName rootIdent xQuery =
      .ok (semNode xData (exprSub xF (fun _ => xDecl) xEnv.sys xData 1) xHigh xHigh.root rootIdent xQuery) :=
  c55_result xGood xFaithful (xLoads _) xFields validChoice_first (g := xHigh) rfl rfl xQuery_ok (by omega) (by omega)

/-- and this is the value -/
example : semNode xData (exprSub xF (fun _ => xDecl) xEnv.sys xData 1) xHigh xHigh.root rootIdent xQuery =
    .dict [(.str "tracks", .list [
      .dict [(.str "label", .list [.tup [.str "A", .str "-"],
        .list [.tup [.str "rock", .str "site"], .tup [.str "jazz", .str "site"]]])],
      .dict [(.str "label", .list [.tup [.str "B", .str "-"],
        .list [.tup [.str "rock", .str "site"], .tup [.str "jazz", .str "site"]]])]])] := by
  have h : ∀ i, exprSub xF (fun _ => xDecl) xEnv.sys xData 1 0 xReqs 0 [.str "-"] i =
      .list [.tup [.str (xText "title" (some i)), .str "-"],
        .list [.tup [.str "rock", .str "site"], .tup [.str "jazz", .str "site"]]] := by
    intro i
    rw [exprSub]
    rfl
  have e : semNode xData (exprSub xF (fun _ => xDecl) xEnv.sys xData 1) xHigh xHigh.root rootIdent xQuery =
    .dict [(.str "tracks", .list [
      .dict [(.str "label", exprSub xF (fun _ => xDecl) xEnv.sys xData 1 0 xReqs 0 [.str "-"] (.str "A"))],
      .dict [(.str "label", exprSub xF (fun _ => xDecl) xEnv.sys xData 1 0 xReqs 0 [.str "-"] (.str "B"))]])] := by rfl
  rw [e, h, h]
  rfl

end Hiku.SubExpr
