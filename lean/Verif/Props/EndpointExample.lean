import Verif.Props.EndpointIntro
import Verif.Props.IntrospectExample

/-! Examples for C45 and requests for which exceptions escape. -/

namespace Hiku.Endpoint
open Hiku.Intro Hiku.Telemetry

mutual
/-- all items of a query, at any depth -/
def allItems : QNode → List QItem
  | .mk fs _ => allItemsL fs
def allItemsL : List QItem → List QItem
  | [] => []
  | .field n o a :: r => .field n o a :: allItemsL r
  | .link n q o a :: r => .link n q o a :: (allItems q ++ allItemsL r)
end

theorem mem_allItemsL {fs : List QItem} {i : QItem} (h : i ∈ fs) : i ∈ allItemsL fs := by
  induction fs with
  | nil => cases h
  | cons x r ih =>
    cases x with
    | field => 
      rw [allItemsL]
      rcases List.mem_cons.1 h with rfl | h
      · simp
      · simp [ih h]
    | link =>
      rw [allItemsL]
      rcases List.mem_cons.1 h with rfl | h
      · simp
      · simp [ih h]

theorem mem_allItemsL_in {fs : List QItem} {n : String} {q : QNode} {o : Opts} {a : Option String}
    (h : .link n q o a ∈ fs) {i : QItem} (hi : i ∈ allItems q) : i ∈ allItemsL fs := by
  induction fs with
  | nil => cases h
  | cons x r ih =>
    cases x with
    | field => 
      rw [allItemsL]
      rcases List.mem_cons.1 h with e | h
      · cases e
      · simp [ih h]
    | link =>
      rw [allItemsL]
      rcases List.mem_cons.1 h with e | h
      · cases e; simp [hi]
      · simp [ih h]

theorem allItems_eq (q : QNode) : allItems q = allItemsL q.fields := by cases q; rw [allItems]; rfl

theorem itemAt_mem {g : Graph} {gn node : GNode} {q : QNode} {p : List Nat} {i : QItem} (h : ItemAt g gn q p node i) :
    i ∈ allItems q := by
  induction h with
  | here hk => rw [allItems_eq]; exact mem_allItemsL (List.mem_of_getElem? hk)
  | inLink hk _ _ _ ih => rw [allItems_eq]; exact mem_allItemsL_in (List.mem_of_getElem? hk) ih

/-- `{ kind: __typename __type(name: "Track") { name __typename } tracks { label t: __typename } }` -/
def exDoc : List Defn := [.op { kind := .query, name := none, vars := [], sels := [
  .leaf "__typename" (some "kind") [] [],
  .obj "__type" none [("name", .str "Track")] [] [.leaf "name" none [] [], .leaf "__typename" none [] []],
  .obj "tracks" none [] [] [.leaf "label" none [] [], .leaf "__typename" (some "t") [] []]] }]

/-- documents of the examples, instead of a parser -/
def exParse : String → Except Err (List Defn)
  | "Q" => .ok exDoc
  | "bad" => .ok [.op { kind := .query, name := none, vars := [], sels := [.leaf "nope" none [] []] }]
  | "mutation" => .ok [.op { kind := .mutation, name := none, vars := [], sels := [.leaf "x" none [] []] }]
  | "empty" => .ok []
  | "spread" => .ok [.op { kind := .query, name := none, vars := [], sels := [.spread "F" []] }]
  | _ => .error .exception

def exEnv' : Env := introEnv 6 exDumps exSchema exEnv 1 exHigh exGraph'

def exEp (inner fuel : Nat) : Endpoint :=
  build exParse 5 exEnv'.H exEnv'.sys (fun _ => exEnv') (fun _ _ l => l.take 1) inner fuel 1 none

def exOpQ : QNode := .mk [.field "__typename" none (some "kind"),
  .link "__type" (.mk [.field "name" none none, .field "__typename" none none] false) (some [("name", .str "Track")]) none,
  .link "tracks" (.mk [.field "label" none none, .field "__typename" none (some "t")] false) none none] false

def exStripped : QNode := .mk [
  .link "__type" (.mk [.field "name" none none] false) (some [("name", .str "Track")]) none,
  .link "tracks" (.mk [.field "label" none none] false) none none] false

theorem exInit : initEnv 6 exDumps exEnv 1 none = .ok exEnv' := rfl

theorem exAsks (inner fuel : Nat) : Asks (exEp inner fuel) { query := some "Q" } { kind := .query, query := exOpQ, name := none } 1 exGraph' :=
  ⟨⟨"Q", exDoc, rfl, rfl, rfl⟩, rfl, rfl⟩

theorem exStrip : stripNode exOpQ = exStripped := rfl

theorem exWellBuilt (inner fuel : Nat) : WellBuilt (exEp inner fuel) := ⟨rfl, by intro m h; cases h⟩

theorem exValid : validate exGraph' 5 (stripNode exOpQ) = .ok [] := rfl

theorem exSelects : Selects exGraph' exGraph'.root exOpQ := by
  have hI := introspected exIntro
  have hT : exGraph'.node "__Type" = some (typeNode 6) := hI.node_intro (by simp [introItems]) rfl
  have hR : exGraph'.root.get "__type" = some (iLink 6 "__type" .maybe "__Type" .type none [{ name := "name", ty := some .string }]) :=
    hI.get_root.2 (.inr (.inr ⟨by simp [introRoot], rfl⟩))
  have hR2 : exGraph'.root.get "tracks" = some (.link exTracks) := hI.get_root.2 (.inl rfl)
  have hL : (withTypename 6 exHigh exHighTrack).get "label" = some (.field exLabel) := (hI.get_old (m := "Track") rfl).2 (.inl rfl)
  rw [exOpQ, Selects, SelectsItems, SelectsItems, SelectsItems, SelectsItems]
  refine ⟨.inl rfl, ⟨by decide, _, _, hR, hT, ?_⟩, ⟨by decide, _, _, hR2, exTrack', ?_⟩, trivial⟩
  · rw [Selects, SelectsItems, SelectsItems, SelectsItems]
    exact ⟨.inr rfl, .inl rfl, trivial⟩
  · rw [Selects, SelectsItems, SelectsItems, SelectsItems]
    exact ⟨.inr (by rw [hL]; rfl), .inl rfl, trivial⟩

theorem exUnique : UniqueKeys exOpQ := by
  simp [exOpQ, UniqueKeys, UniqueKeysItems, QItem.resultKey, QItem.alias_, QItem.name]

theorem exNamesOf {q' : QNode} (h : initOptions exGraph' (stripNode exOpQ) = .ok q') :
    ∀ p node i, ItemAt exGraph' exGraph'.root q' p node i → exUI i.name i.options := by
  have e : initOptions exGraph' (stripNode exOpQ) = .ok exStripped := rfl
  rw [e] at h
  cases h
  intro p node i hi
  have := itemAt_mem hi
  simp only [exStripped, allItems, allItemsL, List.append_nil, List.nil_append, List.cons_append, List.mem_cons,
    List.not_mem_nil, or_false] at this
  rcases this with rfl | rfl | rfl | rfl <;> simp [exUI, exPairs, QItem.name, QItem.options]

/-- all hypotheses of C45 hold for the example request, one future finished per round -/
theorem exAnswer : ∃ inner fuel v q', dispatch (exEp inner fuel) { query := some "Q" } [] = (.ok (.data v), [⟨1, exStripped⟩]) ∧
    initOptions exGraph' exStripped = .ok q' ∧
    Completes exGraph' "Query" exOpQ (semQuery exEnv'.sys (endpointData 6 exDumps exEnv 1 none exData) 1 q') v := by
  refine ⟨2 + costQuery exEnv'.sys 0 1 1 (stripNode exOpQ), 1 + costQuery exEnv'.sys 1 0 1 (stripNode exOpQ), ?_⟩
  obtain ⟨q', h1, h2⟩ := c45_endpoint_partial (base := 6) (dumps := exDumps) (env := exEnv) (D := exData) (U := exUI)
    (exGoodU fun n h => exUI_none (by simp [THIS] at h ⊢; tauto)) exFaithfulI exConformsU exBelow exNames
    (q := 1) (m := none) exGoodSchema Intro.exTypes
    (by intro x hx; simp [exEnv] at hx; subst hx; simp) (by simp) (log := []) (envs := fun _ => exEnv')
    (choose := fun _ _ l => l.take 1) exInit validChoice_first rfl
    (exAsks (2 + costQuery exEnv'.sys 0 1 1 (stripNode exOpQ)) (1 + costQuery exEnv'.sys 1 0 1 (stripNode exOpQ)))
    exValid exUnique exSelects
  obtain ⟨v, h3, h4⟩ := h2 (exNamesOf h1) (Nat.lt_one_add_iff.2 (Nat.le_refl _)) (Nat.add_lt_add_right (by decide) _)
  exact ⟨v, q', h3, h1, h4⟩

/-- the value of the example: the name of the type from the schema, type names everywhere -/
theorem exAnswerValue {v : Val} {q' : QNode} (h1 : initOptions exGraph' exStripped = .ok q')
    (h : Completes exGraph' "Query" exOpQ (semQuery exEnv'.sys (endpointData 6 exDumps exEnv 1 none exData) 1 q') v) :
    ∃ tracks, v = .dict [(.str "kind", .str "Query"),
      (.str "__type", .dict [(.str "name", .str "Track"), (.str "__typename", .str "__Type")]), (.str "tracks", tracks)] := by
  have e : initOptions exGraph' exStripped = .ok exStripped := rfl
  rw [e] at h1
  cases h1
  obtain ⟨ts, h2, h3⟩ := h
  rw [exOpQ, WithTypename] at h3
  obtain ⟨kvs, vs', h4, rfl, h5⟩ := h3
  obtain ⟨v1, r1, rfl, h6, h7⟩ := h5
  rw [if_pos ⟨rfl, rfl⟩] at h7
  subst h7
  obtain ⟨v2, r2, rfl, h8, h9⟩ := h6
  obtain ⟨v3, r3, rfl, h10, h11⟩ := h8
  have h10 : r3 = [] := h10
  subst h10
  refine ⟨v3, ?_⟩
  rw [if_neg (by rintro ⟨h, _⟩; simp [QItem.name, TYPENAME] at h)] at h9
  obtain ⟨x, h12, h13⟩ := h9
  rw [WithTypenameItem] at h13
  obtain ⟨fts, ty, h14, h15, h16⟩ := h13
  cases h14
  have hts : dget exGraph'.types rootName = some (.record ts) := h2
  obtain ⟨ts', h17, h18⟩ := types_root exGraph'
  rw [hts] at h17
  cases h17
  rw [h18] at h15
  have hR : exGraph'.root.get "__type" = some (iLink 6 "__type" .maybe "__Type" .type none [{ name := "name", ty := some .string }]) :=
    (introspected exIntro).get_root.2 (.inr (.inr ⟨by simp [introRoot], rfl⟩))
  rw [hR] at h15
  cases h15
  have hx : x = .dict [(.str "name", .str "Track")] := by
    have hs : semQuery exEnv'.sys (endpointData 6 exDumps exEnv 1 none exData) 1 exStripped =
      semNode (endpointData 6 exDumps exEnv 1 none exData) (semSub exEnv'.sys (endpointData 6 exDumps exEnv 1 none exData) 1)
        exGraph' exGraph'.root rootIdent exStripped := rfl
    rw [hs, exStripped, semNode, semItems, semItems, semItems] at h4
    cases h4
    have hk : dget (dmk [(Val.str (QItem.link "__type" (QNode.mk [QItem.field "name" none none] false) (some [("name", Val.str "Track")]) none).resultKey,
        semItem (endpointData 6 exDumps exEnv 1 none exData) (semSub exEnv'.sys (endpointData 6 exDumps exEnv 1 none exData) 1) exGraph' exGraph'.root rootIdent
          (QItem.link "__type" (QNode.mk [QItem.field "name" none none] false) (some [("name", Val.str "Track")]) none)),
        (Val.str (QItem.link "tracks" (QNode.mk [QItem.field "label" none none] false) none none).resultKey,
        semItem (endpointData 6 exDumps exEnv 1 none exData) (semSub exEnv'.sys (endpointData 6 exDumps exEnv 1 none exData) 1) exGraph' exGraph'.root rootIdent
          (QItem.link "tracks" (QNode.mk [QItem.field "label" none none] false) none none))]) (.str "__type") =
        some (semItem (endpointData 6 exDumps exEnv 1 none exData) (semSub exEnv'.sys (endpointData 6 exDumps exEnv 1 none exData) 1) exGraph' exGraph'.root rootIdent
          (QItem.link "__type" (QNode.mk [QItem.field "name" none none] false) (some [("name", Val.str "Track")]) none)) := rfl
    have h12' := h12
    rw [show (QItem.link "__type" (QNode.mk [QItem.field "name" none none, QItem.field "__typename" none none] false)
      (some [("name", Val.str "Track")]) none).resultKey = "__type" from rfl, hk] at h12'
    cases h12'
    rfl
  subst hx
  simp only [GItem.ty, iLink, GLink.ty] at h16
  rcases h16 with ⟨h, _⟩ | ⟨t', h19, h20⟩
  · cases h
  · rw [WithTypename] at h20
    obtain ⟨kvs2, vs2, h21, rfl, h22⟩ := h20
    cases h21
    obtain ⟨w1, s1, rfl, h23, h24⟩ := h22
    obtain ⟨w2, s2, rfl, h25, h26⟩ := h23
    have h25 : s2 = [] := h25
    subst h25
    rw [if_pos ⟨rfl, rfl⟩] at h26
    subst h26
    rw [if_neg (by rintro ⟨h, _⟩; simp [QItem.name, TYPENAME] at h)] at h24
    obtain ⟨y, h27, h28⟩ := h24
    have h28 : w1 = y := h28
    subst h28
    cases h27
    rfl

/-! ### Requests which are answered with errors, and nothing is executed -/

variable (inner fuel : Nat) (log : List Run)

example : dispatch (exEp inner fuel) { query := some "bad" } log = (.ok (.errors [.invalid (.unknownField "root" "nope")]), log) := rfl
example : dispatch (exEp inner fuel) { query := some "mutation" } log = (.ok (.errors [.unsupported .mutation]), log) := rfl
example : dispatch (exEp inner fuel) { query := some "empty" } log = (.ok (.errors [.failedToRead .typeError]), log) := rfl

/-! ### Defects: exceptions which escape -/

/-- C45 does not hold for documents with an undefined fragment: KeyError -/
theorem c45_unknown_fragment : dispatch (exEp inner fuel) { query := some "spread" } log = (.error .keyError, log) := rfl

/-- C45 does not hold for an unknown name of the operation: ValueError -/
theorem c45_unknown_operation :
    dispatch (exEp inner fuel) { query := some "Q", operationName := some "nope" } log = (.error .valueError, log) := rfl

/-- C45 does not hold for requests without a query: KeyError -/
theorem c45_no_query : dispatch (exEp inner fuel) { query := none } log = (.error .keyError, log) := rfl

/-- C45 does not hold for texts which are not documents: the error of the parser -/
theorem c45_syntax : dispatch (exEp inner fuel) { query := some "}" } log = (.error .exception, log) := rfl

/-- and one such request in a batch leaves all the others without an answer -/
theorem c45_batch_lost (rs : List Request) :
    dispatchBatch (exEp inner fuel) (.list ({ query := some "bad" } :: { query := none } :: rs)) log = (.error .keyError, log) := rfl

end Hiku.Endpoint
