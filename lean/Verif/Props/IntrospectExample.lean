import Verif.Props.IntrospectResult
import Verif.Props.TelemetryExample

/-! The hypotheses of the theorems about introspection hold for the example program; defects. -/

namespace Hiku.Intro
open Hiku.Transform Hiku.Telemetry

def exSchema : Schema := { query := exHigh }
def exDumps : Val → Except Err String := fun _ => .ok "null"

theorem exObject {n : String} (h : IsObject exSchema n) : n = "Query" ∨ n = "Album" ∨ n = "Track" := by
  rcases h with h | h
  · unfold objectNode at h
    rw [if_neg (by simp [exSchema])] at h
    by_cases h1 : n = "Query"
    · exact .inl h1
    · rw [if_neg h1] at h
      obtain ⟨t, ht⟩ := Option.isSome_iff_exists.1 h
      obtain ⟨h2, h3⟩ := node_mem ht
      simp only [exSchema, exHigh, List.mem_cons, List.not_mem_nil, or_false] at h2
      rcases h2 with rfl | rfl | rfl
      · cases h3; exact .inr (.inl rfl)
      · cases h3; exact .inr (.inr rfl)
      · cases h3
  · simp [IsRecord, recordType, exSchema, Schema.dataTypes, exHigh, dget] at h

theorem exNoRecord (n : String) : recordType exSchema n = none := by
  simp [recordType, exSchema, Schema.dataTypes, exHigh, dget]

theorem exView {n f : String} {v : FieldView} (h : fieldAt exSchema n f = some v) :
    v.args = [] ∧ (v.ty = .any ∨ v.ty = .ref "Album" ∨ v.ty = .sequence (.ref "Track")) := by
  rcases fieldAt_cases h with ⟨node, i, h1, _, h3, rfl⟩ | ⟨_, fs, t, h3, _⟩
  · have hn : IsNode exHigh node := by
      have := exObject (.inl (by rw [h1]; rfl))
      rcases this with rfl | rfl | rfl <;> cases h1
      · exact .inl rfl
      · exact .inr ⟨"Album", rfl⟩
      · exact .inr ⟨"Track", rfl⟩
    rcases exItems (gi := 1) (g := exHigh) rfl hn h3 with ⟨h, _⟩ | ⟨h, _⟩ | ⟨_, _, _, _, rfl⟩ | ⟨_, _, _, _, rfl⟩ |
      ⟨_, _, _, _, rfl⟩ | ⟨_, _, _, _, rfl⟩ | ⟨_, _, _, _, rfl⟩
    · cases h
    · cases h
    · exact ⟨rfl, .inl rfl⟩
    · exact ⟨rfl, .inl rfl⟩
    · exact ⟨rfl, .inl rfl⟩
    · exact ⟨rfl, .inr (.inl rfl)⟩
    · exact ⟨rfl, .inr (.inr rfl)⟩
  · rw [exNoRecord] at h3; cases h3

theorem exGoodSchema : GoodSchema exDumps exSchema where
  nonempty := by
    intro n h
    rcases exObject h with rfl | rfl | rfl <;> decide
  types := by
    intro n f v h
    rcases (exView h).2 with e | e | e <;> rw [e]
    · trivial
    · exact Or.inl rfl
    · exact Or.inl rfl
  args := by
    intro n f v h a ha
    rw [(exView h).1] at ha
    cases ha
  inputs := by
    intro n fs h
    rw [exNoRecord] at h
    cases h

theorem exTypes : TypesDict exSchema := by simp [TypesDict, exSchema, Schema.dataTypes, exHigh]

def exGraph' : Graph := { items := newItems 6 exHigh, dataTypes := [] }

theorem exIntro : introspect 6 exHigh = .ok exGraph' := rfl

/-- names and options of the example query -/
def exPairs : List (String × Opts) :=
  (["this", "albumId", "title", "id", "name", "type", "kind", "ofType", "tracks", "label"].map fun n => (n, none)) ++
  [("__type", some [("name", .str "Track")]), ("fields", some [("includeDeprecated", .bool false)])]

def exUI : String → Opts → Prop := fun n o => (n, o) ∈ exPairs

theorem exNames : IntroNames exUI where
  id := by simp [exUI, exPairs]
  name := by simp [exUI, exPairs]
  typename := by simp [exUI, exPairs]
  type := by
    intro o h
    simp [exUI, exPairs] at h
    subst h
    exact ⟨_, rfl⟩

theorem exKeys : (exPairs.map fun p => indexKey exEnv.H p.1 p.2).Nodup := by decide

theorem exFaithfulI : Faithful exEnv.H exData exUI := by
  intro n o n' o' hu hu' h
  have := List.inj_on_of_nodup_map exKeys hu hu' h
  cases this
  exact ⟨rfl, fun _ _ _ => rfl, fun _ _ => rfl, fun _ => rfl⟩

def exTypeQ : QNode := .mk [.field "kind" none none,
  .link "ofType" (.mk [.field "name" none none] false) none none] false
def exFieldQ : QNode := .mk [.field "name" none none, .link "type" exTypeQ none none] false
def exTrackQ : QNode := .mk [.field "label" none none] false

/-- `{ __type(name: "Track") { name f: fields { name type { kind ofType { name } } } } tracks { label } }` -/
def exIQuery : QNode := .mk [
  .link "__type" (.mk [.field "name" none none, .link "fields" exFieldQ none (some "f")] false)
    (some [("name", .str "Track")]) none,
  .link "tracks" exTrackQ none none] false

/-- with the default of `includeDeprecated` -/
def exIQuery' : QNode := .mk [
  .link "__type" (.mk [.field "name" none none, .link "fields" exFieldQ (some [("includeDeprecated", .bool false)]) (some "f")] false)
    (some [("name", .str "Track")]) none,
  .link "tracks" exTrackQ none none] false

theorem exIOptions : initOptions exGraph' exIQuery = .ok exIQuery' := rfl

theorem exUI_none {n : String} (h : n ∈ ["this", "albumId", "title", "id", "name", "type", "kind", "ofType", "tracks", "label"]) :
    exUI n none := List.mem_append_left _ (List.mem_map.2 ⟨n, h, rfl⟩)

theorem exTrack' : exGraph'.node "Track" = some (withTypename 6 exHigh exHighTrack) :=
  (introspected exIntro).node_old (t := exHighTrack) rfl

theorem exIQuery_ok : NodeOk exUI exGraph' exGraph'.root exIQuery' := by
  have hI := introspected exIntro
  have hT : exGraph'.node "__Type" = some (typeNode 6) := hI.node_intro (by simp [introItems]) rfl
  have hF : exGraph'.node "__Field" = some (fieldNode 6) := hI.node_intro (by simp [introItems]) rfl
  have hR : exGraph'.root.get "__type" = some (iLink 6 "__type" .maybe "__Type" .type none [{ name := "name", ty := some .string }]) :=
    hI.get_root.2 (.inr (.inr ⟨by simp [introRoot], rfl⟩))
  have hR2 : exGraph'.root.get "tracks" = some (.link exTracks) := hI.get_root.2 (.inl rfl)
  have hL : (withTypename 6 exHigh exHighTrack).get "label" = some (.field exLabel) := (hI.get_old (m := "Track") rfl).2 (.inl rfl)
  have noOpts : ∀ (f : GField), f.options = [] → ∀ o, OptsGiven f o := by
    intro f h o op hop
    rw [h] at hop; cases hop
  have hof : NodeOk exUI exGraph' (typeNode 6) (.mk [.field "name" none none] false) := by
    rw [NodeOk, ItemsOk, ItemOk, ItemsOk]
    exact ⟨⟨⟨exUI_none (by simp), _, rfl, noOpts _ rfl _⟩, trivial⟩, by simp⟩
  have hty : NodeOk exUI exGraph' (typeNode 6) exTypeQ := by
    rw [exTypeQ, NodeOk, ItemsOk, ItemOk, ItemsOk, ItemOk, ItemsOk]
    exact ⟨⟨⟨exUI_none (by simp), _, rfl, noOpts _ rfl _⟩, ⟨exUI_none (by simp), .inl ⟨_, _, rfl, hT, hof⟩⟩, trivial⟩, by simp⟩
  have hfi : NodeOk exUI exGraph' (fieldNode 6) exFieldQ := by
    rw [exFieldQ, NodeOk, ItemsOk, ItemOk, ItemsOk, ItemOk, ItemsOk]
    exact ⟨⟨⟨exUI_none (by simp), _, rfl, noOpts _ rfl _⟩, ⟨exUI_none (by simp), .inl ⟨_, _, rfl, hT, hty⟩⟩, trivial⟩, by simp⟩
  have htr : NodeOk exUI exGraph' (withTypename 6 exHigh exHighTrack) exTrackQ := by
    rw [exTrackQ, NodeOk, ItemsOk, ItemOk, ItemsOk]
    exact ⟨⟨⟨exUI_none (by simp), _, hL, noOpts _ rfl _⟩, trivial⟩, by simp⟩
  rw [exIQuery', NodeOk, ItemsOk, ItemOk, ItemsOk, ItemOk, ItemsOk]
  refine ⟨⟨⟨by simp [exUI, exPairs], .inl ⟨_, _, hR, hT, ?_⟩⟩, ⟨exUI_none (by simp), .inl ⟨_, _, hR2, exTrack', htr⟩⟩, trivial⟩, by simp⟩
  rw [NodeOk, ItemsOk, ItemOk, ItemsOk, ItemOk, ItemsOk]
  exact ⟨⟨⟨exUI_none (by simp), _, rfl, noOpts _ rfl _⟩, ⟨by simp [exUI, exPairs], .inl ⟨_, _, rfl, hF, hfi⟩⟩, trivial⟩, by simp⟩

/-- all hypotheses of C44 hold: a query of a type and of data together, one future finished per round -/
theorem exIResult : ∃ st n st' wf, startQuery (introEnv 6 exDumps exSchema exEnv 1 exHigh exGraph') 1 exIQuery = .ok st ∧
    Loops (introEnv 6 exDumps exSchema exEnv 1 exHigh exGraph') (fun _ l => l.take 1) 0 st n (.ok st') ∧
    st'.wfs[0]? = some wf ∧ wf.query = exIQuery' ∧
    readNode exEnv.H wf.index rootName rootIdent exIQuery' =
      .ok (semQuery (introEnv 6 exDumps exSchema exEnv 1 exHigh exGraph').sys (introData exDumps exSchema 6 1 exData) 1 exIQuery') :=
  c44_loop_partial (exGoodU fun n h => exUI_none (by simp [THIS] at h ⊢; tauto)) exFaithfulI exConformsU exBelow
    (by intro x hx; simp [exEnv] at hx; subst hx; decide) exNames exGoodSchema exTypes rfl exIntro validChoice_first
    exIOptions exIQuery_ok

/-- and this is the value of its first item -/
theorem exIValue (sub : SubSem) :
    semItem (introData exDumps exSchema 6 1 exData) sub exGraph' exGraph'.root rootIdent
      (.link "__type" (.mk [.field "name" none none, .link "fields" exFieldQ (some [("includeDeprecated", .bool false)]) (some "f")] false)
        (some [("name", .str "Track")]) none) =
    .dict [(.str "name", .str "Track"), (.str "f", .list [
        .dict [(.str "name", .str "label"), (.str "type", .dict [(.str "kind", .str "SCALAR"), (.str "ofType", .none)])],
        .dict [(.str "name", .str "albumId"), (.str "type", .dict [(.str "kind", .str "SCALAR"), (.str "ofType", .none)])],
        .dict [(.str "name", .str "album"), (.str "type", .dict [(.str "kind", .str "NON_NULL"),
          (.str "ofType", .dict [(.str "name", .str "Album")])])]])] := by
  rfl

/-! ### Defects: schemas which are not described -/

def dF (n : String) (t : Option Ty := some .string) (os : List GOption := []) : GItem :=
  .field { name := n, ty := t, func := .plain { id := 0 }, options := os }
def dL (n node : String) : GItem := .link { name := n, typeEnum := .one, node := node, func := { id := 1 }, requires := none }
def dRoot (l : List GItem) : GNode := { name := none, fields := l }
def dNode (n : String) (l : List GItem) : GNode := { name := some n, fields := l }

/-- nodes of the graph of mutations are not listed, although fields of mutations have their types, and loading
their fields fails -/
theorem c44_mutation_nodes : ∃ s : Schema, ∃ m, s.mutation = some m ∧ (m.node "M").isSome ∧
    TId.object "M" ∉ schemaTypes s ∧
    fieldType s [(Ident.field "Mutation" "m").val] = .ok (.list [(TId.nonNull (.object "M")).val]) ∧
    typeFields s [(TId.object "M").val] = .error .keyError :=
  ⟨{ query := { items := [dRoot [dF "a"]] }, mutation := some { items := [dNode "M" [dF "x"], dRoot [dL "m" "M"]] } }, _, rfl, rfl,
    by decide, rfl, rfl⟩

/-- an option without a type fails as soon as its type is loaded -/
theorem c44_untyped_option : ∃ s : Schema,
    inputType s [(Ident.arg "Query" "a" "o").val] = .error .attributeError :=
  ⟨{ query := { items := [dRoot [dF "a" (some .string) [{ name := "o", ty := none }]]] } }, rfl⟩

/-- a data type which is not a record is reported as an object type which is not listed and has no fields -/
theorem c44_alias_type : ∃ s : Schema,
    fieldType s [(Ident.field "Query" "a").val] = .ok (.list [(TId.nonNull (.object "Age")).val]) ∧
    TId.object "Age" ∉ schemaTypes s ∧ typeFields s [(TId.object "Age").val] = .error .attributeError :=
  ⟨{ query := { items := [dRoot [dF "a" (some (.ref "Age"))]], dataTypes := [("Age", .integer)] } }, rfl, by decide, rfl⟩

/-- a node with private fields only is listed, loading its fields fails; with it all types can not be loaded -/
theorem c44_private_node : ∃ s : Schema, TId.object "P" ∈ schemaTypes s ∧
    typeFields s ((schemaTypes s).map TId.val) = .error .typeError :=
  ⟨{ query := { items := [dNode "P" [dF "_x"], dRoot [dF "a"]] } }, by decide, rfl⟩

/-- a node with the name "Query" is hidden by the root -/
theorem c44_query_node : ∃ s : Schema, (s.query.node "Query").isSome ∧
    fieldNames s "Query" = .ok ["a"] ∧ ∃ n, s.query.node "Query" = some n ∧ n.fields.map GItem.name = ["b"] :=
  ⟨{ query := { items := [dNode "Query" [dF "b"], dRoot [dF "a"]] } }, rfl, rfl, _, rfl, rfl⟩

/-- every record is listed as an input type, and loading the types of its fields fails when it mentions a node -/
theorem c44_record_node : ∃ s : Schema, TId.inputObject "R" ∈ schemaTypes s ∧
    inputFields s [(TId.inputObject "R").val] = .ok (.list [.list [(Ident.inputField "R" "n").val]]) ∧
    inputType s [(Ident.inputField "R" "n").val] = .error .assertionError :=
  ⟨{ query := { items := [dNode "N" [dF "x"], dRoot [dF "a" (some (.ref "R"))]], dataTypes := [("R", .record [("n", .ref "N")])] } },
    by decide, rfl, rfl⟩

/-- a record with the name of a node is listed twice as an object type -/
theorem c44_listed_twice : ∃ s : Schema, ((schemaTypes s).filter (· = TId.object "N")).length = 2 :=
  ⟨{ query := { items := [dNode "N" [dF "x"], dRoot [dF "a"]], dataTypes := [("N", .record [("y", .string)])] } }, by decide⟩

/-- the data types are not found by `__type` -/
theorem c44_type_record : ∃ s : Schema, TId.object "R" ∈ schemaTypes s ∧
    typeLink s (some [("name", .str "R")]) = .ok .nothing :=
  ⟨{ query := { items := [dRoot [dF "a"]], dataTypes := [("R", .record [("y", .string)])] } }, by decide, rfl⟩

/-- a valid graph with two roots is refused -/
theorem c50_two_roots : ∃ g : Graph, Built g ∧ NamesOk g ∧ introspect 5 g = .error .graphValidationError := by
  refine ⟨{ items := [dRoot [dF "a"], dRoot [dF "b"]] }, ⟨rfl, by intro n hn he; simp [dRoot] at hn; rcases hn with rfl | rfl <;> rfl⟩, ?_, rfl⟩
  exact validateErrors_nil.1 (by decide)

/-- a name with a newline at the end is accepted -/
theorem c50_newline : ∃ g g' : Graph, (g.root.get "a\n").isSome ∧ introspect 5 g = .ok g' :=
  ⟨{ items := [dRoot [dF "a\n"]] }, _, rfl, rfl⟩

/-- the hypotheses of `c50_constructed`, `c50_transparent` -/
example : ∃ g', introspect 6 exHigh = .ok g' ∧
    execute (introEnv 6 exDumps exSchema exEnv 1 exHigh g') (fun _ l => l.take 1) 20 20 1 exQuery =
      execute exEnv (fun _ l => l.take 1) 20 20 1 exQuery :=
  ⟨_, exIntro, c50_transparent exGood exBelow rfl exIntro _ _ _ rfl exQuery_ok⟩

example : NamesOk exHigh ∧ NoClash exHigh := (c50_constructed (base := 6) exBuilt).1.1 exIntro

end Hiku.Intro
