import Verif.Proofs.Kinko
import Verif.Props.Example

/-! # C53: the type file of a graph says what the graph declares -/

namespace Hiku.Kinko

/-- C53.  `dumps` succeeds, and whoever reads the file finds exactly the data types, the nodes with their fields and
links, and the fields and links of the root, with their types and descriptions. -/
theorem c53_dumps {g : Graph} (h : PrintableGraph g) : ∃ text, dumps g = .ok text ∧ readFile text = some (graphDefs g) := by
  have h0 : Printed {} [] := ⟨rfl, fun i => rfl⟩
  obtain ⟨p, h1, h2⟩ := printDefs_prints (typeDefs g) true {} [] rfl h0 (typeDefs_ok h)
  refine ⟨String.intercalate "\n" (iterLines p) ++ "\n", by simp only [dumps, h1, ok_bind'], readFile_defs (graphDefs_ok h) (intercalate_text _ _ ?_)⟩
  rw [lines_text h2, typeDefs_defs h]
  rfl

/-- Different declarations give different files. -/
theorem c53_injective {g g' : Graph} (h : PrintableGraph g) (h' : PrintableGraph g') (he : dumps g = dumps g') :
    graphDefs g = graphDefs g' := by
  obtain ⟨t, h1, h2⟩ := c53_dumps h
  obtain ⟨t', h1', h2'⟩ := c53_dumps h'
  rw [h1, h1'] at he
  cases he
  rw [h2] at h2'
  exact Option.some.inj h2'

/-! ### An example -/

/-- a node with a described field, a field without a type, and links; a mapping in the data types -/
def exKinko : Graph where
  items := [
    { name := some "user", description := some "A user", fields := [
      .field { name := "id", ty := some .integer, func := .plain ⟨0, false⟩ },
      .field { name := "tags", ty := some (.optional (.sequence .string)), func := .plain ⟨0, false⟩, description := some "Tags; all" },
      .field { name := "raw", ty := none, func := .plain ⟨0, false⟩ },
      .link { name := "friends", typeEnum := .many, node := "user", func := ⟨1, false⟩, requires := some "id" }] },
    { name := none, fields := [.link { name := "me", typeEnum := .maybe, node := "user", func := ⟨2, false⟩, requires := none }] }]
  dataTypes := [("scores", .mapping .string (.sequence .integer))]

theorem word_dec {s : String} (h : s.toList.isEmpty = false ∧ s.toList.contains ' ' = false ∧ s.toList.contains '\n' = false) : Word s := by
  obtain ⟨h1, h2, h3⟩ := h
  refine ⟨fun e => ?_, fun e => ?_, fun e => ?_⟩
  · simp [e] at h1
  · simp only [List.contains_eq_mem, decide_eq_false_iff_not] at h2; exact h2 e
  · simp only [List.contains_eq_mem, decide_eq_false_iff_not] at h3; exact h3 e

theorem exKinko_printable : PrintableGraph exKinko where
  names := by decide
  notRoot := by decide
  words := by
    intro n hn
    simp [exKinko] at hn
    rcases hn with rfl | rfl <;> exact word_dec (by decide)
  fieldNames := by
    intro n hn
    simp [exKinko] at hn
    rcases hn with rfl | rfl <;> decide
  rootNames := by decide
  dataTypes := by
    intro x hx
    simp [exKinko] at hx
    subst hx
    simp [Printable, isAtom]
  descriptions := by
    intro n hn
    simp [exKinko] at hn
    rcases hn with rfl | rfl
    · intro s hs; cases hs; decide
    · exact oneLine_none
  items := by
    intro n hn f hf
    simp [exKinko] at hn
    rcases hn with rfl | rfl
    · simp at hf
      rcases hf with rfl | rfl | rfl | rfl
      · exact ⟨word_dec (by decide), by simp [Printable], oneLine_none⟩
      · exact ⟨word_dec (by decide), by simp [Printable], by intro s hs; cases hs; decide⟩
      · exact ⟨word_dec (by decide), by simp [Printable], oneLine_none⟩
      · exact ⟨word_dec (by decide), word_dec (by decide), oneLine_none⟩
    · simp at hf
      subst hf
      exact ⟨word_dec (by decide), word_dec (by decide), oneLine_none⟩

example : graphDefs exKinko = [
    ("scores", none, .dict (.atom "String") (.list (.atom "Integer"))),
    ("user", some "A user", .record [
      ("id", none, .atom "Integer"),
      ("tags", some "Tags; all", .option (.list (.atom "String"))),
      ("friends", none, .list (.atom "user"))]),
    ("me", none, .option (.atom "user"))] := by
  simp [graphDefs, exKinko, typeDoc, itemDoc, Graph.root, GLink.ty, List.filterMap_cons]

/-! ### Where the restrictions are needed -/

/-- a graph with one data type -/
def oneType (t : Ty) : Graph := { items := [], dataTypes := [("t", t)] }

/-- a mapping from a container to an atom: the atom is appended to the last line of the key -/
theorem c53_garbled : dumps (oneType (.mapping (.optional .string) .integer)) = .ok "type t\n  Dict\n    Option String Integer\n" := by
  simp [dumps, typeDefs, oneType, Graph.root, dupdate, ofTy, isAny, printDefs, printDef, printArg, printCall, appendWord, moreIndent, lessIndent,
    spaces, iterLines, dmk, dget]

/-- nobody can read it back -/
theorem c53_garbled_unreadable : readFile "type t\n  Dict\n    Option String Integer\n" = none := by
  simp [readFile, splitAtChar, readLine, leading, splitNote, readDefs, blank, readOnly, readArg, readBlock]

/-- a function type cannot be printed -/
theorem c53_callable : dumps (oneType (.callable [])) = .error .attributeError := by
  simp [dumps, typeDefs, oneType, dupdate, dmk, ofTy, isAny, printDefs, printDef, printArg, bind, Except.bind]

/-- a graph with one field at the root -/
def oneField (f : GField) : Graph := { items := [{ name := none, fields := [.field f] }] }

/-- a field without a type is left out, unless it has a description -/
theorem c53_untyped :
    dumps (oneField { name := "a", ty := none, func := .plain ⟨0, false⟩ }) = .ok "\n" ∧
    dumps (oneField { name := "a", ty := none, func := .plain ⟨0, false⟩, description := some "x" }) = .ok "type a Unknown  ; x\n" := by
  constructor <;>
  simp [dumps, typeDefs, oneField, dupdate, dmk, dset, nodeFields, itemType, withDoc, GItem.name, ofTy, isAny, printDefs, printDef, printArg,
    printCall, appendWord, describe, spaces, iterLines, dget]

/-- a float looks like a field of an unknown type -/
theorem c53_float : dumps (oneType .float) = .ok "type t Unknown\n" := by
  simp [dumps, typeDefs, oneType, dupdate, dmk, ofTy, isAny, printDefs, printDef, printArg,
    printCall, appendWord, spaces, iterLines, dget]

end Hiku.Kinko
