import Verif.Model.Validate
import Verif.Spec.Options

/-! Specification for C23-C26: valid queries -/

namespace Hiku

/-! ### Values of types -/

/-- The value has the type, with Python's classes: `bool` is a subclass of `int`, keywords and symbols are
subclasses of `str`, and a string is a sequence of strings of length one.  Record values have exactly the
fields of the record.  Named types are looked up in `types`. -/
inductive HasType (types : List (String × Ty)) : Ty → Val → Prop
  | any (v) : HasType types .any v
  | boolean (b) : HasType types .boolean (.bool b)
  | string (s) : HasType types .string (.str s)
  | keyword (s) : HasType types .string (.kw s)
  | symbol (s) : HasType types .string (.sym s)
  | integer (i) : HasType types .integer (.int i)
  | bool_integer (b) : HasType types .integer (.bool b)
  | float (s) : HasType types .float (.float s)
  | optional_none (t) : HasType types (.optional t) .none
  | optional {t v} : HasType types t v → HasType types (.optional t) v
  | sequence {t v xs} : v.asSeq = some xs → (∀ x ∈ xs, HasType types t x) → HasType types (.sequence t) v
  | mapping {k t d kvs} : (∀ kv ∈ kvs, HasType types k kv.1) → (∀ kv ∈ kvs, HasType types t kv.2) →
      HasType types (.mapping k t) (.map d kvs)
  | record {fs d kvs} : (∀ kv ∈ kvs, ∃ f ∈ fs, kv.1 = .str f.1) →
      (∀ f ∈ fs, (dget kvs (.str f.1)).isSome) →
      (∀ f ∈ fs, ∀ v, dget kvs (.str f.1) = some v → HasType types f.2 v) →
      HasType types (.record fs) (.map d kvs)
  | named {n t v} : dget types n = some t → HasType types t v → HasType types (.ref n) v

/-- A selection is possible inside of a value of the type: it is a record with the fields `fs`, or a list of
such records or an optional record (`nested`: inside of a list or an optional already). -/
inductive RecordOf (types : List (String × Ty)) : Bool → Ty → List (String × Ty) → Prop
  | record {nested fs} : RecordOf types nested (.record fs) fs
  | optional {t fs} : RecordOf types true t fs → RecordOf types false (.optional t) fs
  | sequence {t fs} : RecordOf types true t fs → RecordOf types false (.sequence t) fs
  | named {nested n t fs} : dget types n = some t → RecordOf types nested t fs → RecordOf types nested (.ref n) fs

/-- the type of a field, if it has one -/
def FieldRecord (types : List (String × Ty)) (ty : Option Ty) (fs : List (String × Ty)) : Prop :=
  ∃ t, ty = some t ∧ RecordOf types false t fs

/-! ### Violations -/

/-- the value of an option: as given or the default -/
def optionValue (o : Opts) (op : GOption) : Val := (dget (o.getD []) op.name).getD op.dflt

/-- the names of the given options which are not declared -/
def unknownOptions (declared : List GOption) (o : Opts) : List String :=
  ((o.getD []).map (·.1)).filter fun k => !(declared.any fun op => op.name = k)

/-- what is wrong with the options of the field or link `name` of the node -/
inductive OptViolation (types : List (String × Ty)) (declared : List GOption) (o : Opts) (node name : String) :
    QErr → Prop
  | missing {op} : op ∈ declared → optionValue o op = .nothing →
      OptViolation types declared o node name (.missingOption node name op.name)
  | invalid {op t} : op ∈ declared → optionValue o op ≠ .nothing → op.ty = some t →
      ¬ HasType types t (optionValue o op) →
      OptViolation types declared o node name (.invalidOption node name op.name)
  | unknown : unknownOptions declared o ≠ [] →
      OptViolation types declared o node name (.unknownOptions node name (unknownOptions declared o))

/-- what is wrong with a selection inside of a record with the fields `ts` -/
inductive RecViolation (types : List (String × Ty)) : List (String × Ty) → QNode → QErr → Prop
  | unknownField {ts q n o a} : .field n o a ∈ q.fields → dget ts n = none →
      RecViolation types ts q (.unknownRecordField n)
  | options {ts q n o a t} : .field n (some o) a ∈ q.fields → dget ts n = some t →
      RecViolation types ts q .optionsNotExpected
  | recordAsField {ts q n a t fs} : .field n none a ∈ q.fields → dget ts n = some t →
      RecordOf types false t fs → fs ≠ [] → RecViolation types ts q (.recordAsField n)
  | notRecord {ts q n q' o a t} : .link n q' o a ∈ q.fields → dget ts n = some t →
      (¬ ∃ fs, RecordOf types false t fs) → RecViolation types ts q (.notRecord n)
  | inside {ts q n q' o a t fs e} : .link n q' o a ∈ q.fields → dget ts n = some t →
      RecordOf types false t fs → RecViolation types fs q' e → RecViolation types ts q e

/-- two items are the same field or link with the same options -/
def SameItem (i j : QItem) : Prop := i.name = j.name ∧ optsEq i.options j.options = true

/-- everything that is wrong with a query of the graph node -/
inductive Violation (g : Graph) : GNode → QNode → QErr → Prop
  | unknownField {gn q n o a} : .field n o a ∈ q.fields → gn.get n = none →
      Violation g gn q (.unknownField (nodeLabel gn) n)
  | linkAsField {gn q n o a gl} : .field n o a ∈ q.fields → gn.get n = some (.link gl) →
      Violation g gn q (.linkAsField (nodeLabel gn) n)
  | unknownLink {gn q n q' o a} : .link n q' o a ∈ q.fields → gn.get n = none →
      Violation g gn q (.unknownLink (nodeLabel gn) n)
  | options {gn q i gi e} : i ∈ q.fields → gn.get i.name = some gi →
      (i.isLink = false → ∃ gf, gi = .field gf) →
      OptViolation g.dataTypes gi.options i.options (nodeLabel gn) i.name e → Violation g gn q e
  | fieldAsNode {gn q n q' o a gf} : .link n q' o a ∈ q.fields → gn.get n = some (.field gf) →
      (¬ ∃ ts, FieldRecord g.dataTypes gf.ty ts) → Violation g gn q (.fieldAsNode (nodeLabel gn) n)
  | inRecord {gn q n q' o a gf ts e} : .link n q' o a ∈ q.fields → gn.get n = some (.field gf) →
      FieldRecord g.dataTypes gf.ty ts → RecViolation g.dataTypes ts q' e → Violation g gn q e
  | inLink {gn q n q' o a gl t e} : .link n q' o a ∈ q.fields → gn.get n = some (.link gl) →
      g.node gl.node = some t → Violation g t q' e → Violation g gn q e
  | distinct {gn q i j} : [i, j].Sublist q.fields → i.resultKey = j.resultKey → ¬ SameItem i j →
      Violation g gn q (.distinctFields (nodeLabel gn) i.resultKey)

/-! ### Valid queries -/

/-- the options of a field or a link are right -/
structure OptionsOk (types : List (String × Ty)) (declared : List GOption) (o : Opts) : Prop where
  given : ∀ op ∈ declared, optionValue o op ≠ .nothing
  typed : ∀ op ∈ declared, ∀ t, op.ty = some t → HasType types t (optionValue o op)
  known : ∀ kv ∈ o.getD [], ∃ op ∈ declared, op.name = kv.1

mutual
/-- a valid selection inside of a record -/
def RecValid (types : List (String × Ty)) (ts : List (String × Ty)) : QNode → Prop
  | .mk fs _ => RecValidItems types ts fs
def RecValidItems (types : List (String × Ty)) (ts : List (String × Ty)) : List QItem → Prop
  | [] => True
  | .field n o _ :: r => (o = none ∧ ∃ t, dget ts n = some t ∧ ∀ fs, RecordOf types false t fs → fs = []) ∧
      RecValidItems types ts r
  | .link n q _ _ :: r => (∃ t fs, dget ts n = some t ∧ RecordOf types false t fs ∧ RecValid types fs q) ∧
      RecValidItems types ts r
end

mutual
/-- a valid query of the graph node -/
def QueryValid (g : Graph) (gn : GNode) : QNode → Prop
  | .mk fs _ => QueryValidItems g gn fs ∧
      ∀ i j, [i, j].Sublist fs → i.resultKey = j.resultKey → SameItem i j
def QueryValidItems (g : Graph) (gn : GNode) : List QItem → Prop
  | [] => True
  | .field n o _ :: r => (∃ gf, gn.get n = some (.field gf) ∧ OptionsOk g.dataTypes gf.options o) ∧
      QueryValidItems g gn r
  | .link n q o _ :: r =>
      ((∃ gl t, gn.get n = some (.link gl) ∧ OptionsOk g.dataTypes gl.options o ∧ g.node gl.node = some t ∧
          QueryValid g t q) ∨
       (∃ gf ts, gn.get n = some (.field gf) ∧ OptionsOk g.dataTypes gf.options o ∧
          FieldRecord g.dataTypes gf.ty ts ∧ RecValid g.dataTypes ts q)) ∧ QueryValidItems g gn r
end

mutual
/-- the selections of ordered nodes (mutations) which have a further selection name links, not fields with
records -/
def OrderedLinksOnly (g : Graph) (gn : GNode) : QNode → Prop
  | .mk fs ord => (ord = true → ∀ i ∈ fs, i.isLink = true → ∃ gl, gn.get i.name = some (.link gl)) ∧
      OrderedLinksOnlyItems g gn fs
def OrderedLinksOnlyItems (g : Graph) (gn : GNode) : List QItem → Prop
  | [] => True
  | .field .. :: r => OrderedLinksOnlyItems g gn r
  | .link n q _ _ :: r =>
      (∀ gl t, gn.get n = some (.link gl) → g.node gl.node = some t → OrderedLinksOnly g t q) ∧
      OrderedLinksOnlyItems g gn r
end

/-! ### Well-formed types, for C26 -/

mutual
/-- the named types which a type mentions -/
def Ty.refs : Ty → List String
  | .optional t | .sequence t => t.refs
  | .mapping k t => k.refs ++ t.refs
  | .record fs => refsFields fs
  | .ref n => [n]
  | _ => []
def refsFields : List (String × Ty) → List String
  | [] => []
  | (_, t) :: r => t.refs ++ refsFields r
end

mutual
/-- functions are not data -/
def Ty.noCallable : Ty → Prop
  | .optional t | .sequence t => t.noCallable
  | .mapping k t => k.noCallable ∧ t.noCallable
  | .record fs => noCallableFields fs
  | .callable _ => False
  | _ => True
def noCallableFields : List (String × Ty) → Prop
  | [] => True
  | (_, t) :: r => t.noCallable ∧ noCallableFields r
end

/-- named types exist and are not recursive: `rank` is smaller for the types which a type mentions -/
structure TypesOk (types : List (String × Ty)) (rank : String → Nat) : Prop where
  exists_ : ∀ n t, dget types n = some t → ∀ m ∈ t.refs, (dget types m).isSome ∧ rank m < rank n
  noCallable : ∀ n t, dget types n = some t → t.noCallable

/-- a type which can be used with the named types; `lim` named types inside each other are possible -/
def TyOk (types : List (String × Ty)) (rank : String → Nat) (lim : Nat) (t : Ty) : Prop :=
  t.noCallable ∧ ∀ m ∈ t.refs, (dget types m).isSome ∧ rank m < lim

/-- all types which the nodes of a graph use, and its links -/
structure GraphTypesOk (g : Graph) (rank : String → Nat) (lim : Nat) : Prop where
  types : TypesOk g.dataTypes rank
  fields : ∀ gn, IsNode g gn → ∀ n gf, gn.get n = some (.field gf) → ∀ t, gf.ty = some t →
    ∀ m ∈ t.refs, (dget g.dataTypes m).isSome ∧ rank m < lim
  options : ∀ gn, IsNode g gn → ∀ n gi, gn.get n = some gi → ∀ op ∈ gi.options, ∀ t, op.ty = some t →
    TyOk g.dataTypes rank lim t
  links : ∀ gn, IsNode g gn → ∀ n gl, gn.get n = some (.link gl) → ∃ t, g.node gl.node = some t

mutual
/-- selections inside of records which have a further selection name existing fields -/
def RecLinksExist (types : List (String × Ty)) (ts : List (String × Ty)) : QNode → Prop
  | .mk fs _ => RecLinksExistItems types ts fs
def RecLinksExistItems (types : List (String × Ty)) (ts : List (String × Ty)) : List QItem → Prop
  | [] => True
  | .field .. :: r => RecLinksExistItems types ts r
  | .link n q _ _ :: r => (∃ t, dget ts n = some t ∧ ∀ fs, RecordOf types false t fs → RecLinksExist types fs q) ∧
      RecLinksExistItems types ts r
end

mutual
def LinksInRecordsExist (g : Graph) (gn : GNode) : QNode → Prop
  | .mk fs _ => LinksInRecordsExistItems g gn fs
def LinksInRecordsExistItems (g : Graph) (gn : GNode) : List QItem → Prop
  | [] => True
  | .field .. :: r => LinksInRecordsExistItems g gn r
  | .link n q _ _ :: r =>
      ((∀ gl t, gn.get n = some (.link gl) → g.node gl.node = some t → LinksInRecordsExist g t q) ∧
       (∀ gf ts, gn.get n = some (.field gf) → FieldRecord g.dataTypes gf.ty ts → RecLinksExist g.dataTypes ts q)) ∧
      LinksInRecordsExistItems g gn r
end

/-- the query selects something inside of a field which the record with the fields `ts` does not have, there or
deeper -/
inductive RecStray (types : List (String × Ty)) : List (String × Ty) → QNode → Prop
  | here {ts q n q' o a} : .link n q' o a ∈ q.fields → dget ts n = none → RecStray types ts q
  | inside {ts q n q' o a t fs} : .link n q' o a ∈ q.fields → dget ts n = some t → RecordOf types false t fs →
      RecStray types fs q' → RecStray types ts q

/-- the query of the graph node comes to such a selection -/
inductive Stray (g : Graph) : GNode → QNode → Prop
  | inRecord {gn q n q' o a gf ts} : .link n q' o a ∈ q.fields → gn.get n = some (.field gf) →
      FieldRecord g.dataTypes gf.ty ts → RecStray g.dataTypes ts q' → Stray g gn q
  | inLink {gn q n q' o a gl t} : .link n q' o a ∈ q.fields → gn.get n = some (.link gl) →
      g.node gl.node = some t → Stray g t q' → Stray g gn q

end Hiku
