import Verif.Spec.Validate

/-! # The introspection schema of the GraphQL specification (C68)

GraphQL, June 2018 edition, section 4.5: which fields and arguments the types of introspection have, and the
answers to them. -/

namespace Hiku.MetaSchema

/-- `query` stands for the two introspection fields of the query root. -/
inductive MetaType where
  | query | schema | type | field | inputValue | enumValue | directive
  deriving DecidableEq, Repr

/-- types of fields: `String`, `String!`, `Boolean!`, `__TypeKind!`, `[__DirectiveLocation!]!`; `T`, `T!`,
`[T!]`, `[T!]!` for a type of introspection -/
inductive MetaOut where
  | string | requiredString | requiredBoolean | kind | locations
  | object (t : MetaType) | requiredObject (t : MetaType)
  | list (t : MetaType) | requiredList (t : MetaType)
  deriving DecidableEq, Repr

/-- `name: String!`, `includeDeprecated: Boolean = false` -/
inductive MetaArg where
  | requiredString (name : String)
  | boolean (name : String)
  deriving DecidableEq, Repr

structure MetaField where
  name : String
  out : MetaOut
  args : List MetaArg := []
  deriving DecidableEq, Repr

/-- the introspection schema -/
def metaFields : MetaType → List MetaField
  | .query => [
      { name := "__schema", out := .requiredObject .schema },
      { name := "__type", out := .object .type, args := [.requiredString "name"] }]
  | .schema => [
      { name := "types", out := .requiredList .type },
      { name := "queryType", out := .requiredObject .type },
      { name := "mutationType", out := .object .type },
      { name := "subscriptionType", out := .object .type },
      { name := "directives", out := .requiredList .directive }]
  | .type => [
      { name := "kind", out := .kind },
      { name := "name", out := .string },
      { name := "description", out := .string },
      { name := "fields", out := .list .field, args := [.boolean "includeDeprecated"] },
      { name := "interfaces", out := .list .type },
      { name := "possibleTypes", out := .list .type },
      { name := "enumValues", out := .list .enumValue, args := [.boolean "includeDeprecated"] },
      { name := "inputFields", out := .list .inputValue },
      { name := "ofType", out := .object .type }]
  | .field => [
      { name := "name", out := .requiredString },
      { name := "description", out := .string },
      { name := "args", out := .requiredList .inputValue },
      { name := "type", out := .requiredObject .type },
      { name := "isDeprecated", out := .requiredBoolean },
      { name := "deprecationReason", out := .string }]
  | .inputValue => [
      { name := "name", out := .requiredString },
      { name := "description", out := .string },
      { name := "type", out := .requiredObject .type },
      { name := "defaultValue", out := .string }]
  | .enumValue => [
      { name := "name", out := .requiredString },
      { name := "description", out := .string },
      { name := "isDeprecated", out := .requiredBoolean },
      { name := "deprecationReason", out := .string }]
  | .directive => [
      { name := "name", out := .requiredString },
      { name := "description", out := .string },
      { name := "locations", out := .locations },
      { name := "args", out := .requiredList .inputValue }]

/-! ### Queries -/

/-- The arguments are declared, required ones are given, and the values have their types.  (`null` for an
optional argument is left out here: see `c68_null_argument`.) -/
def ArgsOk (declared : List MetaArg) (o : Opts) : Prop :=
  (∀ kv ∈ o.getD [], .requiredString kv.1 ∈ declared ∨ .boolean kv.1 ∈ declared) ∧
  ∀ a ∈ declared, match a with
    | .requiredString n => ∃ s, dget (o.getD []) n = some (.str s)
    | .boolean n => ∀ v, dget (o.getD []) n = some v → ∃ b, v = .bool b

mutual
/-- A selection of fields of the type: leaves without a selection, objects with one, at any depth, with any
aliases; things under the same key are the same. -/
def Selects (t : MetaType) : QNode → Prop
  | .mk fs _ => SelectsAll t fs ∧ ∀ i j, [i, j].Sublist fs → i.resultKey = j.resultKey → SameItem i j
def SelectsAll (t : MetaType) : List QItem → Prop
  | [] => True
  | i :: r => SelectsItem t i ∧ SelectsAll t r
def SelectsItem (t : MetaType) : QItem → Prop
  | .field n o _ => ∃ f ∈ metaFields t, f.name = n ∧ ArgsOk f.args o ∧
      f.out ∈ [.string, .requiredString, .requiredBoolean, .kind, .locations]
  | .link n q o _ => ∃ f ∈ metaFields t, f.name = n ∧ ArgsOk f.args o ∧
      ∃ t', f.out ∈ [.object t', .requiredObject t', .list t', .requiredList t'] ∧ Selects t' q
end

/-! ### Answers -/

def kinds : List String :=
  ["SCALAR", "OBJECT", "INTERFACE", "UNION", "ENUM", "INPUT_OBJECT", "LIST", "NON_NULL"]

def directiveLocations : List String :=
  ["QUERY", "MUTATION", "SUBSCRIPTION", "FIELD", "FRAGMENT_DEFINITION", "FRAGMENT_SPREAD", "INLINE_FRAGMENT",
   "SCHEMA", "SCALAR", "OBJECT", "FIELD_DEFINITION", "ARGUMENT_DEFINITION", "INTERFACE", "UNION", "ENUM",
   "ENUM_VALUE", "INPUT_OBJECT", "INPUT_FIELD_DEFINITION"]

/-- values of leaves -/
def LeafAnswer : MetaOut → Val → Prop
  | .string, v => v = .none ∨ ∃ s, v = .str s
  | .requiredString, v => ∃ s, v = .str s
  | .requiredBoolean, v => ∃ b, v = .bool b
  | .kind, v => ∃ s ∈ kinds, v = .str s
  | .locations, v => ∃ l, v = .list l ∧ ∀ x ∈ l, ∃ s ∈ directiveLocations, x = .str s
  | _, _ => False

/-- What belongs together in the answer for one type: lists and non-null types have a type inside and no name,
others have a name and no type inside; objects have fields, others have none; only input objects have input
fields. -/
def Coherent (fs : List QItem) (kvs : List (Val × Val)) : Prop :=
  ∀ i ∈ fs, i.name = "kind" → ∀ k, dget kvs (.str i.resultKey) = some (.str k) →
    ∀ j ∈ fs, ∀ v, dget kvs (.str j.resultKey) = some v →
      (j.name = "ofType" → (v = .none ↔ k ≠ "LIST" ∧ k ≠ "NON_NULL")) ∧
      (j.name = "name" → (v = .none ↔ k = "LIST" ∨ k = "NON_NULL")) ∧
      (j.name = "fields" → (v = .list [] ↔ k ≠ "OBJECT")) ∧
      (j.name = "inputFields" → k ≠ "INPUT_OBJECT" → v = .list [])

mutual
/-- The value answers the selection: a dict with exactly the keys of the selection, in order, with values of
the declared types: no `null` where the specification excludes it. -/
def Answers (t : MetaType) : QNode → Val → Prop
  | .mk fs _, v => ∃ kvs, v = .dict kvs ∧ kvs.map Prod.fst = fs.map (fun i => Val.str i.resultKey) ∧
      AnswersAll t kvs fs ∧ (t = .type → Coherent fs kvs)
def AnswersAll (t : MetaType) (kvs : List (Val × Val)) : List QItem → Prop
  | [] => True
  | i :: r => (∃ v, dget kvs (.str i.resultKey) = some v ∧ AnswersItem t i v) ∧ AnswersAll t kvs r
def AnswersItem (t : MetaType) : QItem → Val → Prop
  | .field n _ _, v => ∃ f ∈ metaFields t, f.name = n ∧ LeafAnswer f.out v
  | .link n q _ _, v => ∃ f ∈ metaFields t, f.name = n ∧ ∃ t',
      (f.out = .object t' ∧ (v = .none ∨ Answers t' q v)) ∨
      (f.out = .requiredObject t' ∧ Answers t' q v) ∨
      (f.out = .list t' ∧ (v = .none ∨ ∃ l, v = .list l ∧ ∀ x ∈ l, Answers t' q x)) ∨
      (f.out = .requiredList t' ∧ ∃ l, v = .list l ∧ ∀ x ∈ l, Answers t' q x)
end

end Hiku.MetaSchema
