import Verif.Model.Introspection
import Verif.Spec.Telemetry

/-! # What introspection must report (C43, C44) -/

namespace Hiku.Intro

/-! ### C43: GraphQL types of hiku types -/

/-- GraphQL types without nullability at the top -/
inductive Shape where
  | scalar (name : String)
  | object (name : String)
  | input (name : String)
  | list (elem : Shape) (elemMayBeNull : Bool)

/-- The hiku type is the GraphQL type of this shape; the flag tells that the value may be null. -/
inductive Describes (input : Bool) : Ty → Shape → Bool → Prop
  | any : Describes input .any (.scalar "Any") true
  | mapping (k v : Ty) : Describes input (.mapping k v) (.scalar "Any") true
  | record (fs : List (String × Ty)) : Describes input (.record fs) (.scalar "Any") true
  | string : Describes input .string (.scalar "String") false
  | integer : Describes input .integer (.scalar "Int") false
  | float : Describes input .float (.scalar "Float") false
  | boolean : Describes input .boolean (.scalar "Boolean") false
  | object (n : String) : input = false → Describes input (.ref n) (.object n) false
  | inputObject (n : String) : input = true → Describes input (.ref n) (.input n) false
  | sequence {t : Ty} {sh : Shape} {b : Bool} : Describes input t sh b →
      Describes input (.sequence t) (.list sh b) false
  | optional {t : Ty} {sh : Shape} {b : Bool} : Describes input t sh b → Describes input (.optional t) sh true

/-- how a shape is reported: with `NON_NULL` iff the value may not be null -/
def wrapNull (mayBeNull : Bool) (t : TId) : TId := if mayBeNull then t else .nonNull t

def Shape.reported : Shape → TId
  | .scalar n => .scalar n
  | .object n => .object n
  | .input n => .inputObject n
  | .list e b => .list (wrapNull b e.reported)

/-- types whose values can be null: optional, and everything which GraphQL can not describe -/
def MayBeNull : Ty → Prop
  | .optional _ | .any | .mapping _ _ | .record _ => True
  | _ => False

/-- `NON_NULL` never wraps `NON_NULL` -/
inductive WellFormed : TId → Prop
  | scalar (n : String) : WellFormed (.scalar n)
  | object (n : String) : WellFormed (.object n)
  | inputObject (n : String) : WellFormed (.inputObject n)
  | list {t : TId} : WellFormed t → WellFormed (.list t)
  | nonNull {t : TId} : WellFormed t → (∀ t', t ≠ .nonNull t') → WellFormed (.nonNull t)

/-- a type which GraphQL can describe (values of mappings and inline records are not looked into); `ref` tells
which names may be mentioned -/
def OkTy (ref : String → Prop) : Ty → Prop
  | .callable _ => False
  | .optional t => OkTy ref t
  | .sequence t => OkTy ref t
  | .ref n => ref n
  | _ => True

/-! ### C44: the schema -/

/-- The node behind an object type: the roots are called "Query" and "Mutation", other names are nodes of the
query graph. -/
def objectNode (s : Schema) (n : String) : Option GNode :=
  if n = "Mutation" ∧ s.mutation.isSome then s.mutation.map Graph.root
  else if n = "Query" then some s.query.root
  else s.query.node n

/-- a data type which is a record -/
def recordType (s : Schema) (n : String) : Option (List (String × Ty)) :=
  match dget s.dataTypes n with
  | some (.record fs) => some (dmk fs)
  | _ => none

def IsRecord (s : Schema) (n : String) : Prop := (recordType s n).isSome
def IsObject (s : Schema) (n : String) : Prop := (objectNode s n).isSome ∨ IsRecord s n

/-- what is known about a field of an object type -/
structure FieldView where
  ty : Ty
  description : Option String := none
  args : List GOption := []

/-- a field or a link of a node as a field of the object type -/
def itemView (i : GItem) : FieldView :=
  match i with
  | .field f => { ty := f.ty.getD .any, description := f.description, args := f.options }
  | .link l => { ty := l.ty, description := l.description, args := l.options }

/-- the fields of an object type: public fields and links of the node, or the fields of the record -/
def fieldAt (s : Schema) (n f : String) : Option FieldView :=
  match objectNode s n with
  | some node => if isPublic f then (node.get f).map itemView else none
  | none => ((recordType s n).bind fun fs => dget fs f).map fun t => { ty := t }

/-- the names of these fields, in order -/
def fieldsOf (s : Schema) (n : String) : List String :=
  match objectNode s n with
  | some node => (node.fields.map GItem.name).filter isPublic
  | none => ((recordType s n).getD []).map Prod.fst

/-- Schemas which introspection can describe: every object type has fields, types mention only known object
types, types of arguments and of fields of records mention only records, arguments are typed and their
defaults have a JSON form. -/
structure GoodSchema (dumps : Val → Except Err String) (s : Schema) : Prop where
  nonempty : ∀ n, IsObject s n → fieldsOf s n ≠ []
  types : ∀ n f v, fieldAt s n f = some v → OkTy (IsObject s) v.ty
  args : ∀ n f v, fieldAt s n f = some v → ∀ a ∈ v.args, ∃ t, a.ty = some t ∧ OkTy (IsRecord s) t ∧
    (a.dflt ≠ .nothing → ∃ x, dumps a.dflt = .ok x)
  inputs : ∀ n fs, recordType s n = some fs → ∀ k t, dget fs k = some t → OkTy (IsRecord s) t

/-- the named type inside of lists and non-null types -/
def leaf : TId → TId
  | .list t => leaf t
  | .nonNull t => leaf t
  | t => t

/-! ### The data behind the introspection fields and links -/

section
variable (dumps : Val → Except Err String) (s : Schema)

def kindOf : TId → String
  | .scalar _ => "SCALAR"
  | .object _ => "OBJECT"
  | .inputObject _ => "INPUT_OBJECT"
  | .list _ => "LIST"
  | .nonNull _ => "NON_NULL"

def nameOf : TId → Val
  | .scalar n => .str n
  | .object n => .str n
  | .inputObject n => .str ("IO" ++ n)
  | _ => .none

def descriptionOf : TId → Val
  | .object n => optStr ((objectNode s n).bind GNode.description)
  | _ => .none

/-- the GraphQL type of a hiku type, as an identifier -/
def reportedType (input : Bool) (t : Ty) : Val :=
  match typeIdent s.dataTypes input t with
  | .ok x => x.val
  | .error _ => .none

def argOf (n f a : String) : Option GOption :=
  (fieldAt s n f).bind fun v => dget (dmk (v.args.map fun o => (o.name, o))) a

def defaultOf (o : GOption) : Val :=
  if o.dflt = .nothing then .none
  else match dumps o.dflt with
    | .ok x => .str x
    | .error _ => .none

/-- the value of a field of an introspection object -/
def introField : Ident → String → Val
  | .type t, "id" => t.val
  | .type t, "kind" => .str (kindOf t)
  | .type t, "name" => nameOf t
  | .type t, "description" => descriptionOf s t
  | .field n f, "id" => (Ident.field n f).val
  | .field _ f, "name" => .str f
  | .field n f, "description" => optStr ((fieldAt s n f).bind FieldView.description)
  | .field _ _, "isDeprecated" => .bool false
  | .arg n f a, "id" => (Ident.arg n f a).val
  | .arg _ _ a, "name" => .str a
  | .arg n f a, "description" => optStr ((argOf s n f a).bind GOption.description)
  | .arg n f a, "defaultValue" => ((argOf s n f a).map (defaultOf dumps)).getD .none
  | .inputField n k, "id" => (Ident.inputField n k).val
  | .inputField _ k, "name" => .str k
  | .directiveArg n, "id" => (Ident.directiveArg n).val
  | .directiveArg _, "name" => .str "if"
  | .directiveArg n, "description" => .str (if n = "skip" then "Skipped when true." else "Included when true.")
  | .directive n, "name" => .str n
  | .directive n, "description" => .str (if n = "skip"
      then "Directs the executor to skip this field or fragment when the `if` argument is true."
      else "Directs the executor to include this field or fragment only when the `if` argument is true.")
  | .directive _, "locations" => .list [.str "FIELD", .str "FRAGMENT_SPREAD", .str "INLINE_FRAGMENT"]
  | _, _ => .none

/-- all types of the schema -/
def allTypes : List TId :=
  ["String", "Int", "Boolean", "Float", "Any"].map .scalar ++
  s.nodesMap.map (fun kv => .object kv.1) ++
  s.dataTypes.flatMap (fun kv => if isRecord kv.2 then [.object kv.1, .inputObject kv.1] else [])

/-- the value of a link of an introspection object (`none` on links of the root and of `__schema`) -/
def introLink (o : Opts) : IFun → Option Ident → Val
  | .fields, some (.type (.object n)) => .list ((fieldsOf s n).map fun f => (Ident.field n f).val)
  | .fields, _ => .list []
  | .interfaces, _ => .list []
  | .possibleTypes, _ => .list []
  | .enumValues, _ => .list []
  | .inputFields, some (.type (.inputObject n)) =>
      .list (((recordType s n).getD []).map fun kv => (Ident.inputField n kv.1).val)
  | .inputFields, _ => .list []
  | .ofType, some (.type (.list t)) => t.val
  | .ofType, some (.type (.nonNull t)) => t.val
  | .ofType, _ => .nothing
  | .args, some (.field n f) =>
      .list (((fieldAt s n f).map FieldView.args).getD [] |>.map fun a => (Ident.arg n f a.name).val)
  | .fieldType, some (.field n f) => ((fieldAt s n f).map fun v => reportedType s false v.ty).getD .none
  | .inputType, some (.arg n f a) => ((argOf s n f a).bind GOption.ty |>.map (reportedType s true)).getD .none
  | .inputType, some (.inputField n k) =>
      (((recordType s n).bind fun fs => dget fs k).map (reportedType s true)).getD .none
  | .inputType, some (.directiveArg _) => (TId.nonNull (.scalar "Boolean")).val
  | .directiveArgs, some (.directive n) => .list [(Ident.directiveArg n).val]
  | .types, _ => .list ((allTypes s).map TId.val)
  | .queryType, _ => (TId.object "Query").val
  | .mutationType, _ => if s.mutation.isSome then (TId.object "Mutation").val else .nothing
  | .subscriptionType, _ => .nothing
  | .directives, _ => .list [(Ident.directive "skip").val, (Ident.directive "include").val]
  | .type, _ =>
      match dget (o.getD []) "name" with
      | some (.str n) => if (objectNode s n).isSome then (TId.object n).val else .nothing
      | _ => .nothing
  | _, _ => .none

/-! ### The objects of introspection -/

inductive TypeOk : TId → Prop
  | scalar {n : String} : n ∈ ["String", "Int", "Boolean", "Float", "Any"] → TypeOk (.scalar n)
  | object {n : String} : IsObject s n → TypeOk (.object n)
  | inputObject {n : String} : IsRecord s n → TypeOk (.inputObject n)
  | list {t : TId} : TypeOk t → TypeOk (.list t)
  | nonNull {t : TId} : TypeOk t → TypeOk (.nonNull t)

/-- the objects of the nodes of the introspection graph -/
inductive IntroObj : String → Val → Prop
  | type {t : TId} : TypeOk s t → IntroObj "__Type" t.val
  | field {n f : String} {v : FieldView} : fieldAt s n f = some v → IntroObj "__Field" (Ident.field n f).val
  | arg {n f a : String} {o : GOption} : argOf s n f a = some o → IntroObj "__InputValue" (Ident.arg n f a).val
  | inputField {n k : String} {fs : List (String × Ty)} {t : Ty} : recordType s n = some fs → dget fs k = some t →
      IntroObj "__InputValue" (Ident.inputField n k).val
  | directiveArg {n : String} : n = "skip" ∨ n = "include" → IntroObj "__InputValue" (Ident.directiveArg n).val
  | directive {n : String} : n = "skip" ∨ n = "include" → IntroObj "__Directive" (Ident.directive n).val
  | schema : IntroObj "__Schema" .none

/-- the value which a link of an introspection object gets: an identifier, or the name of a directive -/
def requiredIdent (k : IFun) (r : Option Val) : Option Ident :=
  r.bind fun v => match k, v with
    | .directiveArgs, .str n => some (.directive n)
    | _, v => Ident.ofVal v

/-- the names of the nodes of the introspection graph -/
def introNames : List String := ["__Type", "__Field", "__InputValue", "__Directive", "__EnumValue", "__Schema"]

/-- The data of a program with introspection in the graph number `gi`. -/
def introData (base gi : Nat) (D : Data) : Data where
  field f n o i :=
    if f.id < base then D.field f n o i
    else match i.bind Ident.ofVal with
      | some x => introField dumps s x n
      | none => .none
  link f r o :=
    if f.id < base then D.link f r o
    else match table[f.id - base]? with
      | some k => introLink s o k (requiredIdent k r)
      | none => .none
  proc := D.proc
  obj j nm i := if j = gi ∧ nm ∈ introNames then IntroObj s nm i else D.obj j nm i

end

/-! ### C50: graphs which can be introspected -/

/-- a name as GraphQL has it: ASCII letters, digits and underscores, not starting with a digit -/
def GraphQLName (n : List Char) : Prop :=
  ∃ c r, n = c :: r ∧ (c = '_' ∨ c.isAlpha = true) ∧ ∀ x ∈ r, x = '_' ∨ x.isAlphanum = true

/-- what is accepted as a name: the newline at the end is a defect -/
def AcceptedName (n : String) : Prop :=
  ∃ m, GraphQLName m ∧ (n.toList = m ∨ n.toList = m ++ ['\n'])

/-- names of nodes, fields, links and options are accepted, every node and root has fields -/
structure NamesOk (g : Graph) : Prop where
  nodes : ∀ n ∈ g.items, ∀ m, n.name = some m → AcceptedName m
  nonempty : ∀ n ∈ g.items, n.fields ≠ []
  items : ∀ n ∈ g.items, ∀ i ∈ n.fields, AcceptedName i.name
  options : ∀ n ∈ g.items, ∀ i ∈ n.fields, ∀ o ∈ i.options, AcceptedName o.name

/-- no name of the graph is used by the introspection -/
structure NoClash (g : Graph) : Prop where
  oneRoot : (g.items.filter fun n => n.name.isNone).length ≤ 1
  nodes : ∀ n ∈ g.items, ∀ m, n.name = some m → m ∉ introNames
  fields : ∀ n ∈ g.items, ∀ i ∈ n.fields, i.name ≠ "__typename"
  root : ∀ n ∈ g.items, n.name = none → ∀ i ∈ n.fields, i.name ≠ "__schema" ∧ i.name ≠ "__type"

end Hiku.Intro
