import Verif.Model.Transform
import Verif.Model.Engine

/-! # hiku/introspection/graphql.py -/

namespace Hiku.Intro
open Hiku.Transform

/-- The identifiers of types: `SCALAR`, `OBJECT`, `INPUT_OBJECT`, `LIST`, `NON_NULL`,
introspection/graphql.py:34-39. -/
inductive TId where
  | scalar (name : String)
  | object (name : String)
  | inputObject (name : String)
  | list (t : TId)
  | nonNull (t : TId)
  deriving DecidableEq, Repr

/-- All identifiers, introspection/graphql.py:34-44: types, `DIRECTIVE`, `FieldIdent`, `FieldArgIdent`,
`InputObjectFieldIdent`, `DirectiveArgIdent`. -/
inductive Ident where
  | type (t : TId)
  | directive (name : String)
  | field (node name : String)
  | arg (node field name : String)
  | inputField (name key : String)
  | directiveArg (name : String)
  deriving DecidableEq, Repr

/-- Identifiers as Python values.  `_namedtuple`, introspection/graphql.py:14-25, makes the identifiers of
different classes different keys of dicts; here they are different values. -/
def TId.val : TId → Val
  | .scalar n => .tagged "SCALAR" (.str n)
  | .object n => .tagged "OBJECT" (.str n)
  | .inputObject n => .tagged "INPUT_OBJECT" (.str n)
  | .list t => .tagged "LIST" t.val
  | .nonNull t => .tagged "NON_NULL" t.val

def Ident.val : Ident → Val
  | .type t => t.val
  | .directive n => .tagged "DIRECTIVE" (.str n)
  | .field node n => .tagged "FieldIdent" (.tup [.str node, .str n])
  | .arg node f n => .tagged "FieldArgIdent" (.tup [.str node, .str f, .str n])
  | .inputField n k => .tagged "InputObjectFieldIdent" (.tup [.str n, .str k])
  | .directiveArg n => .tagged "DirectiveArgIdent" (.str n)

/-- the class tests (`isinstance(ident, OBJECT)` and so on) of the data functions -/
def TId.ofVal : Val → Option TId
  | .tagged c v =>
      match c, v with
      | "SCALAR", .str n => some (.scalar n)
      | "OBJECT", .str n => some (.object n)
      | "INPUT_OBJECT", .str n => some (.inputObject n)
      | "LIST", v => (TId.ofVal v).map .list
      | "NON_NULL", v => (TId.ofVal v).map .nonNull
      | _, _ => none
  | _ => none

def Ident.ofVal (v : Val) : Option Ident :=
  match v with
  | .tagged "DIRECTIVE" (.str n) => some (.directive n)
  | .tagged "FieldIdent" (.tup [.str node, .str n]) => some (.field node n)
  | .tagged "FieldArgIdent" (.tup [.str node, .str f, .str n]) => some (.arg node f n)
  | .tagged "InputObjectFieldIdent" (.tup [.str n, .str k]) => some (.inputField n k)
  | .tagged "DirectiveArgIdent" (.str n) => some (.directiveArg n)
  | v => (TId.ofVal v).map .type

/-! ### Types -/

/-- `visit_optional`, introspection/graphql.py:71-73: `ident.of_type if isinstance(ident, NON_NULL)` -/
def TId.nullable : TId → TId
  | .nonNull t => t
  | t => t

/-- `TypeIdent`, introspection/graphql.py:50-93; `input` is `input_mode`, `types` are the data types of the
query graph -/
def typeIdent (types : List (String × Ty)) (input : Bool) : Ty → Except Err TId
  | .any => .ok (.scalar "Any")
  | .mapping _ _ => .ok (.scalar "Any")
  | .record _ => .ok (.scalar "Any")
  | .callable _ => .error .typeError
  | .sequence t => do .ok (.nonNull (.list (← typeIdent types input t)))
  | .optional t => do .ok (← typeIdent types input t).nullable
  | .ref n =>
      if input then
        if dhas types n then .ok (.nonNull (.inputObject n)) else .error .assertionError
      else .ok (.nonNull (.object n))
  | .string => .ok (.nonNull (.scalar "String"))
  | .integer => .ok (.nonNull (.scalar "Int"))
  | .float => .ok (.nonNull (.scalar "Float"))
  | .boolean => .ok (.nonNull (.scalar "Boolean"))

/-! ### The data functions -/

/-- `SchemaInfo`, introspection/graphql.py:608-613 -/
structure Schema where
  query : Graph
  mutation : Option Graph := none

/-- `schema.data_types` -/
def Schema.dataTypes (s : Schema) : List (String × Ty) := s.query.dataTypes

/-- `_nodes_map`, introspection/graphql.py:134-139 -/
def Schema.nodesMap (s : Schema) : List (String × GNode) :=
  dmk ((s.query.items.filterMap fun n => n.name.map fun x => (x, n)) ++ [("Query", s.query.root)] ++
    match s.mutation with
    | none => []
    | some m => [("Mutation", m.root)])

def GItem.description : GItem → Option String
  | .field f => f.description
  | .link l => l.description

/-- an optional string as a Python value -/
def optStr : Option String → Val
  | none => .none
  | some s => .str s

/-- `type_link`, introspection/graphql.py:146-151.  (Lookup of an unhashable value raises TypeError; values are hashable in
the model.) -/
def typeLink (s : Schema) (o : Opts) : Except Err Val :=
  match dget (o.getD []) "name" with
  | none => .error .keyError
  | some (.str n) => .ok (if dhas s.nodesMap n then (TId.object n).val else .nothing)
  | some _ => .ok .nothing

def isRecord : Ty → Bool
  | .record _ => true
  | _ => false

/-- `root_schema_types`, introspection/graphql.py:154-166 -/
def schemaTypes (s : Schema) : List TId :=
  [.scalar "String", .scalar "Int", .scalar "Boolean", .scalar "Float", .scalar "Any"] ++
  s.nodesMap.map (fun kv => .object kv.1) ++
  s.dataTypes.flatMap (fun kv => if isRecord kv.2 then [.object kv.1, .inputObject kv.1] else [])

/-- the `info` dict of `type_info`, introspection/graphql.py:187-213 -/
def typeRow (s : Schema) (v : Val) : Except Err (List (String × Val)) :=
  match Ident.ofVal v with
  | some (.type (.object n)) =>
      .ok [("id", v), ("kind", .str "OBJECT"), ("name", .str n),
           ("description", match dget s.nodesMap n with
              | some node => optStr node.description
              | none => .none)]
  | some (.type (.inputObject n)) =>
      .ok [("id", v), ("kind", .str "INPUT_OBJECT"), ("name", .str ("IO" ++ n)), ("description", .none)]
  | some (.type (.nonNull _)) => .ok [("id", v), ("kind", .str "NON_NULL")]
  | some (.type (.list _)) => .ok [("id", v), ("kind", .str "LIST")]
  | some (.type (.scalar n)) => .ok [("id", v), ("name", .str n), ("kind", .str "SCALAR")]
  | _ => .error .typeError

/-- `type_info`, introspection/graphql.py:184-214; `info.get(f.name)` -/
def typeInfo (s : Schema) (qfs : List QItem) (ids : List Val) : Except Err Val := do
  let rows ← ids.mapM fun v => do
    let info ← typeRow s v
    .ok (Val.list (qfs.map fun f => (dget info f.name).getD .none))
  .ok (.list rows)

/-- `[info[f.name] for f in fields]` -/
def rowOf (info : List (String × Val)) (qfs : List QItem) : Except Err Val := do
  let cells ← qfs.mapM fun f =>
    match dget info f.name with
    | some x => Except.ok x
    | none => .error Err.keyError
  .ok (.list cells)

/-- `not f.name.startswith('_')` -/
def isPublic (n : String) : Bool :=
  match n.toList with
  | '_' :: _ => false
  | _ => true

/-- the names of the fields of an object type, introspection/graphql.py:221-237 -/
def fieldNames (s : Schema) (n : String) : Except Err (List String) := do
  let names ←
    match dget s.nodesMap n with
    | some node => Except.ok ((node.fields.map GItem.name).filter isPublic)
    | none =>
        match dget s.dataTypes n with
        | none => .error Err.keyError
        | some (.record fs) => .ok ((dmk fs).map Prod.fst)
        | some _ => .error Err.attributeError
  if names.isEmpty then .error .typeError else .ok names

/-- `type_fields_link`, introspection/graphql.py:217-240 -/
def typeFields (s : Schema) (ids : List Val) : Except Err Val := do
  let rows ← ids.mapM fun v =>
    match Ident.ofVal v with
    | some (.type (.object n)) => do
        let names ← fieldNames s n
        .ok (Val.list (names.map fun f => (Ident.field n f).val))
    | _ => .ok (.list [])
  .ok (.list rows)

/-- `type_of_type_link`, introspection/graphql.py:243-249 -/
def ofType (ids : List Val) : Except Err Val :=
  .ok (.list (ids.map fun v =>
    match Ident.ofVal v with
    | some (.type (.nonNull t)) => t.val
    | some (.type (.list t)) => t.val
    | _ => .nothing))

/-- `node.fields_map[ident.name]` -/
def nodeField (node : GNode) (f : String) : Except Err GItem :=
  match node.get f with
  | some i => .ok i
  | none => .error .keyError

/-- the `info` dict of `field_info`, introspection/graphql.py:256-269.  Identifiers of other classes are not
passed to this function; the model raises AttributeError. -/
def fieldRow (s : Schema) (v : Val) : Except Err (List (String × Val)) :=
  match Ident.ofVal v with
  | some (.field n f) =>
      match dget s.nodesMap n with
      | some node => do
          let i ← nodeField node f
          .ok [("id", v), ("name", .str i.name), ("description", optStr (GItem.description i)),
               ("isDeprecated", .bool false), ("deprecationReason", .none)]
      | none =>
          .ok [("id", v), ("name", .str f), ("description", .none), ("isDeprecated", .bool false),
               ("deprecationReason", .none)]
  | _ => .error .attributeError

/-- `field_info`, introspection/graphql.py:252-270 -/
def fieldInfo (s : Schema) (qfs : List QItem) (ids : List Val) : Except Err Val := do
  let rows ← ids.mapM fun v => do rowOf (← fieldRow s v) qfs
  .ok (.list rows)

/-- `schema.data_types[name].__field_types__[key]` -/
def recordField (s : Schema) (n k : String) : Except Err Ty :=
  match dget s.dataTypes n with
  | none => .error .keyError
  | some (.record fs) =>
      match dget (dmk fs) k with
      | some t => .ok t
      | none => .error .keyError
  | some _ => .error .attributeError

/-- `field_type_link`, introspection/graphql.py:273-285 -/
def fieldType (s : Schema) (ids : List Val) : Except Err Val := do
  let rows ← ids.mapM fun v =>
    match Ident.ofVal v with
    | some (.field n f) =>
        match dget s.nodesMap n with
        | some node => do
            let i ← nodeField node f
            .ok (← typeIdent s.dataTypes false i.ty).val
        | none => do
            let t ← recordField s n f
            .ok (← typeIdent s.dataTypes false t).val
    | _ => .error .attributeError
  .ok (.list rows)

/-- `field_args_link`, introspection/graphql.py:288-298 -/
def fieldArgs (s : Schema) (ids : List Val) : Except Err Val := do
  let rows ← ids.mapM fun v =>
    match Ident.ofVal v with
    | some (.field n f) =>
        match dget s.nodesMap n with
        | some node => do
            let i ← nodeField node f
            .ok (Val.list (i.options.map fun o => (Ident.arg n i.name o.name).val))
        | none => .ok (.list [])
    | _ => .error .attributeError
  .ok (.list rows)

/-- `type_input_object_input_fields_link`, introspection/graphql.py:301-309 -/
def inputFields (s : Schema) (ids : List Val) : Except Err Val := do
  let rows ← ids.mapM fun v =>
    match Ident.ofVal v with
    | some (.type (.inputObject n)) =>
        match dget s.dataTypes n with
        | none => .error .keyError
        | some (.record fs) => .ok (Val.list ((dmk fs).map fun kv => (Ident.inputField n kv.1).val))
        | some _ => .error .attributeError
    | _ => .ok (.list [])
  .ok (.list rows)

/-- `field.options_map[name]` of the field or link `f` of the object type `n` -/
def fieldOption (s : Schema) (n f a : String) : Except Err GOption :=
  match dget s.nodesMap n with
  | none => .error .keyError
  | some node => do
      let i ← nodeField node f
      match dget (dmk (i.options.map fun o => (o.name, o))) a with
      | some o => .ok o
      | none => .error .keyError

/-- `_arg_descriptions`, introspection/graphql.py:312-319 -/
def argDescriptions : List (String × Val) :=
  [("include", .str "Included when true."), ("skip", .str "Skipped when true.")]

section
variable (dumps : Val → Except Err String)

/-- introspection/graphql.py:330-333 -/
def defaultValue (o : GOption) : Except Err Val :=
  if o.dflt = .nothing then .ok .none
  else match dumps o.dflt with
    | .ok x => .ok (.str x)
    | .error e => .error e

/-- the `info` dict of `input_value_info`, introspection/graphql.py:326-352; `dumps` is `json.dumps` -/
def inputRow (s : Schema) (v : Val) : Except Err (List (String × Val)) :=
  match Ident.ofVal v with
  | some (.arg n f a) => do
      let o ← fieldOption s n f a
      let d ← defaultValue dumps o
      .ok [("id", v), ("name", .str o.name), ("description", optStr o.description), ("defaultValue", d)]
  | some (.inputField _ k) =>
      .ok [("id", v), ("name", .str k), ("description", .none), ("defaultValue", .none)]
  | some (.directiveArg n) =>
      match dget argDescriptions n with
      | some d => .ok [("id", v), ("name", .str "if"), ("description", d), ("defaultValue", .none)]
      | none => .error .keyError
  | _ => .error .typeError

/-- `input_value_info`, introspection/graphql.py:322-352 -/
def inputInfo (s : Schema) (qfs : List QItem) (ids : List Val) : Except Err Val := do
  let rows ← ids.mapM fun v => do rowOf (← inputRow dumps s v) qfs
  .ok (.list rows)

end

/-- `input_value_type_link`, introspection/graphql.py:355-372; `type_ident.visit(None)` is an AttributeError -/
def inputType (s : Schema) (ids : List Val) : Except Err Val := do
  let rows ← ids.mapM fun v =>
    match Ident.ofVal v with
    | some (.arg n f a) => do
        let o ← fieldOption s n f a
        match o.ty with
        | none => .error Err.attributeError
        | some t => do .ok (← typeIdent s.dataTypes true t).val
    | some (.inputField n k) => do
        let t ← recordField s n k
        .ok (← typeIdent s.dataTypes true t).val
    | some (.directiveArg _) => .ok (TId.nonNull (.scalar "Boolean")).val
    | _ => .error .typeError
  .ok (.list rows)

/-- `_directive_descriptions`, introspection/graphql.py:375-384 -/
def directiveDescriptions : List (String × Val) :=
  [("include", .str ("Directs the executor to include this field or fragment " ++
      "only when the `if` argument is true.")),
   ("skip", .str ("Directs the executor to skip this field or fragment " ++
      "when the `if` argument is true."))]

def directiveRow (v : Val) : Except Err (List (String × Val)) :=
  match Ident.ofVal v with
  | some (.directive n) =>
      .ok [("name", .str n), ("description", (dget directiveDescriptions n).getD .none),
           ("locations", .list [.str "FIELD", .str "FRAGMENT_SPREAD", .str "INLINE_FRAGMENT"])]
  | _ => .error .attributeError

/-- `directive_value_info`, introspection/graphql.py:387-393 -/
def directiveInfo (qfs : List QItem) (ids : List Val) : Except Err Val := do
  let rows ← ids.mapM fun v => do rowOf (← directiveRow v) qfs
  .ok (.list rows)

/-- `directive_args_link`, introspection/graphql.py:396-397; its `ids` are the names of directives -/
def directiveArgs (ids : List Val) : Except Err Val :=
  .ok (.list (ids.map fun v =>
    match v with
    | .str n => Val.list [(Ident.directiveArg n).val]
    | _ => .list []))

/-! ### The introspection graph -/

/-- The functions of `GRAPH`, introspection/graphql.py:400-481, bound to the schema: `BindToSchema`,
introspection/graphql.py:543-560, makes one function for all fields with one function and a function of
its own for every link. -/
inductive IFun where
  | typeInfo | fieldInfo | inputInfo | directiveInfo | notImplemented
  | fields | interfaces | possibleTypes | enumValues | inputFields | ofType
  | args | fieldType | inputType | directiveArgs
  | types | queryType | mutationType | subscriptionType | directives
  | schema | type
  deriving DecidableEq, Repr

def table : List IFun :=
  [.typeInfo, .fieldInfo, .inputInfo, .directiveInfo, .notImplemented,
   .fields, .interfaces, .possibleTypes, .enumValues, .inputFields, .ofType,
   .args, .fieldType, .inputType, .directiveArgs,
   .types, .queryType, .mutationType, .subscriptionType, .directives,
   .schema, .type]

/-- the number of a function, when the functions of the program have numbers below `base` -/
def IFun.func (base : Nat) (f : IFun) : PFunc := { id := base + table.idxOf f }

/-- calls of the functions of the introspection graph, with `na_maybe`, `na_many`, `schema_link`,
`root_schema_*`, `not_implemented`, introspection/graphql.py:119-131, 142-181 -/
def callI (dumps : Val → Except Err String) (s : Schema) : IFun → List Arg → Except Err Val
  | .typeInfo, [.fields qfs, .ids ids] => typeInfo s qfs ids
  | .fieldInfo, [.fields qfs, .ids ids] => fieldInfo s qfs ids
  | .inputInfo, [.fields qfs, .ids ids] => inputInfo dumps s qfs ids
  | .directiveInfo, [.fields qfs, .ids ids] => directiveInfo qfs ids
  | .notImplemented, _ => .error .exception
  | .fields, [.val (.list ids), .opts _] => typeFields s ids
  | .interfaces, [.val (.list ids)] => .ok (.list (ids.map fun _ => .list []))
  | .possibleTypes, [.val (.list ids)] => .ok (.list (ids.map fun _ => .list []))
  | .enumValues, [.val (.list ids), .opts _] => .ok (.list (ids.map fun _ => .list []))
  | .inputFields, [.val (.list ids)] => inputFields s ids
  | .ofType, [.val (.list ids)] => ofType ids
  | .args, [.val (.list ids)] => fieldArgs s ids
  | .fieldType, [.val (.list ids)] => fieldType s ids
  | .inputType, [.val (.list ids)] => inputType s ids
  | .directiveArgs, [.val (.list ids)] => directiveArgs ids
  | .types, [] => .ok (.list ((schemaTypes s).map TId.val))
  | .queryType, [] => .ok (TId.object "Query").val
  | .mutationType, [] => .ok (if s.mutation.isSome then (TId.object "Mutation").val else .nothing)
  | .subscriptionType, [] => .ok .nothing
  | .directives, [] => .ok (.list [(Ident.directive "skip").val, (Ident.directive "include").val])
  | .schema, [] => .ok .none
  | .type, [.opts o] => typeLink s o
  | _, _ => .error .typeError

section
variable (base : Nat)

def iField (n : String) (t : Option Ty) (f : IFun) : GItem :=
  .field { name := n, ty := t, func := .plain (f.func base) }

def iLink (n : String) (te : LinkType) (node : String) (f : IFun) (requires : Option String)
    (options : List GOption := []) : GItem :=
  .link { name := n, typeEnum := te, node := node, func := f.func base, requires := requires, options := options }

def includeDeprecated : GOption := { name := "includeDeprecated", ty := some .boolean, dflt := .bool false }

/-- introspection/graphql.py:401-432 -/
def typeNode : GNode where
  name := some "__Type"
  fields := [
    iField base "id" none .typeInfo, iField base "kind" (some .string) .typeInfo,
    iField base "name" (some .string) .typeInfo, iField base "description" (some .string) .typeInfo,
    iLink base "fields" .many "__Field" .fields (some "id") [includeDeprecated],
    iLink base "interfaces" .many "__Type" .interfaces (some "id"),
    iLink base "possibleTypes" .many "__Type" .possibleTypes (some "id"),
    iLink base "enumValues" .many "__EnumValue" .enumValues (some "id") [includeDeprecated],
    iLink base "inputFields" .many "__InputValue" .inputFields (some "id"),
    iLink base "ofType" .maybe "__Type" .ofType (some "id")]

/-- introspection/graphql.py:433-443 -/
def fieldNode : GNode where
  name := some "__Field"
  fields := [
    iField base "id" none .fieldInfo, iField base "name" (some .string) .fieldInfo,
    iField base "description" (some .string) .fieldInfo,
    iLink base "args" .many "__InputValue" .args (some "id"),
    iLink base "type" .one "__Type" .fieldType (some "id"),
    iField base "isDeprecated" (some .boolean) .fieldInfo,
    iField base "deprecationReason" (some .string) .fieldInfo]

/-- introspection/graphql.py:444-450 -/
def inputNode : GNode where
  name := some "__InputValue"
  fields := [
    iField base "id" none .inputInfo, iField base "name" (some .string) .inputInfo,
    iField base "description" (some .string) .inputInfo,
    iLink base "type" .one "__Type" .inputType (some "id"),
    iField base "defaultValue" (some .string) .inputInfo]

/-- introspection/graphql.py:451-457 -/
def directiveNode : GNode where
  name := some "__Directive"
  fields := [
    iField base "name" (some .string) .directiveInfo, iField base "description" (some .string) .directiveInfo,
    iField base "locations" (some (.sequence .string)) .directiveInfo,
    iLink base "args" .many "__InputValue" .directiveArgs (some "name")]

/-- introspection/graphql.py:458-463 -/
def enumNode : GNode where
  name := some "__EnumValue"
  fields := [
    iField base "name" (some .string) .notImplemented, iField base "description" (some .string) .notImplemented,
    iField base "isDeprecated" (some .boolean) .notImplemented,
    iField base "deprecationReason" (some .string) .notImplemented]

/-- introspection/graphql.py:464-475 -/
def schemaNode : GNode where
  name := some "__Schema"
  fields := [
    iLink base "types" .many "__Type" .types none,
    iLink base "queryType" .one "__Type" .queryType none,
    iLink base "mutationType" .maybe "__Type" .mutationType none,
    iLink base "subscriptionType" .maybe "__Type" .subscriptionType none,
    iLink base "directives" .many "__Directive" .directives none]

/-- introspection/graphql.py:476-480 -/
def introRoot : GNode where
  name := none
  fields := [
    iLink base "__schema" .one "__Schema" .schema none,
    iLink base "__type" .maybe "__Type" .type none [{ name := "name", ty := some .string }]]

/-- `GRAPH`, introspection/graphql.py:400-481, after `BindToSchema` -/
def introItems : List GNode :=
  [typeNode base, fieldNode base, inputNode base, directiveNode base, enumNode base, schemaNode base,
   introRoot base]

/-! ### Names -/

def isAlpha_ (c : Char) : Bool := c = '_' || ('a' ≤ c && c ≤ 'z') || ('A' ≤ c && c ≤ 'Z')
/-- `\w` with `re.ASCII` -/
def isWord (c : Char) : Bool := isAlpha_ c || ('0' ≤ c && c ≤ '9')

/-- `\w*$`: `$` matches at the end and before a newline at the end -/
def wordsEnd : List Char → Bool
  | [] => true
  | ['\n'] => true
  | c :: r => isWord c && wordsEnd r

/-- `_name_re.match`, introspection/graphql.py:485 -/
def nameMatches (n : String) : Bool :=
  match n.toList with
  | [] => false
  | c :: r => isAlpha_ c && wordsEnd r

/-- errors of `ValidateGraph`, with the path -/
inductive VErr where
  | node (name : String) | noFields (name : String) | field (path : List String) (name : String)
  | link (path : List String) (name : String) | option (path : List String) (name : String)
  deriving DecidableEq, Repr

/-- `visit_option`, introspection/graphql.py:536-540 -/
def optionErrors (path : List String) (os : List GOption) : List VErr :=
  os.flatMap fun o => if nameMatches o.name then [] else [.option path o.name]

/-- `visit_field`, `visit_link`, introspection/graphql.py:524-534; the visitor goes on to the options
(graph.py:425-431) -/
def itemErrors (path : List String) : GItem → List VErr
  | .field f => (if nameMatches f.name then [] else [.field path f.name]) ++ optionErrors path f.options
  | .link l => (if nameMatches l.name then [] else [.link path l.name]) ++ optionErrors path l.options

/-- `visit_node`, `visit_root`, introspection/graphql.py:504-522 -/
def nodeErrors (n : GNode) : List VErr :=
  match n.name with
  | some m =>
      (if nameMatches m then [] else [.node m]) ++
      (if n.fields.isEmpty then [.noFields m] else n.fields.flatMap (itemErrors [m]))
  | none => if n.fields.isEmpty then [.noFields "Root"] else n.fields.flatMap (itemErrors ["Root"])

/-- `ValidateGraph.validate`, introspection/graphql.py:495-502 -/
def validateErrors (g : Graph) : List VErr := g.items.flatMap nodeErrors

/-! ### The transformer -/

/-- the number of the function of `__typename` in the node with this name (in the graph `g`) -/
def typenameFunc (g : Graph) (nm : Option String) : PFunc :=
  { id := base + table.length + (g.items.map GNode.name).idxOf nm }

/-- `__type_name__`, introspection/graphql.py:638-640 -/
def typenameField (g : Graph) (nm : Option String) : GItem :=
  .field { name := "__typename", ty := some .string, func := .plain (typenameFunc base g nm) }

/-- `type_name_field_func`, introspection/graphql.py:582-583; the root is called "Query" in every graph,
introspection/graphql.py:650-653 -/
def callTypename (nm : Option String) : List Arg → Except Err Val
  | [.fields _] => .ok (.list [.str (nm.getD "Query")])
  | [.fields _, .ids ids] => .ok (.list (ids.map fun _ => .list [.str (nm.getD "Query")]))
  | _ => .error .typeError

/-- `visit_node`, `visit_root` and `visit_graph` of `GraphQLIntrospection`, introspection/graphql.py:645-660 -/
def introHooks (g : Graph) : Hooks Unit where
  more nm := [typenameField base g nm]
  items := introItems base

/-- `GraphQLIntrospection(query_graph, mutation_graph).visit(g)`; `AsyncGraphQLIntrospection` differs only in
that the functions are coroutines. -/
def introspect (g : Graph) : Except Err Graph :=
  if (validateErrors g).isEmpty then do
    let x ← visitGraph (introHooks base g) g ()
    .ok x.1
  else .error .valueError

/-- the program with the functions of the introspection graph; `base` must be above the numbers of all
functions of the program -/
def introWorld (dumps : Val → Except Err String) (s : Schema) (g : Graph) (W : World) : World where
  call n f args :=
    if f < base then W.call n f args
    else
      match table[f - base]? with
      | some k => callI dumps s k args
      | none =>
          match g.items[f - base - table.length]? with
          | some n => callTypename n.name args
          | none => .error .typeError
  proc := W.proc

/-- the program with introspection in the graph number `gi` -/
def introEnv (dumps : Val → Except Err String) (s : Schema) (env : Env) (gi : Nat) (g g' : Graph) : Env where
  sys := { graphs := env.sys.graphs.set gi g', subs := env.sys.subs }
  world := introWorld base dumps s g env.world
  H := env.H
  atOnce := env.atOnce

end

end Hiku.Intro
