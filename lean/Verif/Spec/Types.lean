import Verif.Model.Types

/-! Specification for C66: the notation of types and what it means -/

namespace Hiku.Types
open Hiku

/-- a type as it is written in Python -/
inductive TExpr where
  | any | boolean | string | integer | float
  /-- the name of a type, in quotes -/
  | name (s : String)
  /-- `TypeRef['s']` -/
  | typeref (s : String)
  /-- `Optional[e]` -/
  | optional (e : TExpr)
  | sequence (e : TExpr)
  /-- `Mapping[k, v]` -/
  | mapping (k v : TExpr)
  /-- `Record[{...}]` -/
  | record (fs : List (String × TExpr))
  /-- `Record[[(k, v), ...]]` -/
  | pairs (fs : List (String × TExpr))
  /-- `Callable[a, b, ...]` -/
  | callable (args : List TExpr)

def TExpr.isName : TExpr → Bool
  | .name _ => true
  | _ => false

mutual
/-- the type which is meant: names are references, a field of a record which is written twice has the later type -/
def TExpr.ty : TExpr → Ty
  | .any => .any
  | .boolean => .boolean
  | .string => .string
  | .integer => .integer
  | .float => .float
  | .name s | .typeref s => .ref s
  | .optional e => .optional e.ty
  | .sequence e => .sequence e.ty
  | .mapping k v => .mapping k.ty v.ty
  | .record fs | .pairs fs => .record (dmk (tyFields fs))
  | .callable args => .callable (tyArgs args)
def tyFields : List (String × TExpr) → List (String × Ty)
  | [] => []
  | (k, e) :: r => (k, e.ty) :: tyFields r
def tyArgs : List TExpr → List Ty
  | [] => []
  | e :: r => e.ty :: tyArgs r
end

/-- `x` after another operation -/
def Out.bind {α β : Type} (x : Out α) (f : α → Out β) : Out β :=
  match x with
  | none => none
  | some (.error e) => some (.error e)
  | some (.ok a) => f a

/-- `Callable[a, b]` gets a tuple, and `Callable[a]` is written with the tuple `(a,)` -/
def toTup (xs : List PyT) : PyT := .tup xs

mutual
/-- what Python does with the notation, from left to right -/
def TExpr.eval : TExpr → Out PyT
  | .any => some (.ok (base .any))
  | .boolean => some (.ok (base .boolean))
  | .string => some (.ok (base .string))
  | .integer => some (.ok (base .integer))
  | .float => some (.ok (base .float))
  | .name s => some (.ok (.str s))
  | .typeref s => getitem (base .typeref) (.str s)
  | .optional e => Out.bind e.eval (getitem (base .optional))
  | .sequence e => Out.bind e.eval (getitem (base .sequence))
  | .mapping k v => Out.bind k.eval fun a => Out.bind v.eval fun b => getitem (base .mapping) (.tup [a, b])
  | .record fs => Out.bind (evalFields fs) fun kvs => getitem (base .record) (.dict (literal kvs))
  | .pairs fs => Out.bind (evalFields fs) fun kvs => getitem (base .record) (.list (kvs.map fun kv => .tup [kv.1, kv.2]))
  | .callable args => Out.bind (evalArgs args) fun xs => getitem (base .callable) (toTup xs)
def evalFields : List (String × TExpr) → Out (List (PyT × PyT))
  | [] => some (.ok [])
  | (k, e) :: r => Out.bind e.eval fun v => Out.bind (evalFields r) fun kvs => some (.ok ((.str k, v) :: kvs))
def evalArgs : List TExpr → Out (List PyT)
  | [] => some (.ok [])
  | e :: r => Out.bind e.eval fun v => Out.bind (evalArgs r) fun vs => some (.ok (v :: vs))
/-- the dict `{k: v, ...}` -/
def literal (kvs : List (PyT × PyT)) : List (PyT × PyT) := kvs.foldl (fun d kv => recordFields.dsetEq d kv.1 kv.2) []
end

mutual
/-- the class of a type: what is kept where -/
def ofTy : Ty → PyT
  | .any => .cls .any []
  | .boolean => .cls .boolean []
  | .string => .cls .string []
  | .integer => .cls .integer []
  | .float => .cls .float []
  | .ref s => .cls .typeref [("__type_name__", .str s), ("__final__", .true)]
  | .optional t => .cls .optional [("__type__", ofTy t), ("__final__", .true)]
  | .sequence t => .cls .sequence [("__item_type__", ofTy t), ("__final__", .true)]
  | .mapping k v => .cls .mapping [("__key_type__", ofTy k), ("__value_type__", ofTy v), ("__final__", .true)]
  | .record fs => .cls .record [("__field_types__", .odict (ofFields fs)), ("__final__", .true)]
  | .callable args => .cls .callable [("__arg_types__", .list (ofTys args)), ("__final__", .true)]
def ofFields : List (String × Ty) → List (PyT × PyT)
  | [] => []
  | (k, t) :: r => (.str k, ofTy t) :: ofFields r
def ofTys : List Ty → List PyT
  | [] => []
  | t :: r => ofTy t :: ofTys r
end

end Hiku.Types
