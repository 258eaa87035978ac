import Verif.Spec.ExprTypes

/-! Specification for C56: requirements of expressions are valid queries, and nothing but what is mentioned -/

namespace Hiku.Expr

/-- the records which are in a value of the type: named types, optional values and sequences are unpacked -/
inductive RecordIn (types : List (String × Ty)) : Ty → List (String × Ty) → Prop
  | record (fs) : RecordIn types (.record fs) fs
  | optional (t fs) : RecordIn types t fs → RecordIn types (.optional t) fs
  | sequence (t fs) : RecordIn types t fs → RecordIn types (.sequence t) fs
  | named (n t fs) : dget types n = some t → RecordIn types t fs → RecordIn types (.ref n) fs

mutual
/-- the query is valid for a record with the fields `fs`: the fields and links exist; links are requested from records,
and fields from everything else (this is left out when not `strict`) -/
def Fits (strict : Bool) (types : List (String × Ty)) (fs : List (String × Ty)) : QNode → Prop
  | .mk items _ => FitsAll strict types fs items
def FitsAll (strict : Bool) (types : List (String × Ty)) (fs : List (String × Ty)) : List QItem → Prop
  | [] => True
  | i :: r => FitsItem strict types fs i ∧ FitsAll strict types fs r
def FitsItem (strict : Bool) (types : List (String × Ty)) (fs : List (String × Ty)) : QItem → Prop
  | .field n _ _ => ∃ t, dget fs n = some t ∧ (strict = true → ∀ gs, ¬ RecordIn types t gs)
  | .link n q _ _ => ∃ t gs, dget fs n = some t ∧ RecordIn types t gs ∧ Fits strict types gs q
end

mutual
/-- types without names and without `Any` -/
def Spelled : Ty → Bool
  | .boolean | .string | .integer | .float | .mapping .. => true
  | .optional t | .sequence t => Spelled t
  | .record fs => SpelledAll fs
  | _ => false
def SpelledAll : List (String × Ty) → Bool
  | [] => true
  | (_, t) :: r => Spelled t && SpelledAll r
end

/-- types of arguments of functions: fields of inline records are spelled out -/
def ArgTy : Ty → Bool
  | .record fs => SpelledAll fs
  | .optional t | .sequence t => ArgTy t
  | _ => true

mutual
/-- the free variables which are used as values (not as functions which are called) -/
def reads : Term → List String
  | .var x _ => [x]
  | .const _ => []
  | .get t _ => reads t
  | .ite t a b => reads t ++ reads a ++ reads b
  | .ifSome x e a b => reads e ++ (reads a).filter (· ≠ x) ++ reads b
  | .each x col body => reads col ++ (reads body).filter (· ≠ x)
  | .call _ args => readsAll args
  | .list xs => readsAll xs
  | .dict kvs => readsKvs kvs
def readsAll : List Term → List String
  | [] => []
  | t :: r => reads t ++ readsAll r
def readsKvs : List (String × Term) → List String
  | [] => []
  | (_, t) :: r => reads t ++ readsKvs r
end

end Hiku.Expr
