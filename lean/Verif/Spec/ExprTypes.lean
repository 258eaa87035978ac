import Verif.Spec.Expr
import Mathlib.Data.List.Forall2

/-! Specification for C38 and C39: types of expressions, data of a type, and data for a query -/

namespace Hiku.Expr

/-! ## Types of expressions -/

/-- the named type or the type itself -/
inductive Resolves (types : List (String × Ty)) : Ty → Ty → Prop
  | named (n : String) (t : Ty) : dget types n = some t → Resolves types (.ref n) t
  | itself (t : Ty) : (∀ n, t ≠ .ref n) → Resolves types t t

/-- a value of the first type may be used as a value of the second one -/
inductive Sub (types : List (String × Ty)) : Ty → Ty → Prop
  | any (a a' b : Ty) : Resolves types a a' → Resolves types b .any → Sub types a b
  | base (a b c : Ty) : c ∈ [Ty.boolean, .string, .integer, .float] → Resolves types a c → Resolves types b c → Sub types a b
  | optional (a a' b b' : Ty) : Resolves types a (.optional a') → Resolves types b (.optional b') → Sub types a' b' →
      Sub types a b
  | present (a b b' : Ty) : Resolves types b (.optional b') → (∀ u, ¬ Resolves types a (.optional u)) → Sub types a b' →
      Sub types a b
  | sequence (a a' b b' : Ty) : Resolves types a (.sequence a') → Resolves types b (.sequence b') → Sub types a' b' →
      Sub types a b
  | mapping (a ka va b kb vb : Ty) : Resolves types a (.mapping ka va) → Resolves types b (.mapping kb vb) →
      Sub types ka kb → Sub types va vb → Sub types a b
  | record (a b : Ty) (fs gs : List (String × Ty)) (f : String → Ty) :
      Resolves types a (.record fs) → Resolves types b (.record gs) →
      (∀ kv ∈ gs, dget fs kv.1 = some (f kv.1)) → (∀ kv ∈ gs, Sub types (f kv.1) kv.2) → Sub types a b
  /-- arguments of functions are not compared -/
  | function (a b : Ty) (xs ys : List Ty) : Resolves types a (.callable xs) → Resolves types b (.callable ys) → Sub types a b

mutual
/-- there are no types of functions in the type -/
def NoFn : Ty → Bool
  | .callable _ => false
  | .optional t | .sequence t => NoFn t
  | .mapping k v => NoFn k && NoFn v
  | .record fs => NoFnAll fs
  | _ => true
def NoFnAll : List (String × Ty) → Bool
  | [] => true
  | (_, t) :: r => NoFn t && NoFnAll r
end

/-- named types are not names of other types -/
def NoAlias (types : List (String × Ty)) : Prop := ∀ n t, dget types n = some t → ∀ m, t ≠ .ref m

/-- there are no functions in named types -/
def NoFnTypes (types : List (String × Ty)) : Prop := ∀ n t, dget types n = some t → NoFn t = true

/-- global variables are values, and functions of values -/
def GoodVar (t : Ty) : Prop := NoFn t = true ∨ ∃ ats, t = .callable ats ∧ ∀ a ∈ ats, NoFn a = true

/-- the keywords of the notation -/
def special (n : String) : Bool := n = "get" || n = "each" || n = "if_some"

mutual
/-- well-typed expressions: `Γ` are the types of the variables; the last argument is the type of the value, if it is known
(results of functions, lists and constants have no known types) -/
inductive HasTy (types : List (String × Ty)) : List (String × Ty) → Ex → Option Ty → Prop
  | sym (Γ n r t) : dget Γ n = some t → HasTy types Γ (.sym n r) (some t)
  | kw (Γ n) : HasTy types Γ (.kw n) none
  | const (Γ v) : HasTy types Γ (.const v) none
  | list (Γ xs) : AllTy types Γ xs → HasTy types Γ (.list xs) none
  /-- keywords and values alternate -/
  | dict (Γ xs kvs) : xs = (kvs : List (String × Ex)).flatMap (fun kv => [.kw kv.1, kv.2]) → AllTy types Γ (kvs.map (·.2)) →
      HasTy types Γ (.dict xs) none
  /-- the object has a record type with the field, whose type is known -/
  | get (Γ h obj f fr r t fs ft ft') : h.name = some "get" → HasTy types Γ obj (some t) → Resolves types t (.record fs) →
      dget fs f = some ft → Resolves types ft ft' → HasTy types Γ (.tup [h, obj, .sym f fr] r) (some ft)
  /-- the collection has a sequence type, the type of its items is known -/
  | each (Γ h x xr col body r t it it' s) : h.name = some "each" → HasTy types Γ col (some t) →
      Resolves types t (.sequence it) → Resolves types it it' → HasTy types ((x, it) :: Γ) body s →
      HasTy types Γ (.tup [h, .sym x xr, col, body] r) none
  /-- the variable has the type of the value when it is present -/
  | ifSome (Γ h x xr e a b r t t' sa sb) : h.name = some "if_some" → HasTy types Γ e (some t) →
      (Resolves types t (.optional t') ∨ t' = t ∧ ∃ u, Resolves types t u ∧ ∀ w, u ≠ .optional w) →
      HasTy types ((x, t') :: Γ) a sa → HasTy types Γ b sb →
      HasTy types Γ (.tup [h, .list [.sym x xr, e], a, b] r) none
  /-- as many arguments as the function has, of compatible types -/
  | call (Γ f fr args r t ats) : special f = false → dget Γ f = some t → Resolves types t (.callable ats) →
      ArgsTy types Γ args ats → HasTy types Γ (.tup (.sym f fr :: args) r) none
inductive AllTy (types : List (String × Ty)) : List (String × Ty) → List Ex → Prop
  | nil (Γ) : AllTy types Γ []
  | cons (Γ x s xs) : HasTy types Γ x s → AllTy types Γ xs → AllTy types Γ (x :: xs)
inductive ArgsTy (types : List (String × Ty)) : List (String × Ty) → List Ex → List Ty → Prop
  | nil (Γ) : ArgsTy types Γ [] []
  | cons (Γ x s xs t ts) : HasTy types Γ x s → Sub types (s.getD .any) t → ArgsTy types Γ xs ts →
      ArgsTy types Γ (x :: xs) (t :: ts)
end

/-! ## Data -/

/-- what scalars and functions are, and the items of mappings -/
structure Sem (V : Type) where
  base : Ty → V → Prop
  items : V → List (V × V)

def isScalar : Ty → Bool
  | .boolean | .string | .integer | .float | .callable _ => true
  | _ => false

/-- `v` is data of the type `t` in which the fields requested by `q` can be read.  `R q f q'`: `q` requests the field
`f`, and `q'` from its value. -/
inductive Supplies (types : List (String × Ty)) (D : PyDom (Except Err)) (B : Sem D.V) {Q : Type}
    (R : Q → String → Q → Prop) : Ty → Q → D.V → Prop
  | any (q v) : Supplies types D B R .any q v
  | scalar (t q v) : isScalar t = true → B.base t v → Supplies types D B R t q v
  | none (t q v) : D.isNone v = true → Supplies types D B R (.optional t) q v
  | some (t q v) : Supplies types D B R t q v → Supplies types D B R (.optional t) q v
  | sequence (t q v xs) : D.iter v = .ok xs → (∀ x ∈ xs, Supplies types D B R t q x) →
      Supplies types D B R (.sequence t) q v
  | mapping (k t q v) : (∀ kv ∈ B.items v, Supplies types D B R k q kv.1) →
      (∀ kv ∈ B.items v, Supplies types D B R t q kv.2) → Supplies types D B R (.mapping k t) q v
  | record (fs q v) (w : String → D.V) : (∀ f t q', dget fs f = some t → R q f q' → D.get v f = .ok (w f)) →
      (∀ f t q', dget fs f = some t → R q f q' → Supplies types D B R t q' (w f)) → Supplies types D B R (.record fs) q v
  | named (n t q v) : dget types n = some t → Supplies types D B R t q v → Supplies types D B R (.ref n) q v

/-- `q` requests the field or the link `f`, and the node `q'` from it -/
def Asks (q : QNode) (f : String) (q' : QNode) : Prop :=
  (∃ o a, QItem.field f o a ∈ q.fields ∧ q' = .mk [] false) ∨ ∃ o a, QItem.link f q' o a ∈ q.fields

/-- everything is requested -/
def Everything (_ : Unit) (_ : String) (_ : Unit) : Prop := True

/-- functions do not fail when their arguments are data of the types of the arguments, in which the fields requested by
`need` can be read -/
def Functions (types : List (String × Ty)) (D : PyDom (Except Err)) (B : Sem D.V) {Q : Type}
    (R : Q → String → Q → Prop) (need : Ty → Q) : Prop :=
  ∀ (ats : List Ty) (f : D.V) (args : List D.V), B.base (.callable ats) f →
    List.Forall₂ (fun t v => Supplies types D B R t (need t) v) ats args → ∃ r, D.call f args = .ok r

/-- `v` is data of the type `t` as far as the type is spelled out: all the fields of inline records can be read.  Nothing
is said about data of named types and items of mappings. -/
inductive Declared (D : PyDom (Except Err)) (B : Sem D.V) : Ty → D.V → Prop
  | any (v) : Declared D B .any v
  | scalar (t v) : isScalar t = true → B.base t v → Declared D B t v
  | none (t v) : D.isNone v = true → Declared D B (.optional t) v
  | some (t v) : Declared D B t v → Declared D B (.optional t) v
  | sequence (t v xs) : D.iter v = .ok xs → (∀ x ∈ xs, Declared D B t x) → Declared D B (.sequence t) v
  | record (fs v) (w : String → D.V) : (∀ f t, dget fs f = some t → D.get v f = .ok (w f)) →
      (∀ f t, dget fs f = some t → Declared D B t (w f)) → Declared D B (.record fs) v
  | mapping (k t v) : Declared D B (.mapping k t) v
  | named (n v) : Declared D B (.ref n) v

/-- functions do not fail when their arguments are as declared -/
def DeclaredFunctions (D : PyDom (Except Err)) (B : Sem D.V) : Prop :=
  ∀ (ats : List Ty) (f : D.V) (args : List D.V), B.base (.callable ats) f →
    List.Forall₂ (Declared D B) ats args → ∃ r, D.call f args = .ok r

/-- the globals: functions are in `env`; the others are in `ρ` (`this` and options), or fields of `ctx`; `q` is requested -/
def Globals (types : List (String × Ty)) (D : PyDom (Except Err)) (B : Sem D.V) {Q : Type}
    (R : Q → String → Q → Prop) (q : Q) (vars : List (String × Ty)) (env ctx : D.V) (ρ : List (String × D.V)) : Prop :=
  ∀ x t, dget vars x = some t →
    match dget ρ x with
    | some v => isCallable t = false ∧ ∀ q', R q x q' → Supplies types D B R t q' v
    | none =>
        match t with
        | .callable ats => ∃ f, D.get env x = .ok f ∧ B.base (.callable ats) f
        | t => ∀ q', R q x q' → ∃ v, D.get ctx x = .ok v ∧ Supplies types D B R t q' v

mutual
/-- expressions as they are written: without references -/
def Raw : Ex → Bool
  | .sym _ r => r.isNone
  | .kw _ | .const _ => true
  | .list xs | .dict xs => RawAll xs
  | .tup xs r => r.isNone && RawAll xs
def RawAll : List Ex → Bool
  | [] => true
  | x :: r => Raw x && RawAll r
end

end Hiku.Expr
