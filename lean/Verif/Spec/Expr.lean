import Verif.Model.Expr

/-! Specification for C37: the lexically scoped meaning of expressions -/

namespace Hiku.Expr

/-- expressions as their users see them -/
inductive Term where
  /-- a variable: a local one, or a global one, which is a function (`fn`) or a value -/
  | var (x : String) (fn : Bool)
  | get (t : Term) (field : String)
  | ite (test a b : Term)
  | ifSome (x : String) (e a b : Term)
  | each (x : String) (col body : Term)
  | call (f : Term) (args : List Term)
  | list (xs : List Term)
  | dict (kvs : List (String × Term))
  | const (v : Val)

/-- constants: `None`, booleans, numbers, strings -/
def plain : Val → Bool
  | .none | .bool _ | .int _ | .float _ | .str _ | .kw _ | .sym _ => true
  | _ => false

mutual
/-- the notation: `(get obj field)`, `(if test a b)`, `(if_some [x e] a b)`, `(each x col body)`, `(f arg ...)`; a
symbol is a function if the checker has found a callable type for it -/
def parse : Ex → Option Term
  | .sym n (some r) => some (.var n (isCallable r.to))
  | .sym _ none => none
  | .kw _ => none
  | .const v => if plain v then some (.const v) else none
  | .list xs => (parseAll xs).map .list
  | .dict xs => (parseKvs xs).map .dict
  | .tup (.sym n r :: args) _ =>
      if n = "get" then
        match args with
        | [obj, .sym field _] => (parse obj).map fun t => .get t field
        | _ => none
      else if n = "if" then
        match args with
        | [t, a, b] => do
            let t ← parse t
            let a ← parse a
            let b ← parse b
            some (.ite t a b)
        | _ => none
      else if n = "if_some" then
        match args with
        | [.list [.sym x _, e], a, b] => do
            let e ← parse e
            let a ← parse a
            let b ← parse b
            some (.ifSome x e a b)
        | _ => none
      else if n = "each" then
        match args with
        | [.sym x _, col, body] => do
            let col ← parse col
            let body ← parse body
            some (.each x col body)
        | _ => none
      else
        match r with
        | some r => (parseAll args).map fun as => .call (.var n (isCallable r.to)) as
        | none => none
  | .tup _ _ => none
def parseAll : List Ex → Option (List Term)
  | [] => some []
  | x :: r => do
      let a ← parse x
      let b ← parseAll r
      some (a :: b)
def parseKvs : List Ex → Option (List (String × Term))
  | [] => some []
  | .kw k :: x :: r => do
      let a ← parse x
      let b ← parseKvs r
      some ((k, a) :: b)
  | _ => none
end

mutual
/-- the value of an expression: `ρ` are the local variables, `env` are the functions, `ctx` are the global values.
`if_some` binds its variable in the first branch only, `each` in its body only. -/
def denote {M : Type → Type} [Monad M] (D : PyDom M) (env ctx : D.V) (ρ : List (String × D.V)) : Term → M D.V
  | .var x fn =>
      match dget ρ x with
      | some v => pure v
      | none => if fn then D.get env x else D.get ctx x
  | .get t f => do
      let v ← denote D env ctx ρ t
      D.get v f
  | .ite t a b => do
      let v ← denote D env ctx ρ t
      let c ← D.truthy v
      if c then denote D env ctx ρ a else denote D env ctx ρ b
  | .ifSome x e a b => do
      let v ← denote D env ctx ρ e
      if D.isNone v then denote D env ctx ρ b else denote D env ctx ((x, v) :: ρ) a
  | .each x col body => do
      let v ← denote D env ctx ρ col
      let xs ← D.iter v
      let r ← xs.mapM fun y => denote D env ctx ((x, y) :: ρ) body
      pure (D.list r)
  | .call f args => do
      let g ← denote D env ctx ρ f
      let as ← denotes D env ctx ρ args
      D.call g as
  | .list xs => do
      let r ← denotes D env ctx ρ xs
      pure (D.list r)
  | .dict kvs => do
      let r ← denoteKvs D env ctx ρ kvs
      pure (D.dict r)
  | .const v => pure (D.const v)
def denotes {M : Type → Type} [Monad M] (D : PyDom M) (env ctx : D.V) (ρ : List (String × D.V)) : List Term → M (List D.V)
  | [] => pure []
  | t :: r => do
      let a ← denote D env ctx ρ t
      let b ← denotes D env ctx ρ r
      pure (a :: b)
def denoteKvs {M : Type → Type} [Monad M] (D : PyDom M) (env ctx : D.V) (ρ : List (String × D.V)) :
    List (String × Term) → M (List (String × D.V))
  | [] => pure []
  | (k, t) :: r => do
      let a ← denote D env ctx ρ t
      let b ← denoteKvs D env ctx ρ r
      pure ((k, a) :: b)
end

mutual
/-- the variables which are bound somewhere in the expression -/
def binders : Term → List String
  | .var .. | .const _ => []
  | .get t _ => binders t
  | .ite t a b => binders t ++ binders a ++ binders b
  | .ifSome x e a b => x :: (binders e ++ binders a ++ binders b)
  | .each x col body => x :: (binders col ++ binders body)
  | .call f args => binders f ++ bindersAll args
  | .list xs => bindersAll xs
  | .dict kvs => bindersKvs kvs
def bindersAll : List Term → List String
  | [] => []
  | t :: r => binders t ++ bindersAll r
def bindersKvs : List (String × Term) → List String
  | [] => []
  | (_, t) :: r => binders t ++ bindersKvs r
end

mutual
/-- the free variables -/
def free : Term → List String
  | .var x _ => [x]
  | .const _ => []
  | .get t _ => free t
  | .ite t a b => free t ++ free a ++ free b
  | .ifSome x e a b => free e ++ (free a).filter (· ≠ x) ++ free b
  | .each x col body => free col ++ (free body).filter (· ≠ x)
  | .call f args => free f ++ freeAll args
  | .list xs => freeAll xs
  | .dict kvs => freeKvs kvs
def freeAll : List Term → List String
  | [] => []
  | t :: r => free t ++ freeAll r
def freeKvs : List (String × Term) → List String
  | [] => []
  | (_, t) :: r => free t ++ freeKvs r
end

mutual
/-- the variable of an `if_some` is not used in the expression it is bound to and in the second branch -/
def SomeFresh : Term → Prop
  | .var .. | .const _ => True
  | .get t _ => SomeFresh t
  | .ite t a b => SomeFresh t ∧ SomeFresh a ∧ SomeFresh b
  | .ifSome x e a b => x ∉ free e ∧ x ∉ free b ∧ SomeFresh e ∧ SomeFresh a ∧ SomeFresh b
  | .each _ col body => SomeFresh col ∧ SomeFresh body
  | .call f args => SomeFresh f ∧ SomeFreshAll args
  | .list xs => SomeFreshAll xs
  | .dict kvs => SomeFreshKvs kvs
def SomeFreshAll : List Term → Prop
  | [] => True
  | t :: r => SomeFresh t ∧ SomeFreshAll r
def SomeFreshKvs : List (String × Term) → Prop
  | [] => True
  | (_, t) :: r => SomeFresh t ∧ SomeFreshKvs r
end

/-- the names of the variables do not clash with generated ones (`x_2`, `x_3`, ...) and with the names which the
generated code uses itself -/
def Clean (names : List String) : Prop :=
  (∀ x ∈ names, ∀ y ∈ names, ∀ i j, genName x i = genName y j → x = y) ∧
  ∀ x ∈ names, ∀ i, genName x i ∉ ["env", "ctx", "next"]

/-- an expression for a field with the options `params` -/
structure Hygienic (params : List String) (t : Term) : Prop where
  clean : Clean ("this" :: params ++ binders t)
  distinct : ("this" :: params).Nodup
  /-- a global variable has not the name of a bound one -/
  globals : ∀ x ∈ free t, x ∉ "this" :: params → x ∉ binders t
  fresh : SomeFresh t

end Hiku.Expr
