import Verif.Spec.Define

/-! Specification for C58: the paths which an expression uses -/

namespace Hiku.Expr

/-- variables, with the paths of their values -/
abbrev Scope := List (String × List String)

/-- the path of the value of an expression: variables and their fields have them -/
def place (σ : Scope) : Term → Option (List String)
  | .var x _ => dget σ x
  | .get t f => (place σ t).map (· ++ [f])
  | _ => none

/-- values of the type are objects: maybe, or many of them -/
def HasRecord : Ty → Bool
  | .record _ => true
  | .sequence t | .optional t => HasRecord t
  | _ => false

/-- a function with an argument of the type reads the path in it -/
inductive TyWants : Ty → List String → Prop
  | field (fs n t) : (n, t) ∈ fs → TyWants (.record fs) [n]
  | deeper (fs n t p) : (n, t) ∈ fs → TyWants t p → TyWants (.record fs) (n :: p)
  | sequence (t p) : TyWants t p → TyWants (.sequence t) p
  | optional (t p) : TyWants t p → TyWants (.optional t) p

/-- calls of functions; `(if test a b)` is one of them -/
def asCall : Term → Option (String × List Term)
  | .call (.var f _) args => some (f, args)
  | .ite t a b => some ("if", [t, a, b])
  | _ => none

/-- the expression uses the value at the path; `vars` are the types of the global variables -/
inductive Uses (vars : List (String × Ty)) : Scope → Term → List String → Prop
  /-- variables and their fields: everything on the way to them -/
  | place (σ t path p) : place σ t = some path → p ≠ [] → p <+: path → Uses vars σ t p
  | list (σ xs x p) : x ∈ xs → Uses vars σ x p → Uses vars σ (.list xs) p
  | dict (σ kvs k x p) : (k, x) ∈ kvs → Uses vars σ x p → Uses vars σ (.dict kvs) p
  | eachCol (σ x col body p) : Uses vars σ col p → Uses vars σ (.each x col body) p
  | eachBody (σ x col body path p) : Hiku.Expr.place σ col = some path → Uses vars ((x, path) :: σ) body p →
      Uses vars σ (.each x col body) p
  | someValue (σ x e a b p) : Uses vars σ e p → Uses vars σ (.ifSome x e a b) p
  | someThen (σ x e a b path p) : Hiku.Expr.place σ e = some path → Uses vars ((x, path) :: σ) a p →
      Uses vars σ (.ifSome x e a b) p
  | someElse (σ x e a b p) : Uses vars σ b p → Uses vars σ (.ifSome x e a b) p
  /-- arguments which are not objects -/
  | arg (σ t f args g ats a ty p) : asCall t = some (f, args) → dget σ f = some [g] → dget vars g = some (.callable ats) →
      (a, ty) ∈ args.zip ats → HasRecord ty = false → Uses vars σ a p → Uses vars σ t p
  /-- objects: everything on the way to them -/
  | object (σ t f args g ats a ty path p) : asCall t = some (f, args) → dget σ f = some [g] →
      dget vars g = some (.callable ats) → (a, ty) ∈ args.zip ats → HasRecord ty = true →
      Hiku.Expr.place σ a = some path → p ≠ [] → p <+: path → Uses vars σ t p
  /-- and what the function reads in them -/
  | inside (σ t f args g ats a ty path p) : asCall t = some (f, args) → dget σ f = some [g] →
      dget vars g = some (.callable ats) → (a, ty) ∈ args.zip ats →
      Hiku.Expr.place σ a = some path → TyWants ty p → Uses vars σ t (path ++ p)

end Hiku.Expr
