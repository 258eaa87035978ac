import Verif.Model.SubExpr

/-! Specification for C63: the functions of an expression -/

namespace Hiku.SubExpr

/-- the function `f` is called somewhere in the expression -/
inductive Calls (f : String) : Src → Prop
  | here (args) : Calls f (.call f args)
  | arg {g args a} : a ∈ args → Calls f a → Calls f (.call g args)
  | item {xs x} : x ∈ xs → Calls f x → Calls f (.list xs)
  | value {kvs k x} : (k, x) ∈ kvs → Calls f x → Calls f (.dict kvs)

/-- a way to list the items of a set -/
def Lists (order : List String → List String) : Prop := ∀ l, (order l).Perm l

end Hiku.SubExpr
