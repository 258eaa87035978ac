import Verif.Spec.Query
import Verif.Spec.Semantics
import Verif.Model.Denormalize
import Mathlib.Data.List.Forall2

/-! Specification for C67: what the result of a merged query has to do with the results of the queries it was
merged from. -/

namespace Hiku.Parts

/-- `Extends v x`: the value `v` contains the value `x`: a dict may have more keys, at every level; lists have
the same length; everything else is equal. -/
inductive Extends : Val → Val → Prop
  | refl (v) : Extends v v
  | dict {kvs kvs'} : (∀ k, (dget kvs' k).isSome → (dget kvs k).isSome) →
      (∀ k v x, dget kvs k = some v → dget kvs' k = some x → Extends v x) → Extends (.dict kvs) (.dict kvs')
  | list {l l'} : List.Forall₂ Extends l l' → Extends (.list l) (.list l')

/-- `Union v S`: the value `v` is put together from the values in `S` and from nothing else: a dict has exactly
the keys which occur in one of them, and under each key what these values have there, put together; lists are
put together position by position; everything else is the same in all of them. -/
inductive Union : Val → (Val → Prop) → Prop
  | same {v S} : (∃ x, S x) → (∀ x, S x → x = v) → Union v S
  | dict {kvs S} : (∃ x, S x) → (∀ x, S x → ∃ kvs', x = .dict kvs') →
      (∀ k v, dget kvs k = some v → Union v fun x => ∃ kvs', S (.dict kvs') ∧ dget kvs' k = some x) →
      (∀ k kvs', dget kvs k = none → S (.dict kvs') → dget kvs' k = none) → Union (.dict kvs) S
  | list {l S} : (∃ x, S x) → (∀ x, S x → ∃ l', x = .list l' ∧ l'.length = l.length) →
      (∀ (j : Nat) v, l[j]? = some v → Union v fun x => ∃ l', S (.list l') ∧ l'[j]? = some x) →
      Union (.list l) S

/-- name and options of the fields and links which occur in one of the queries, at any depth -/
def Asked (nodes : List QNode) (n : String) (o : Opts) : Prop :=
  ∃ q ∈ nodes, ∃ q', Below q q' ∧ ∃ i ∈ q'.fields, i.name = n ∧ i.options = o

/-- `Gives env choose gi g q v`: the query `q`, executed on the graph `g` (number `gi`) with the schedule `choose`
until it ends, has the denormalized result `v` -/
def Gives (env : Env) (choose : Nat → List Nat → List Nat) (gi : Nat) (g : Graph) (q : QNode) (v : Val) : Prop :=
  ∃ N, ∀ fuel inner, N < fuel → N < inner → ∃ idx q', execute env choose inner fuel gi q = .ok (idx, q') ∧
    denormalize env.H idx g q' = .ok v

end Hiku.Parts
