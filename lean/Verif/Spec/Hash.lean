import Verif.Model.Query

/-! # Specification: equality of Python values up to the insertion order of dicts -/

namespace Hiku

mutual
/-- Python's `==` on nested options: dicts are compared as mappings (insertion order does not
matter), lists item by item, anything else is compared literally.  (Cross-type equalities like
`1 == True` are not included.) -/
inductive PyEq : Val → Val → Prop where
  | refl (v) : PyEq v v
  | list {xs ys} : PyEqList xs ys → PyEq (.list xs) (.list ys)
  | dict {k k' xs xs' ys ys'} : xs.Perm xs' → PyEqKvs xs' ys' → ys'.Perm ys →
      PyEq (.map k xs) (.map k' ys)
inductive PyEqList : List Val → List Val → Prop where
  | nil : PyEqList [] []
  | cons {x y xs ys} : PyEq x y → PyEqList xs ys → PyEqList (x :: xs) (y :: ys)
inductive PyEqKvs : List (Val × Val) → List (Val × Val) → Prop where
  | nil : PyEqKvs [] []
  | cons {k v w xs ys} : PyEq v w → PyEqKvs xs ys → PyEqKvs ((k, v) :: xs) ((k, w) :: ys)
end

/-- keys which Python can sort: all are strings, or all are keywords, or all are ints -/
def OneKind (ks : List Val) : Prop :=
  (∀ k ∈ ks, ∃ s, k = .str s) ∨ (∀ k ∈ ks, ∃ s, k = .kw s) ∨ (∀ k ∈ ks, ∃ i, k = .int i)

mutual
/-- every dict inside the value has distinct keys which can be sorted (values from JSON have only strings) -/
def Sortable : Val → Prop
  | .atom _ => True
  | .seq _ xs => SortableList xs
  | .map _ kvs => OneKind (kvs.map (·.1)) ∧ SortableKvs kvs ∧ (kvs.map (·.1)).Nodup
  | .tagged _ v => Sortable v
  | .ref _ v => Sortable v
def SortableList : List Val → Prop
  | [] => True
  | x :: xs => Sortable x ∧ SortableList xs
def SortableKvs : List (Val × Val) → Prop
  | [] => True
  | (_, v) :: r => Sortable v ∧ SortableKvs r
end

/-- the dicts in the options of a query item can be sorted -/
def OptsSortable (o : List (String × Val)) : Prop :=
  (o.map (·.1)).Nodup ∧ ∀ kv ∈ o, Sortable kv.2

/-- An idealised hash without collisions.  CPython's `hash` is not like this. -/
structure HashInjective (H : PyHash) : Prop where
  atom : ∀ a b, H.atom a = H.atom b → a = b
  pairs : ∀ a b, H.pairs a = H.pairs b → a = b
  ints : ∀ a b, H.ints a = H.ints b → a = b
  atom_pairs : ∀ a b, H.atom a ≠ H.pairs b
  atom_ints : ∀ a b, H.atom a ≠ H.ints b
  pairs_ints : ∀ a b, H.pairs a ≠ H.ints b

end Hiku
