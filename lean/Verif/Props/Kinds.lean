import Verif.Spec.Values
import Verif.Spec.Introspection
import Verif.Proofs.Dict

/-! Values which are sequences (C10, C25), kinds of links (C10), lookup of a type (C50) -/

namespace Hiku

/-- C10, C25: exactly lists, tuples and strings are sequences for the engine and for the validation -/
theorem asSeq_exact (v : Val) (xs : List Val) : v.asSeq = some xs ↔ IsSequence v xs := by
  constructor
  · intro h
    unfold Val.asSeq at h
    split at h <;> simp only [Option.some.injEq, reduceCtorEq] at h <;> subst h
    · exact .list _
    · exact .tuple _
    · exact .ednList _
    · exact .ednTuple _
    · exact .string _
    · exact .keyword _
    · exact .symbol _
  · intro h
    cases h <;> rfl

/-- sets, dicts, numbers and None are not sequences -/
example (xs : List Val) (kvs : List (Val × Val)) (i : Int) :
    (Val.seq .set xs).asSeq = none ∧ (Val.dict kvs).asSeq = none ∧ (Val.int i).asSeq = none ∧ Val.none.asSeq = none :=
  ⟨rfl, rfl, rfl, rfl⟩

/-- C10: the kind and the node of a link are as its type says; every other type, e.g. an optional sequence, is rejected
by the constructor of links -/
theorem link_kind (t : Ty) (te : LinkType) (n : String) : getTypeEnum t = some (te, n) ↔ LinkOf t te n := by
  constructor
  · intro h
    unfold getTypeEnum at h
    split at h <;> simp only [Option.some.injEq, Prod.mk.injEq, reduceCtorEq] at h <;> obtain ⟨rfl, rfl⟩ := h
    · exact .one _
    · exact .maybe _
    · exact .many _
  · intro h
    cases h <;> rfl

example : getTypeEnum (.optional (.sequence (.ref "User"))) = none ∧ getTypeEnum (.record [("id", .integer)]) = none ∧
    getTypeEnum (.sequence (.ref "User")) = some (.many, "User") := ⟨rfl, rfl, rfl⟩

/-- the type of a link says its kind and its node -/
theorem link_type (l : GLink) : LinkOf l.ty l.typeEnum l.node := by
  cases l with
  | mk name te node func req opts d => cases te <;> constructor

namespace Intro

/-- C50: `__type(name: …)` is the object type iff the name is the name of a node; it is nothing for everything else -/
theorem type_lookup (s : Schema) (o : Opts) (v : Val) (h : dget (o.getD []) "name" = some v) :
    (∀ n, v = .str n → n ∈ s.nodesMap.map (·.1) → typeLink s o = .ok (TId.object n).val) ∧
    ((∀ n, v = .str n → n ∉ s.nodesMap.map (·.1)) → typeLink s o = .ok .nothing) := by
  unfold typeLink
  rw [h]
  refine ⟨?_, fun hn => ?_⟩
  · rintro n rfl hm
    simp only
    rw [if_pos (by simpa [dhas] using dget_isSome_iff.2 hm)]
  · split
    · rename_i h'; cases h'
    · rename_i n h'
      cases h'
      rw [if_neg (by have := mt dget_isSome_iff.1 (hn n rfl); simpa [dhas] using this)]
    · rfl

/-- the name is required -/
theorem type_lookup_noname (s : Schema) (o : Opts) (h : dget (o.getD []) "name" = none) :
    typeLink s o = .error .keyError := by
  unfold typeLink
  rw [h]

end Intro

end Hiku
