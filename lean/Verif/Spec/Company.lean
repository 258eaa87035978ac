import Verif.Spec.Parts

/-! Specification for C70: what is asked for by one query and among other things by another one. -/

namespace Hiku.Company

mutual
/-- Everything which `q` asks for is also asked for by `Q`: under other names maybe, at other positions maybe,
and among other things maybe, at every depth. -/
def Within : QNode → QNode → Prop
  | .mk fs _, Q => WithinAll fs Q
def WithinAll : List QItem → QNode → Prop
  | [], _ => True
  | i :: r, Q => (∃ j ∈ Q.fields, WithinItem i j) ∧ WithinAll r Q
/-- the same field, or the same link with a selection which asks for as much -/
def WithinItem : QItem → QItem → Prop
  | .field n o _, j => ∃ a, j = .field n o a
  | .link n q o _, j => ∃ Q a, j = .link n Q o a ∧ Within q Q
end

mutual
/-- `ReadOff q Q x V`: the answer `x` to the query `q` can be read off the answer `V` to the query `Q`: its keys are
the result keys of `q`, in the order of `q`, and under the key of every item stands what stands in `V` under
the key of any item of `Q` which asks for as much. -/
inductive ReadOff : QNode → QNode → Val → Val → Prop
  | dict {q Q kvs KVS} : kvs.map (·.1) = q.fields.map (fun i => Val.str i.resultKey) →
      (∀ i ∈ q.fields, ∀ j ∈ Q.fields, WithinItem i j → (dget KVS (.str j.resultKey)).isSome) →
      (∀ i ∈ q.fields, ∀ j ∈ Q.fields, WithinItem i j → ∀ x V, dget kvs (.str i.resultKey) = some x →
        dget KVS (.str j.resultKey) = some V → ReadOffItem i j x V) → ReadOff q Q (.dict kvs) (.dict KVS)
/-- the same, for one item -/
inductive ReadOffItem : QItem → QItem → Val → Val → Prop
  | field {n o a a' v} : ReadOffItem (.field n o a) (.field n o a') v v
  | null {n q o a Q a'} : ReadOffItem (.link n q o a) (.link n Q o a') .none .none
  | one {n q o a Q a' x V} : ReadOff q Q x V → ReadOffItem (.link n q o a) (.link n Q o a') x V
  | many {n q o a Q a' l L} : l.length = L.length → (∀ (k : Nat) x V, l[k]? = some x → L[k]? = some V → ReadOff q Q x V) →
      ReadOffItem (.link n q o a) (.link n Q o a') (.list l) (.list L)
end

end Hiku.Company
