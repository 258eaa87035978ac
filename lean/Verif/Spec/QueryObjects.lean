import Verif.Model.QueryObjects

/-! Specification for C71: the tree which a query object stands for. -/

namespace Hiku.QObj
open Hiku

/-- what an object was constructed with -/
def attrsAt (h : Heap) (o : Nat) : Option Attrs := (h[o]?).map Obj.attrs

mutual
/-- the object at the address is this item, with everything under it -/
inductive IsItem (h : Heap) : Nat → QItem → Prop
  | field {o n os a} : attrsAt h o = some (.field n os a) → IsItem h o (.field n os a)
  | link {o n c os a q} : attrsAt h o = some (.link n c os a) → IsNode h c q → IsItem h o (.link n q os a)
/-- the object at the address is this node, with everything under it -/
inductive IsNode (h : Heap) : Nat → QNode → Prop
  | node {o fs b is} : attrsAt h o = some (.node fs b) → IsItems h fs is → IsNode h o (.mk is b)
/-- the same for a list of addresses -/
inductive IsItems (h : Heap) : List Nat → List QItem → Prop
  | nil : IsItems h [] []
  | cons {o os i is} : IsItem h o i → IsItems h os is → IsItems h (o :: os) (i :: is)
end

mutual
/-- equality of trees, with an equality for options -/
def SameItem (E : Opts → Opts → Bool) : QItem → QItem → Prop
  | .field n o a, .field n' o' a' => n = n' ∧ E o o' = true ∧ a = a'
  | .link n q o a, .link n' q' o' a' => n = n' ∧ SameNode E q q' ∧ E o o' = true ∧ a = a'
  | _, _ => False
def SameNode (E : Opts → Opts → Bool) : QNode → QNode → Prop
  | .mk fs b, .mk fs' b' => SameItems E fs fs' ∧ b = b'
def SameItems (E : Opts → Opts → Bool) : List QItem → List QItem → Prop
  | [], [] => True
  | i :: r, j :: s => SameItem E i j ∧ SameItems E r s
  | _, _ => False
end

end Hiku.QObj
