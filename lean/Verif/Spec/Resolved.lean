import Verif.Model.Index

/-! Specification for C15: no dangling references -/

namespace Hiku

def refOf : Val → Option (String × Val)
  | .ref n i => some (n, i)
  | _ => none

/-- the references in a stored value: a reference or a list of references (a list is taken for a list
of references if its first element is one) -/
def refsOf : Val → List (String × Val)
  | .ref n i => [(n, i)]
  | .seq .list (.ref n i :: r) => (n, i) :: r.filterMap refOf
  | _ => []

section
variable (H : PyHash) (idx : Index)

mutual
/-- everything which the query node requests from the object is in the index, and so on for the
objects which the stored references point to -/
def Resolved (node : String) (ident : Val) : QNode → Prop
  | .mk fs _ => ResolvedItems node ident fs
def ResolvedItems (node : String) (ident : Val) : List QItem → Prop
  | [] => True
  | i :: r => ResolvedItem node ident i ∧ ResolvedItems node ident r
def ResolvedItem (node : String) (ident : Val) : QItem → Prop
  | .field n o _ => ∃ v, dget idx (node, ident, indexKey H n o) = some v
  | .link n q o _ => ∃ v, dget idx (node, ident, indexKey H n o) = some v ∧
      ∀ r ∈ refsOf v, Resolved r.1 r.2 q
end

end

end Hiku
