import Verif.Model.Graph

/-! Specification: values which are sequences, and types of links -/

namespace Hiku

/-- `xs` are the items of the Python sequence: lists, tuples, lists and tuples of EDN, and strings.  Sets, dicts, numbers
and other objects are not sequences. -/
inductive IsSequence : Val → List Val → Prop
  | list (xs) : IsSequence (.list xs) xs
  | tuple (xs) : IsSequence (.tup xs) xs
  | ednList (xs) : IsSequence (.elist xs) xs
  | ednTuple (xs) : IsSequence (.etup xs) xs
  | string (s : String) : IsSequence (.str s) (s.toList.map fun c => .str (String.singleton c))
  | keyword (s : String) : IsSequence (.kw s) (s.toList.map fun c => .str (String.singleton c))
  | symbol (s : String) : IsSequence (.sym s) (s.toList.map fun c => .str (String.singleton c))

/-- a link leads to one node, to a node or nothing, or to a sequence of nodes -/
inductive LinkOf : Ty → LinkType → String → Prop
  | one (n) : LinkOf (.ref n) .one n
  | maybe (n) : LinkOf (.optional (.ref n)) .maybe n
  | many (n) : LinkOf (.sequence (.ref n)) .many n

end Hiku
