import Verif.Spec.EdnText
import Verif.Model.Simple
import Verif.Model.Protobuf

/-! Specification for C61: which EDN values and which protobuf messages are queries, and which query each of them
writes down, item by item, before duplicates are merged. -/

namespace Hiku
namespace QueryText

/-- a name: a keyword, or a pair of a keyword and a map of options with keywords for keys.  The keys of a map are
distinct (`dmk` changes nothing then). -/
inductive Named : Val → String → Opts → Prop where
  | bare {n} : Named (.kw n) n none
  | opts {n} {o : List (String × Val)} :
      Named (.seq .etup [.kw n, .map .edict (o.map fun p => (.kw p.1, p.2))]) n (some (dmk o))

mutual
/-- a node is a vector of items -/
inductive Node : Val → QNode → Prop where
  | mk {xs l} : Items xs l → Node (.seq .elist xs) (.mk l false)
/-- an item is a name (a field) or a map of names to nodes (links) -/
inductive Items : List Val → List QItem → Prop where
  | nil : Items [] []
  | field {v n o r l} : Named v n o → Items r l → Items (v :: r) (.field n o none :: l)
  | links {kvs ls r l} : Links kvs ls → Items r l → Items (.map .edict kvs :: r) (ls ++ l)
inductive Links : List (Val × Val) → List QItem → Prop where
  | nil : Links [] []
  | cons {k v n o q r l} : Named k n o → Node v q → Links r l → Links ((k, v) :: r) (.link n q o none :: l)
end

mutual
/-- the query in a message: every item is a field or a link with a non-empty name; options are absent or the dict of
their message -/
inductive PbItemIs (C : PbCodec) : PbItem C.S → QItem → Prop where
  | field {n o} : n ≠ "" → PbItemIs C (.field n o) (.field n (o.map C.toDict) none)
  | link {n m o q} : n ≠ "" → PbIs C m q → PbItemIs C (.link n m o) (.link n q (o.map C.toDict) none)
inductive PbIs (C : PbCodec) : PbNode C.S → QNode → Prop where
  | mk {is l} : PbItemsAre C is l → PbIs C (.mk is) (.mk l false)
inductive PbItemsAre (C : PbCodec) : List (PbItem C.S) → List QItem → Prop where
  | nil : PbItemsAre C [] []
  | cons {i i' r l} : PbItemIs C i i' → PbItemsAre C r l → PbItemsAre C (i :: r) (i' :: l)
end

end QueryText
end Hiku
