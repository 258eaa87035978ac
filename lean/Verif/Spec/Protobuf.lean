import Verif.Model.Protobuf

/-! Specification for C30: what the messages keep of a query -/

namespace Hiku

/-- the options come back as `o'`: both are absent, or `ParseDict` accepts `o` and `MessageToDict` gives `o'` -/
inductive PbOpts (C : PbCodec) : Opts → Opts → Prop where
  | none : PbOpts C none none
  | some {o : List (String × Val)} {s : C.S} : C.parse o = .ok s → PbOpts C (some o) (some (C.toDict s))

mutual
/-- `i'` is `i` without its alias and with the options which come back; names are not empty -/
inductive PbItemView (C : PbCodec) : QItem → QItem → Prop where
  | field {n : String} {o o' : Opts} {a : Option String} : n ≠ "" → PbOpts C o o' → PbItemView C (.field n o a) (.field n o' none)
  | link {n : String} {o o' : Opts} {a : Option String} {q q' : QNode} : n ≠ "" → PbOpts C o o' → PbView C q q' →
      PbItemView C (.link n q o a) (.link n q' o' none)
/-- the same for the whole query; `ordered` is lost -/
inductive PbView (C : PbCodec) : QNode → QNode → Prop where
  | mk {fs fs' : List QItem} {ord : Bool} : PbItemsView C fs fs' → PbView C (.mk fs ord) (.mk fs' false)
inductive PbItemsView (C : PbCodec) : List QItem → List QItem → Prop where
  | nil : PbItemsView C [] []
  | cons {i i' : QItem} {r r' : List QItem} : PbItemView C i i' → PbItemsView C r r' → PbItemsView C (i :: r) (i' :: r')
end

mutual
/-- every item is a field or a link, and has a name -/
def PbItem.WellFormed {S : Type} : PbItem S → Prop
  | .empty => False
  | .field n _ => n ≠ ""
  | .link n m _ => n ≠ "" ∧ m.WellFormed
def PbNode.WellFormed {S : Type} : PbNode S → Prop
  | .mk items => PbWellFormed items
def PbWellFormed {S : Type} : List (PbItem S) → Prop
  | [] => True
  | i :: r => i.WellFormed ∧ PbWellFormed r
end

mutual
/-- queries without aliases and `ordered` nodes, with non-empty names, and with options which survive the conversion -/
def PbItemSafe (C : PbCodec) : QItem → Prop
  | .field n o a => n ≠ "" ∧ a = none ∧ PbOpts C o o
  | .link n q o a => n ≠ "" ∧ a = none ∧ PbOpts C o o ∧ PbSafe C q
def PbSafe (C : PbCodec) : QNode → Prop
  | .mk fs ord => ord = false ∧ PbItemsSafe C fs
def PbItemsSafe (C : PbCodec) : List QItem → Prop
  | [] => True
  | i :: r => PbItemSafe C i ∧ PbItemsSafe C r
end

end Hiku
