import Verif.Model.Simple
import Verif.Spec.Edn

/-! Specification for C29: the queries which can be written as EDN, and what is read back -/

namespace Hiku

mutual
/-- how option values come back: lists as `edn.List`, sets as `edn.Set`, dicts as `edn.Dict` with keywords for keys,
scalars unchanged -/
def ednView : Val → Val
  | .seq .list xs => .seq .elist (ednViews xs)
  | .seq .set xs | .seq .eset xs => .seq .eset (mkSet (ednViews xs))
  | .map _ kvs => .map .edict (dmk (ednViewKvs kvs))
  | v => v
def ednViews : List Val → List Val
  | [] => []
  | x :: r => ednView x :: ednViews r
def ednViewKvs : List (Val × Val) → List (Val × Val)
  | [] => []
  | (.str k, v) :: r => (.kw k, ednView v) :: ednViewKvs r
  | (k, v) :: r => (k, ednView v) :: ednViewKvs r
end

mutual
/-- option values which the exporter supports: scalars, lists, sets, dicts with strings for keys -/
def Exportable : Val → Prop
  | .none | .bool _ | .int _ | .float _ | .str _ | .kw _ | .sym _ => True
  | .seq .list xs | .seq .set xs | .seq .eset xs => Exportables xs
  | .map _ kvs => ExportableKvs kvs
  | _ => False
def Exportables : List Val → Prop
  | [] => True
  | x :: r => Exportable x ∧ Exportables r
def ExportableKvs : List (Val × Val) → Prop
  | [] => True
  | (k, v) :: r => (∃ s, k = .str s) ∧ Exportable v ∧ ExportableKvs r
end

/-- names which can be written as keywords: without whitespace, commas and closing brackets -/
def KwSafe (s : String) : Prop := ∀ c ∈ s.toList, c ∉ symEnd

/-- the options can be exported, and their text can be read (C28) -/
def SimpleOpts (P : PyText) (th : String → Option (Val → Except Err Val)) (ascii : Bool) : Opts → Prop
  | none => True
  | some kvs => (kvs.map (·.1)).Nodup ∧ ∀ kv ∈ kvs, KwSafe kv.1 ∧ Exportable kv.2 ∧ EdnVal P th ascii (ednView kv.2)

mutual
/-- the queries which can be exported to EDN text and read from it -/
def SimpleItem (P : PyText) (th : String → Option (Val → Except Err Val)) (ascii : Bool) : QItem → Prop
  | .field n o _ => KwSafe n ∧ SimpleOpts P th ascii o
  | .link n q o _ => KwSafe n ∧ SimpleOpts P th ascii o ∧ SimpleQuery P th ascii q
def SimpleQuery (P : PyText) (th : String → Option (Val → Except Err Val)) (ascii : Bool) : QNode → Prop
  | .mk fs _ => SimpleItems P th ascii fs
def SimpleItems (P : PyText) (th : String → Option (Val → Except Err Val)) (ascii : Bool) : List QItem → Prop
  | [] => True
  | i :: r => SimpleItem P th ascii i ∧ SimpleItems P th ascii r
end

/-- the options which come back -/
def viewOpts (o : Opts) : Opts := o.map fun kvs => kvs.map fun kv => (kv.1, ednView kv.2)

mutual
/-- what the format keeps of a query: names, options and the nesting; aliases and `ordered` are lost -/
def viewItem : QItem → QItem
  | .field n o _ => .field n (viewOpts o) none
  | .link n q o _ => .link n (viewQuery q) (viewOpts o) none
def viewQuery : QNode → QNode
  | .mk fs _ => .mk (viewItems fs) false
def viewItems : List QItem → List QItem
  | [] => []
  | i :: r => viewItem i :: viewItems r
end

/-- scalar option values -/
def Val.Scalar : Val → Prop
  | .none | .bool _ | .int _ | .float _ | .str _ | .kw _ | .sym _ => True
  | _ => False

mutual
/-- no aliases, no `ordered` nodes (mutations), options are scalars: nothing is lost -/
def BareItem : QItem → Prop
  | .field _ o a => a = none ∧ ∀ kvs ∈ o, ∀ kv ∈ kvs, kv.2.Scalar
  | .link _ q o a => a = none ∧ (∀ kvs ∈ o, ∀ kv ∈ kvs, kv.2.Scalar) ∧ BareQuery q
def BareQuery : QNode → Prop
  | .mk fs ord => ord = false ∧ BareItems fs
def BareItems : List QItem → Prop
  | [] => True
  | i :: r => BareItem i ∧ BareItems r
end

/-- every option value comes back as it is -/
def KeptOpts (o : Opts) : Prop := ∀ kvs ∈ o, ∀ kv ∈ kvs, ednView kv.2 = kv.2

mutual
/-- no aliases, no `ordered` nodes, every option value comes back as it is -/
def KeptItem : QItem → Prop
  | .field _ o a => a = none ∧ KeptOpts o
  | .link _ q o a => a = none ∧ KeptOpts o ∧ KeptQuery q
def KeptQuery : QNode → Prop
  | .mk fs ord => ord = false ∧ KeptItems fs
def KeptItems : List QItem → Prop
  | [] => True
  | i :: r => KeptItem i ∧ KeptItems r
end

end Hiku
