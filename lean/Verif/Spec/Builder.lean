import Verif.Model.Builder

/-! Specification for C48: what is written with the builder -/

namespace Hiku.Builder

def setOptions (o : List (String × Val)) : QItem → QItem
  | .field n _ a => .field n (some o) a
  | .link n q _ a => .link n q (some o) a

def setAlias (a : String) : QItem → QItem
  | .field n o _ => .field n o (some a)
  | .link n q o _ => .link n q o (some a)

/-- nothing but a name: neither options nor an alias nor items (`{}`, `''` and `()` are nothing too) -/
def Bare : QItem → Prop
  | .field _ o a => (o = none ∨ o = some []) ∧ (a = none ∨ a = some "")
  | .link _ q o a => q.fields = [] ∧ (o = none ∨ o = some []) ∧ (a = none ∨ a = some "")

mutual
/-- the item of a query which a handle in a variable stands for -/
inductive Denotes (hp : Heap) : Obj → QItem → Prop
  | field {k : Nat} {h : Handle} {n : String} : hp[k]? = some h → h.name = some n → h.items = none →
      Denotes hp (.handle k) (.field n h.options h.alias_)
  | link {k : Nat} {h : Handle} {n : String} {os : List Obj} {is : List QItem} : hp[k]? = some h → h.name = some n →
      h.items = some os → DenotesAll hp os is → Denotes hp (.handle k) (.link n (.mk is false) h.options h.alias_)
inductive DenotesAll (hp : Heap) : List Obj → List QItem → Prop
  | nil : DenotesAll hp [] []
  | cons {o : Obj} {i : QItem} {os : List Obj} {is : List QItem} : Denotes hp o i → DenotesAll hp os is →
      DenotesAll hp (o :: os) (i :: is)
end

mutual
/-- the written item: names, options, aliases and nesting as they are in the text of the expression.  Variables
stand for the items of their handles. -/
inductive Writes (hp : Heap) : Ex → QItem → Prop
  /-- `Q.name` -/
  | name (n : String) : Writes hp (.attr .q n) (.field n none none)
  /-- `x` -/
  | var {k : Nat} {i : QItem} : Denotes hp (.handle k) i → Writes hp (.var k) i
  /-- `e(a=1)` -/
  | call {e : Ex} {i : QItem} {o : List (String × Val)} : Writes hp e i → i.options = none →
      Writes hp (.call e o) (setOptions o i)
  /-- `e[x]` -/
  | index {e x : Ex} {n : String} {o : Opts} {a : Option String} {j : QItem} : Writes hp e (.field n o a) → Writes hp x j →
      Writes hp (.index e x) (.link n (.mk [j] false) o a)
  /-- `e[x, y, z]` -/
  | indexes {e : Ex} {xs : List Ex} {n : String} {o : Opts} {a : Option String} {js : List QItem} :
      Writes hp e (.field n o a) → WritesAll hp xs js → Writes hp (.indexes e xs) (.link n (.mk js false) o a)
  /-- `e << x` -/
  | shift {e x : Ex} {i j : QItem} : Writes hp e i → Bare i → Writes hp x j → Writes hp (.shift e x) (setAlias i.name j)
inductive WritesAll (hp : Heap) : List Ex → List QItem → Prop
  | nil : WritesAll hp [] []
  | cons {e : Ex} {i : QItem} {es : List Ex} {is : List QItem} : Writes hp e i → WritesAll hp es is →
      WritesAll hp (e :: es) (i :: is)
end

/-- not just a variable -/
def NotVar : Ex → Prop
  | .var _ => False
  | _ => True

mutual
/-- expressions which change only handles created by themselves: options and items are given to new handles, not to
those in variables and not to `Q` itself; names are identifiers -/
def Pure : Ex → Prop
  | .q | .other => False
  | .var _ => True
  | .attr e n => e = .q ∧ n ≠ ""
  | .index e x => NotVar e ∧ Pure e ∧ Pure x
  | .indexes e xs => NotVar e ∧ Pure e ∧ PureAll xs
  | .call e _ => NotVar e ∧ Pure e
  | .shift e x => NotVar e ∧ Pure e ∧ Pure x
def PureAll : List Ex → Prop
  | [] => True
  | e :: r => Pure e ∧ PureAll r
end

mutual
/-- variables of an expression exist -/
def Known (hp : Heap) : Ex → Prop
  | .q | .other => True
  | .var k => k < hp.length
  | .attr e _ | .call e _ => Known hp e
  | .index e x | .shift e x => Known hp e ∧ Known hp x
  | .indexes e xs => Known hp e ∧ KnownAll hp xs
def KnownAll (hp : Heap) : List Ex → Prop
  | [] => True
  | e :: r => Known hp e ∧ KnownAll hp r
end

/-- heaps of running programs: `Q` has no name and items of handles exist (`c48_reachable`) -/
structure WF (hp : Heap) : Prop where
  q : ∃ h, hp[0]? = some h ∧ h.name = none
  items : ∀ (k : Nat) (h : Handle) (os : List Obj), hp[k]? = some h → h.items = some os →
    ∀ j, Obj.handle j ∈ os → j < hp.length

mutual
/-- how deep selections are nested in an item -/
def depth : QItem → Nat
  | .field .. => 0
  | .link _ (.mk fs _) _ _ => depthAll fs + 1
def depthAll : List QItem → Nat
  | [] => 0
  | i :: r => max (depth i) (depthAll r)
end

end Hiku.Builder
