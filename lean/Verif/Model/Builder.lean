import Verif.Model.Query

/-! # hiku/builder.py: building queries with `Q` -/

namespace Hiku.Builder

/-- something in a tuple of items: a handle (its number in the heap) or anything else -/
inductive Obj where
  | handle (k : Nat)
  | other
  deriving DecidableEq

/-- `Handle.__init__`, builder.py:6-10 -/
structure Handle where
  name : Option String := none
  options : Opts := none
  alias_ : Option String := none
  items : Option (List Obj) := none

/-- all handles created by the process; number 0 is the global `Q`, builder.py:41 -/
abbrev Heap := List Handle

/-- the heap when the module was imported -/
def start : Heap := [{}]

/-- `self.__class__(...)`: a new handle -/
def alloc (hp : Heap) (h : Handle) : Obj × Heap := (.handle hp.length, hp ++ [h])

/-- `Handle.__getattr__`, builder.py:12-14.  Simplification: names which every Python object has (`__class__`,
`__doc__`, ...) are found before `__getattr__` is called; they are not represented.  For other objects
AttributeError. -/
def getattr (hp : Heap) (o : Obj) (n : String) : Except Err (Obj × Heap) :=
  match o with
  | .other => .error .attributeError
  | .handle k =>
      match hp[k]? with
      | none => .error .attributeError
      | some h => if h.name.isSome then .error .assertionError else .ok (alloc hp { name := some n })

/-- the argument of `__getitem__`: one object or a tuple -/
inductive Index where
  | one (o : Obj)
  | tuple (os : List Obj)

/-- builder.py:18-21; an object which is neither a handle nor a tuple is an AssertionError -/
def itemsOf : Index → Except Err (List Obj)
  | .one (.handle k) => .ok [.handle k]
  | .one .other => .error .assertionError
  | .tuple os => .ok os

/-- `Handle.__getitem__`, builder.py:16-23: changes the handle in place -/
def getitem (hp : Heap) (o : Obj) (ix : Index) : Except Err (Obj × Heap) :=
  match o with
  | .other => .error .typeError
  | .handle k =>
      match hp[k]? with
      | none => .error .typeError
      | some h =>
          if h.items.isSome then .error .assertionError else
            match itemsOf ix with
            | .error e => .error e
            | .ok os => .ok (.handle k, hp.set k { h with items := some os })

/-- `not self.__field_options__` -/
def noOptions : Opts → Bool
  | none | some [] => true
  | _ => false

/-- `not self.__field_alias__` -/
def noAlias : Option String → Bool
  | none | some "" => true
  | _ => false

/-- `not self.__node_items__` -/
def noItems : Option (List Obj) → Bool
  | none | some [] => true
  | _ => false

/-- `Handle.__lshift__`, builder.py:25-33 -/
def lshift (hp : Heap) (o p : Obj) : Except Err (Obj × Heap) :=
  match o with
  | .other => .error .typeError
  | .handle k =>
      match hp[k]?, p with
      | none, _ => .error .typeError
      | some _, .other => .error .assertionError
      | some h, .handle j =>
          match hp[j]? with
          | none => .error .assertionError
          | some t =>
              if noOptions h.options && noAlias h.alias_ && noItems h.items then
                .ok (alloc hp { name := t.name, options := t.options, alias_ := h.name, items := t.items })
              else .error .assertionError

/-- `Handle.__call__`, builder.py:35-38: changes the handle in place -/
def call (hp : Heap) (o : Obj) (options : List (String × Val)) : Except Err (Obj × Heap) :=
  match o with
  | .other => .error .typeError
  | .handle k =>
      match hp[k]? with
      | none => .error .typeError
      | some h =>
          if h.options.isSome then .error .assertionError else
            .ok (.handle k, hp.set k { h with options := some options })

/-! ## Programs: Python expressions over handles -/

/-- expressions of a program which uses the builder -/
inductive Ex where
  | q                                                  -- `Q`
  | var (k : Nat)                                      -- a variable with a handle
  | other                                              -- anything else, e.g. `'name'`
  | attr (e : Ex) (n : String)                         -- `e.n`
  | index (e x : Ex)                                   -- `e[x]`
  | indexes (e : Ex) (xs : List Ex)                    -- `e[x, y, z]`, `e[()]`
  | call (e : Ex) (options : List (String × Val))      -- `e(a=1, b=2)`
  | shift (e x : Ex)                                   -- `e << x`

mutual
/-- evaluation of an expression, from left to right, as Python does -/
def eval : Heap → Ex → Except Err (Obj × Heap)
  | hp, .q => .ok (.handle 0, hp)
  | hp, .var k => .ok (.handle k, hp)
  | hp, .other => .ok (.other, hp)
  | hp, .attr e n =>
      match eval hp e with
      | .error x => .error x
      | .ok (o, hp) => getattr hp o n
  | hp, .index e x =>
      match eval hp e with
      | .error x => .error x
      | .ok (o, hp) =>
          match eval hp x with
          | .error x => .error x
          | .ok (p, hp) => getitem hp o (.one p)
  | hp, .indexes e xs =>
      match eval hp e with
      | .error x => .error x
      | .ok (o, hp) =>
          match evalList hp xs with
          | .error x => .error x
          | .ok (ps, hp) => getitem hp o (.tuple ps)
  | hp, .call e options =>
      match eval hp e with
      | .error x => .error x
      | .ok (o, hp) => call hp o options
  | hp, .shift e x =>
      match eval hp e with
      | .error x => .error x
      | .ok (o, hp) =>
          match eval hp x with
          | .error x => .error x
          | .ok (p, hp) => lshift hp o p
def evalList : Heap → List Ex → Except Err (List Obj × Heap)
  | hp, [] => .ok ([], hp)
  | hp, e :: r =>
      match eval hp e with
      | .error x => .error x
      | .ok (o, hp) =>
          match evalList hp r with
          | .error x => .error x
          | .ok (os, hp) => .ok (o :: os, hp)
end

/-! ## `build` -/

mutual
/-- the body of the loop of `build`, builder.py:63-73; `lim` is Python's recursion limit.  Objects which are not
handles have no `__field_name__`: AttributeError. -/
def buildItem : Nat → Heap → Obj → Except Err QItem
  | _, _, .other => .error .attributeError
  | lim, hp, .handle k =>
      match hp[k]? with
      | none => .error .attributeError
      | some h =>
          match h.name with
          | none => .error .assertionError
          | some n =>
              match h.items with
              | none => .ok (.field n h.options h.alias_)
              | some os =>
                  match lim with
                  | 0 => .error .recursionError
                  | lim + 1 =>
                      match buildItems lim hp os with
                      | .error e => .error e
                      | .ok is => .ok (.link n (.mk is false) h.options h.alias_)
termination_by lim _ _ => (lim, 0)
def buildItems : Nat → Heap → List Obj → Except Err (List QItem)
  | _, _, [] => .ok []
  | lim, hp, o :: r =>
      match buildItem lim hp o with
      | .error e => .error e
      | .ok i =>
          match buildItems lim hp r with
          | .error e => .error e
          | .ok is => .ok (i :: is)
termination_by lim _ os => (lim, os.length + 1)
end

/-- `build`, builder.py:44-74 -/
def build (lim : Nat) (hp : Heap) (os : List Obj) : Except Err QNode :=
  match buildItems lim hp os with
  | .error e => .error e
  | .ok is => .ok (.mk is false)

/-- `build([e1, e2, ...])` -/
def run (lim : Nat) (hp : Heap) (es : List Ex) : Except Err QNode :=
  match evalList hp es with
  | .error e => .error e
  | .ok (os, hp) => build lim hp os

end Hiku.Builder
