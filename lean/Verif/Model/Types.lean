import Verif.Model.Graph

/-! # hiku/types.py: classes as values

The rest of the model uses `Ty`.  Here the types are Python classes with a metaclass and a `__dict__`, as in the code;
`Props/Types.lean` shows that `Ty` with structural equality is what the notation `Sequence[Record[...]]` makes. -/

namespace Hiku.Types
open Hiku

/-- the metaclasses, types.py:21-206 -/
inductive Meta where
  | any | boolean | string | integer | float
  | optional | sequence | mapping | record | callable | typeref
  deriving DecidableEq, Repr

/-- the subclasses of `TypingMeta`, types.py:71-206: the types which have `[...]` -/
def Meta.typing : Meta → Bool
  | .any | .boolean | .string | .integer | .float => false
  | _ => true

/-- Python objects which may be given between the brackets or be kept in a class -/
inductive PyT where
  | str (s : String)
  | tup (xs : List PyT)
  | list (xs : List PyT)
  | dict (kvs : List (PyT × PyT))
  /-- `OrderedDict` -/
  | odict (kvs : List (PyT × PyT))
  /-- a class: `attrs` is its `__dict__` without the entries which all the classes with this metaclass share
  (`__module__`, `__doc__` and the descriptors are copied, types.py:83) -/
  | cls (m : Meta) (attrs : List (String × PyT))
  /-- `True`, the value of `__final__` -/
  | true
  /-- numbers and other objects which are not iterable and are equal when they have the same number -/
  | other (n : Nat)
  deriving Repr

/-- the classes of the module, types.py:27-198 -/
def base (m : Meta) : PyT := .cls m []

/-- the outcome of an operation; `none`: it never ends -/
abbrev Out (α : Type) := Option (Except Err α)

mutual
/-- Python's `==`.  Classes: `GenericMeta.__eq__`, types.py:10-12, the same metaclass and equal `__dict__`s.  Dicts are equal
when they have the same keys with equal values, `OrderedDict`s also in the same order. -/
def pyEq : PyT → PyT → Bool
  | .str a, .str b => decide (a = b)
  | .tup a, .tup b | .list a, .list b => pyEqs a b
  | .dict a, .dict b | .dict a, .odict b | .odict a, .dict b => decide (a.length = b.length) && pySub a b
  | .odict a, .odict b => pyItems a b
  | .cls m a, .cls m' b => decide (m = m') && (decide (a.length = b.length) && pyAttrs a b)
  | .true, .true => Bool.true
  | .other a, .other b => decide (a = b)
  | _, _ => Bool.false
def pyEqs : List PyT → List PyT → Bool
  | [], [] => Bool.true
  | x :: r, y :: s => pyEq x y && pyEqs r s
  | _, _ => Bool.false
/-- every key of the first dict is in the second one, with an equal value -/
def pySub : List (PyT × PyT) → List (PyT × PyT) → Bool
  | [], _ => Bool.true
  | (k, v) :: r, b => (b.any fun kv => pyEq k kv.1 && pyEq v kv.2) && pySub r b
/-- `OrderedDict.__eq__` -/
def pyItems : List (PyT × PyT) → List (PyT × PyT) → Bool
  | [], [] => Bool.true
  | (k, v) :: r, (k', v') :: s => pyEq k k' && pyEq v v' && pyItems r s
  | _, _ => Bool.false
/-- every attribute of the first class is in the second one, with an equal value -/
def pyAttrs : List (String × PyT) → List (String × PyT) → Bool
  | [], _ => Bool.true
  | (k, v) :: r, b => (match dget b k with | some v' => pyEq v v' | none => Bool.false) && pyAttrs r b
end

/-- `_maybe_typeref`, types.py:201-202 -/
def maybeRef : PyT → PyT
  | .str s => .cls .typeref [("__type_name__", .str s), ("__final__", .true)]
  | t => t

mutual
/-- objects which can be keys of a dict.  Classes cannot: `GenericMeta` has `__eq__` and no `__hash__`, types.py:5-15 -/
def PyT.hashable : PyT → Bool
  | .str _ | .true | .other _ => Bool.true
  | .tup xs => allHashable xs
  | _ => Bool.false
def allHashable : List PyT → Bool
  | [] => Bool.true
  | x :: r => x.hashable && allHashable r
end

/-- is the class parametrised: `cls.__final__`, types.py:81 -/
def isFinal (attrs : List (String × PyT)) : Bool := attrs.any fun kv => kv.1 = "__final__"

/-- an iteration: the items, or an error after nothing was produced, or items without an end.  A class with `TypingMeta`
has `__getitem__`, by which Python iterates when there is no `__iter__`: `cls[0]`, `cls[1]`, ...  Parametrised classes raise
TypeError (types.py:81-82), and so do `Mapping[0]`, `Record[0]` and `Callable[0]`, but `Optional[0]`, `Sequence[0]` and
`TypeRef[0]` are types. -/
inductive Iter where
  | items (xs : List PyT)
  | raises (e : Err)
  | endless (f : Nat → PyT)

/-- `cls[n]` for the classes which take one parameter, types.py:99-100, 119-120, 186-187 -/
def single (m : Meta) (p : PyT) : PyT :=
  match m with
  | .optional => .cls m [("__type__", maybeRef p), ("__final__", .true)]
  | .sequence => .cls m [("__item_type__", maybeRef p), ("__final__", .true)]
  | _ => .cls m [("__type_name__", p), ("__final__", .true)]

def iter : PyT → Iter
  | .str s => .items (s.toList.map fun c => .str (String.singleton c))
  | .tup xs | .list xs => .items xs
  | .dict kvs | .odict kvs => .items (kvs.map (·.1))
  | .cls m attrs =>
      if isFinal attrs then .raises .typeError
      else match m with
        | .optional | .sequence | .typeref => .endless fun n => single m (.other n)
        | _ => .raises .typeError
  | .true | .other _ => .raises .typeError

/-- `a, b = obj` -/
def unpack2 (p : PyT) : Except Err (PyT × PyT) :=
  match iter p with
  | .items [a, b] => .ok (a, b)
  | .items _ | .endless _ => .error .valueError
  | .raises e => .error e

/-- `OrderedDict((key, _maybe_typeref(val)) for key, val in items)`, types.py:161-163 -/
def recordFields (d : List (PyT × PyT)) : List PyT → Except Err (List (PyT × PyT))
  | [] => .ok d
  | x :: r => do
      let kv ← unpack2 x
      if kv.1.hashable then recordFields (dsetEq d kv.1 (maybeRef kv.2)) r else .error .typeError
where
  /-- `d[k] = v`: the place of the key stays -/
  dsetEq : List (PyT × PyT) → PyT → PyT → List (PyT × PyT)
    | [], k, v => [(k, v)]
    | (k', v') :: d, k, v => if pyEq k' k then (k', v) :: d else (k', v') :: dsetEq d k v

/-- `__cls_init__`: the attributes, types.py:99-100, 119-120, 136-139, 156-163, 174-175, 186-187 -/
def clsInit (m : Meta) (p : PyT) : Out (List (String × PyT)) :=
  match m with
  | .optional => some (.ok [("__type__", maybeRef p)])
  | .sequence => some (.ok [("__item_type__", maybeRef p)])
  | .typeref => some (.ok [("__type_name__", p)])
  | .mapping => some (do
      let kv ← unpack2 p
      .ok [("__key_type__", maybeRef kv.1), ("__value_type__", maybeRef kv.2)])
  | .record =>
      match p with
      | .dict kvs | .odict kvs => some (do
          let d ← recordFields [] (kvs.map fun kv => .tup [kv.1, kv.2])
          .ok [("__field_types__", .odict d)])
      | p => match iter p with
        | .items xs => some (do
            let d ← recordFields [] xs
            .ok [("__field_types__", .odict d)])
        | .raises e => some (.error e)
        | .endless f => some (do
            let _ ← unpack2 (f 0)
            .error .typeError)
  | .callable =>
      match iter p with
      | .items xs => some (.ok [("__arg_types__", .list (xs.map maybeRef))])
      | .raises e => some (.error e)
      | .endless _ => none
  /- not a `TypingMeta` -/
  | .any | .boolean | .string | .integer | .float => some (.error .typeError)

/-- `obj[p]`, types.py:80-86; objects which are not types are not subscripted here -/
def getitem (t : PyT) (p : PyT) : Out PyT :=
  match t with
  | .cls m attrs =>
      if m.typing && isFinal attrs then some (.error .typeError)
      else match clsInit m p with
        | some (.ok new) => some (.ok (.cls m (attrs ++ new ++ [("__final__", .true)])))
        | some (.error e) => some (.error e)
        | none => none
  | _ => some (.error .typeError)

end Hiku.Types
