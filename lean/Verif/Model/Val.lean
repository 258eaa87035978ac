/-!
# Python values

One inductive type for the Python values which hiku touches: option values, identifiers, results of
data functions, EDN values and the result index.  Simplifications, used everywhere:

* `float` carries an opaque token: no floating point arithmetic is modelled.
* Python's cross-type equalities (`1 == True == 1.0`) are not identified: two `Val`s are equal iff
  they have the same constructor and the same content.
* dicts are association lists in insertion order.
* sets are lists (iteration order).
-/

namespace Hiku

/-- Python exception classes raised by hiku (messages are dropped). -/
inductive Err where
  | typeError | keyError | valueError | assertionError | attributeError | nameError
  | graphValidationError | graphQLError | recursionError | exception
  deriving DecidableEq, Repr

/-- Scalar Python values. `nothing` is the sentinel class `hiku.graph.Nothing` (hiku/graph.py:19-28),
`kw`/`sym` are `hiku.edn.Keyword`/`hiku.edn.Symbol` (hiku/edn.py:27-51, `str` subclasses). -/
inductive Atom where
  | none | nothing
  | bool (b : Bool)
  | int (i : Int)
  | float (tok : String)
  | str (s : String)
  | kw (s : String)
  | sym (s : String)
  deriving DecidableEq, Repr

/-- Python sequence classes: `list`, `tuple`, `hiku.edn.List`, `hiku.edn.Tuple` (hiku/edn.py:54-63),
`set`/`frozenset` and `hiku.edn.Set` (hiku/edn.py:73-76). -/
inductive SeqKind where
  | list | tup | elist | etup | set | eset
  deriving DecidableEq, Repr

/-- `dict` and `hiku.edn.Dict` (hiku/edn.py:66-70). -/
inductive DictKind where
  | dict | edict
  deriving DecidableEq, Repr

/-- Python values. `ref` is `hiku.result.Reference` (hiku/result.py:29-37), `tagged` is
`hiku.edn.TaggedElement` (hiku/edn.py:79-90). -/
inductive Val where
  | atom (a : Atom)
  | seq (k : SeqKind) (xs : List Val)
  | map (k : DictKind) (kvs : List (Val × Val))
  | tagged (t : String) (v : Val)
  | ref (node : String) (ident : Val)
  deriving Repr

namespace Val
@[match_pattern] abbrev none : Val := .atom .none
@[match_pattern] abbrev nothing : Val := .atom .nothing
@[match_pattern] abbrev bool (b : Bool) : Val := .atom (.bool b)
@[match_pattern] abbrev int (i : Int) : Val := .atom (.int i)
@[match_pattern] abbrev float (s : String) : Val := .atom (.float s)
@[match_pattern] abbrev str (s : String) : Val := .atom (.str s)
@[match_pattern] abbrev kw (s : String) : Val := .atom (.kw s)
@[match_pattern] abbrev sym (s : String) : Val := .atom (.sym s)
@[match_pattern] abbrev list (xs : List Val) : Val := .seq .list xs
@[match_pattern] abbrev tup (xs : List Val) : Val := .seq .tup xs
@[match_pattern] abbrev elist (xs : List Val) : Val := .seq .elist xs
@[match_pattern] abbrev etup (xs : List Val) : Val := .seq .etup xs
@[match_pattern] abbrev set (xs : List Val) : Val := .seq .set xs
@[match_pattern] abbrev dict (kvs : List (Val × Val)) : Val := .map .dict kvs
@[match_pattern] abbrev edict (kvs : List (Val × Val)) : Val := .map .edict kvs

instance : Inhabited Val := ⟨.none⟩

/-! ### Decidable equality (cannot be derived for nested inductive types) -/

mutual
def beq : Val → Val → Bool
  | .atom a, .atom b => decide (a = b)
  | .seq k xs, .seq k' ys => decide (k = k') && beqList xs ys
  | .map k xs, .map k' ys => decide (k = k') && beqKvs xs ys
  | .tagged t v, .tagged t' v' => decide (t = t') && beq v v'
  | .ref n i, .ref n' i' => decide (n = n') && beq i i'
  | _, _ => false
def beqList : List Val → List Val → Bool
  | [], [] => true
  | x :: xs, y :: ys => beq x y && beqList xs ys
  | _, _ => false
def beqKvs : List (Val × Val) → List (Val × Val) → Bool
  | [], [] => true
  | (k, v) :: xs, (k', v') :: ys => beq k k' && beq v v' && beqKvs xs ys
  | _, _ => false
end

mutual
theorem beq_iff : (a b : Val) → (beq a b = true ↔ a = b)
  | .atom a, .atom b => by simp [beq]
  | .seq k xs, .seq k' ys => by simp [beq, beqList_iff xs ys]
  | .map k xs, .map k' ys => by simp [beq, beqKvs_iff xs ys]
  | .tagged t v, .tagged t' v' => by simp [beq, beq_iff v v']
  | .ref n i, .ref n' i' => by simp [beq, beq_iff i i']
  | .atom _, .seq .. | .atom _, .map .. | .atom _, .tagged .. | .atom _, .ref ..
  | .seq .., .atom _ | .seq .., .map .. | .seq .., .tagged .. | .seq .., .ref ..
  | .map .., .atom _ | .map .., .seq .. | .map .., .tagged .. | .map .., .ref ..
  | .tagged .., .atom _ | .tagged .., .seq .. | .tagged .., .map .. | .tagged .., .ref ..
  | .ref .., .atom _ | .ref .., .seq .. | .ref .., .map .. | .ref .., .tagged .. => by simp [beq]
theorem beqList_iff : (a b : List Val) → (beqList a b = true ↔ a = b)
  | [], [] => by simp [beqList]
  | x :: xs, y :: ys => by simp [beqList, beq_iff x y, beqList_iff xs ys]
  | [], _ :: _ => by simp [beqList]
  | _ :: _, [] => by simp [beqList]
theorem beqKvs_iff : (a b : List (Val × Val)) → (beqKvs a b = true ↔ a = b)
  | [], [] => by simp [beqKvs]
  | (k, v) :: xs, (k', v') :: ys => by
      simp [beqKvs, beq_iff k k', beq_iff v v', beqKvs_iff xs ys]
  | [], _ :: _ => by simp [beqKvs]
  | _ :: _, [] => by simp [beqKvs]
end

instance : DecidableEq Val := fun a b => decidable_of_iff _ (beq_iff a b)

/-- `isinstance(x, collections.abc.Sequence)`: lists, tuples (and the EDN subclasses of tuple) and
strings (`str` and its subclasses), with the items as seen by iteration/`len`.  `none` when the
value is not a `Sequence`. -/
def asSeq : Val → Option (List Val)
  | .seq .list xs | .seq .tup xs | .seq .elist xs | .seq .etup xs => some xs
  | .atom (.str s) | .atom (.kw s) | .atom (.sym s) =>
      some (s.toList.map fun c => .str (String.singleton c))
  | _ => .none

end Val

/-! ### Python dicts as association lists -/

section Dict
variable {κ ν : Type} [DecidableEq κ]

/-- `d.get(k)` / `d[k]` -/
def dget (d : List (κ × ν)) (k : κ) : Option ν :=
  match d with
  | [] => none
  | (k', v) :: r => if k' = k then some v else dget r k

/-- `d[k] = v`: keeps the position of an existing key, appends a new one. -/
def dset (d : List (κ × ν)) (k : κ) (v : ν) : List (κ × ν) :=
  match d with
  | [] => [(k, v)]
  | (k', v') :: r => if k' = k then (k, v) :: r else (k', v') :: dset r k v

/-- `d.update(pairs)` -/
def dupdate (d : List (κ × ν)) (kvs : List (κ × ν)) : List (κ × ν) :=
  kvs.foldl (fun d kv => dset d kv.1 kv.2) d

/-- `dict(pairs)` / `OrderedDict(pairs)`: later pairs win, the first position is kept. -/
def dmk (kvs : List (κ × ν)) : List (κ × ν) := dupdate [] kvs

/-- `k in d` -/
def dhas (d : List (κ × ν)) (k : κ) : Bool := (dget d k).isSome

/-- `d.pop(k, None)` on the key side -/
def derase (d : List (κ × ν)) (k : κ) : List (κ × ν) :=
  d.filter (fun kv => kv.1 ≠ k)

end Dict

end Hiku
