import Verif.Model.Val

/-! # hiku/query.py: the query representation and `merge` -/

namespace Hiku

/-- `options` attribute of query fields and links: `None` or a dict with string keys
(hiku/query.py:111-123, 129-144). -/
abbrev Opts := Option (List (String × Val))

mutual
/-- `hiku.query.Field` (query.py:111-126) and `hiku.query.Link` (query.py:129-147) -/
inductive QItem where
  | field (name : String) (options : Opts) (alias_ : Option String)
  | link (name : String) (node : QNode) (options : Opts) (alias_ : Option String)
/-- `hiku.query.Node` (query.py:150-173) -/
inductive QNode where
  | mk (fields : List QItem) (ordered : Bool)
end

namespace QItem
def name : QItem → String
  | .field n _ _ => n
  | .link n _ _ _ => n
def options : QItem → Opts
  | .field _ o _ => o
  | .link _ _ o _ => o
def alias_ : QItem → Option String
  | .field _ _ a => a
  | .link _ _ _ a => a
/-- `item.__class__ is Link` -/
def isLink : QItem → Bool
  | .field .. => false
  | .link .. => true
/-- `FieldBase.result_key`, query.py:89-94 -/
def resultKey (i : QItem) : String := i.alias_.getD i.name
end QItem

namespace QNode
def fields : QNode → List QItem
  | .mk fs _ => fs
def ordered : QNode → Bool
  | .mk _ o => o
/-- `Node.result_map`, query.py:168-170: an OrderedDict, so a later item with the same result key
replaces an earlier one -/
def resultMap (q : QNode) : List (String × QItem) := dmk (q.fields.map fun f => (f.resultKey, f))
/-- `Node.fields_map`, query.py:164-166 -/
def fieldsMap (q : QNode) : List (String × QItem) := dmk (q.fields.map fun f => (f.name, f))
end QNode

/-! ## Option hashes -/

/-- Python's `hash` builtin, as far as `_compute_hash` uses it.  Nothing is assumed about it:
`atom` is `hash(obj)` for values which are neither dict nor list, `pairs` is the hash of a tuple of
pairs of ints, `ints` is the hash of a tuple of ints. -/
structure PyHash where
  atom : Val → Int
  pairs : List (Int × Int) → Int
  ints : List Int → Int

/-- Python's `<=` on dict keys as used by `sorted(obj.items())` (query.py:57).  Keys of one dict are
distinct, so only the keys are compared.  Strings compare by code points, ints as numbers.
Simplification: Python raises TypeError for keys of incomparable types; here they count as equal and
the (stable) sort keeps their order. -/
def keyLe : Val → Val → Bool
  | .atom (.str a), .atom (.str b) => decide (a ≤ b)
  | .atom (.kw a), .atom (.kw b) => decide (a ≤ b)
  | .atom (.int a), .atom (.int b) => decide (a ≤ b)
  | _, _ => true

/-- insertion into a sorted list (used by `sortBy`) -/
def insertBy {α : Type} (le : α → α → Bool) (x : α) : List α → List α
  | [] => [x]
  | y :: ys => if le x y then x :: y :: ys else y :: insertBy le x ys

/-- Python's `sorted` (stable) with the comparison `le` -/
def sortBy {α : Type} (le : α → α → Bool) (l : List α) : List α := l.foldr (insertBy le) []

mutual
/-- `_compute_hash`, query.py:54-61.  The recursive hashes of the items are computed before the sort
(the sort compares only the distinct keys, so the order of the two steps does not matter). -/
def computeHash (H : PyHash) : Val → Int
  | .map _ kvs => H.pairs ((sortBy (fun a b => keyLe a.1 b.1) (hashKvs H kvs)).map (·.2))
  | .seq .list xs => H.ints (hashList H xs)
  | .seq k xs => H.atom (.seq k xs)
  | .atom a => H.atom (.atom a)
  | .tagged t v => H.atom (.tagged t v)
  | .ref n i => H.atom (.ref n i)
def hashList (H : PyHash) : List Val → List Int
  | [] => []
  | x :: xs => computeHash H x :: hashList H xs
def hashKvs (H : PyHash) : List (Val × Val) → List (Val × (Int × Int))
  | [] => []
  | (k, v) :: r => (k, (computeHash H k, computeHash H v)) :: hashKvs H r
end

/-- the options dict as a Python value -/
def optsVal (o : List (String × Val)) : Val := .dict (o.map fun kv => (.str kv.1, kv.2))

/-- `FieldBase.options_hash`, query.py:96-101: `None` for `None` and for the empty dict -/
def optionsHash (H : PyHash) : Opts → Option Int
  | none => none
  | some [] => none
  | some (kv :: r) => some (computeHash H (optsVal (kv :: r)))

/-- `FieldBase.index_key`, query.py:103-108 -/
def indexKey (H : PyHash) (name : String) (o : Opts) : String :=
  match optionsHash H o with
  | some h => name ++ "[" ++ toString h ++ "]"
  | none => name

def QItem.indexKey (H : PyHash) (i : QItem) : String := Hiku.indexKey H i.name i.options

/-! ## merge -/

/-- `key = (field.name, field.options_hash, field.alias)`, query.py:182 -/
abbrev MKey := String × Option Int × Option String

/-- the fields yielded by the first loop of `_merge`, query.py:176-194; `seen` is the set `fields` -/
def mergeFields (H : PyHash) (seen : List MKey) : List QItem → List QItem
  | [] => []
  | .field n o a :: r =>
      if (n, optionsHash H o, a) ∈ seen then mergeFields H seen r
      else .field n o a :: mergeFields H ((n, optionsHash H o, a) :: seen) r
  | .link .. :: r => mergeFields H seen r

/-- one group of `to_merge` together with the head link stored in `links`, query.py:176-194 -/
structure LinkGroup where
  name : String
  options : Opts
  alias_ : Option String
  nodes : List QNode

def LinkGroup.mkey (H : PyHash) (g : LinkGroup) : MKey := (g.name, optionsHash H g.options, g.alias_)

/-- `to_merge[key] = [field.node]; links[key] = field` or `to_merge[key].append(field.node)`,
query.py:176-194 -/
def addLink (H : PyHash) (n : String) (node : QNode) (o : Opts) (a : Option String) :
    List LinkGroup → List LinkGroup
  | [] => [⟨n, o, a, [node]⟩]
  | g :: r =>
      if g.mkey H = (n, optionsHash H o, a) then { g with nodes := g.nodes ++ [node] } :: r
      else g :: addLink H n node o a r

/-- `to_merge` after the loop, query.py:176-194 -/
def linkGroups (H : PyHash) (gs : List LinkGroup) : List QItem → List LinkGroup
  | [] => gs
  | .field .. :: r => linkGroups H gs r
  | .link n node o a :: r => linkGroups H (addLink H n node o a gs) r

/-- `merge` with the depth of the recursion bounded by the first argument (query.py:176-205) -/
def mergeF (H : PyHash) : Nat → List QNode → QNode
  | 0, nodes => .mk [] (nodes.any QNode.ordered)
  | k + 1, nodes =>
      let items := nodes.flatMap QNode.fields
      .mk (mergeFields H [] items ++
            (linkGroups H [] items).map fun g => .link g.name (mergeF H k g.nodes) g.options g.alias_)
          (nodes.any QNode.ordered)

mutual
/-- nesting depth of a query -/
def QItem.depth : QItem → Nat
  | .field .. => 0
  | .link _ n _ _ => n.depth + 1
def QNode.depth : QNode → Nat
  | .mk fs _ => depthItems fs
def depthItems : List QItem → Nat
  | [] => 0
  | i :: r => max i.depth (depthItems r)
end

def depthNodes : List QNode → Nat
  | [] => 0
  | n :: r => max n.depth (depthNodes r)

/-- `hiku.query.merge`, query.py:197-205.  The recursion of the code is bounded by the nesting depth
of its input; `merge_eq` (Proofs/Merge.lean) shows that the bound is never hit and that `merge`
satisfies the recursive equation of the code. -/
def merge (H : PyHash) (nodes : List QNode) : QNode := mergeF H (depthNodes nodes + 1) nodes

end Hiku
