import Verif.Model.Query

/-! # hiku/result.py: the result index and `Proxy`

The index is a nested defaultdict `index[node][ident][index_key]`.  It is flattened here to cells
`(node, ident, index_key)`.  Simplification: objects without any field are not represented (the only
observable difference is the text of the AssertionError of `Proxy.__getitem__`): `Model/NestedIndex` has the index as it is,
and C72 proves that both behave in the same way. -/

namespace Hiku

abbrev Cell := String × Val × String
abbrev Index := List (Cell × Val)

/-- `ROOT = Reference('__root__', '__root__')`, result.py:40 -/
def rootName : String := "__root__"
def rootIdent : Val := .str "__root__"

/-- `Proxy.__getitem__` down to the stored value, result.py:66-83: KeyError if the key was not
requested, AssertionError if the object or the field is missing in the index -/
def proxyCell (H : PyHash) (idx : Index) (node : String) (ident : Val) (q : QNode) (key : String) :
    Except Err (QItem × Val) :=
  match dget q.resultMap key with
  | none => .error .keyError
  | some f =>
      match dget idx (node, ident, f.indexKey H) with
      | none => .error .assertionError
      | some v => .ok (f, v)

mutual
/-- Everything which can be read through a `Proxy` (repeated `Proxy.__getitem__` for all requested
keys), as a nested dict.  Simplification: eager, so an unreadable key is an error even if the
program never reads it; items hidden by a later item with the same result key are read too. -/
def readNode (H : PyHash) (idx : Index) (node : String) (ident : Val) : QNode → Except Err Val
  | .mk fs _ => do
      let kvs ← readItems H idx node ident fs
      .ok (.dict (dmk kvs))
def readItems (H : PyHash) (idx : Index) (node : String) (ident : Val) :
    List QItem → Except Err (List (Val × Val))
  | [] => .ok []
  | i :: r => do
      let v ← readItem H idx node ident i
      let r' ← readItems H idx node ident r
      .ok ((.str i.resultKey, v) :: r')
def readItem (H : PyHash) (idx : Index) (node : String) (ident : Val) : QItem → Except Err Val
  | .field n o _ =>
      match dget idx (node, ident, indexKey H n o) with
      | none => .error .assertionError
      | some v => .ok v
  | .link n q o _ =>
      match dget idx (node, ident, indexKey H n o) with
      | none => .error .assertionError
      | some (.ref n i) => readNode H idx n i q
      | some (.seq .list (.ref n i :: r)) => do
          let l ← (Val.ref n i :: r).mapM fun v =>
            match v with
            | .ref n i => readNode H idx n i q
            | _ => .error .attributeError
          .ok (.list l)
      | some v => .ok v
end

end Hiku
