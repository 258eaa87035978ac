import Verif.Model.Expr
import Verif.Model.Simple

/-! # hiku/expr/core.py: functions annotated by the text of a query (`define('[...]')`) -/

namespace Hiku.Expr

mutual
/-- `_query_to_types` of a node, expr/core.py:71-79.  `Record[[...]]` keeps its fields in an `OrderedDict`
(types.py:146-155): of equal names the last one stays. -/
def queryToTypes : QNode → Ty
  | .mk items _ => .record (dmk (itemsToTypes items))
def itemsToTypes : List QItem → List (String × Ty)
  | [] => []
  | i :: r => itemToType i :: itemsToTypes r
/-- `(f.name, _query_to_types(f))` of a field and of a link, expr/core.py:74-77.  Options are not looked at. -/
def itemToType : QItem → String × Ty
  | .field n _ _ => (n, .any)
  | .link n q _ _ => (n, queryToTypes q)
end

/-- `for r in reqs_list`, expr/core.py:120-122: iteration over what was read.  Characters of strings are given as strings. -/
def iterValue : Val → Except Err (List Val)
  | .seq _ xs => .ok xs
  | .map _ kvs => .ok (kvs.map (·.1))
  | .str s | .kw s | .sym s => .ok (s.toList.map fun c => .str (String.ofList [c]))
  | _ => .error .typeError

/-- the types of arguments, expr/core.py:120-122 -/
def argTypes (H : PyHash) : List Val → Except Err (List Ty)
  | [] => .ok []
  | .none :: r => do
      let b ← argTypes H r
      .ok (.any :: b)
  | v :: r => do
      let q ← simpleTransform H v
      let b ← argTypes H r
      .ok (queryToTypes q :: b)

/-- `__def_type__` of a function which is annotated by one string, expr/core.py:118-122 -/
def defineTypes (P : PyText) (th : String → Option (Val → Except Err Val)) (H : PyHash) (src : List Char) : Except Err Ty := do
  let v ← loads P th src
  let vs ← iterValue v
  let ats ← argTypes H vs
  .ok (.callable ats)

end Hiku.Expr
