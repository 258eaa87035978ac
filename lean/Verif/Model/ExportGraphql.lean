import Verif.Model.ReadGraphql

/-! # hiku/export/graphql.py

Documents are the ASTs of Model/ReadGraphql.lean; printing them is a library function, which is not modelled. -/

namespace Hiku

/-- `_name` of a key, export/graphql.py:6-7.  Simplified: keys which are not strings (a `NameNode` with a value of
another type, which cannot be printed) raise TypeError here. -/
def gqlName : Val → Except Err String
  | .str s | .kw s | .sym s => .ok s
  | _ => .error .typeError

mutual
/-- `_encode`, export/graphql.py:10-29.  Simplified: keywords and symbols, which are strings too, are written as plain
strings. -/
def gqlEncode : Val → Except Err AVal
  | .none => .ok .null
  | .bool b => .ok (.bool b)
  | .int i => .ok (.int i)
  | .float t => .ok (.float t)
  | .str s | .kw s | .sym s => .ok (.str s)
  | .seq .list xs => do
      let r ← gqlEncodeList xs
      .ok (.list r)
  | .map _ kvs => do
      let r ← gqlEncodeKvs kvs
      .ok (.obj r)
  | .nothing | .seq .tup _ | .seq .elist _ | .seq .etup _ | .seq .set _ | .seq .eset _ | .tagged .. | .ref .. => .error .typeError
def gqlEncodeList : List Val → Except Err (List AVal)
  | [] => .ok []
  | x :: r => do
      let a ← gqlEncode x
      let b ← gqlEncodeList r
      .ok (a :: b)
def gqlEncodeKvs : List (Val × Val) → Except Err (List (String × AVal))
  | [] => .ok []
  | (k, v) :: r => do
      let n ← gqlName k
      let a ← gqlEncode v
      let b ← gqlEncodeKvs r
      .ok ((n, a) :: b)
end

/-- `arguments`, export/graphql.py:35-38 and export/graphql.py:46-49; `None` and the empty dict: no arguments -/
def gqlArgs : Opts → Except Err (List (String × AVal))
  | none => .ok []
  | some kvs => kvs.mapM fun kv => do
      let a ← gqlEncode kv.2
      .ok (kv.1, a)

mutual
/-- `Exporter.visit_field` and `Exporter.visit_link`, export/graphql.py:34-55 -/
def gqlExportItem : QItem → Except Err Sel
  | .field n o a => do
      let args ← gqlArgs o
      .ok (.leaf n a args [])
  | .link n q o a => do
      let args ← gqlArgs o
      let sels ← gqlExportNode q
      .ok (.obj n a args [] sels)
/-- `Exporter.visit_node`, export/graphql.py:57-60 -/
def gqlExportNode : QNode → Except Err (List Sel)
  | .mk fs _ => gqlExportItems fs
def gqlExportItems : List QItem → Except Err (List Sel)
  | [] => .ok []
  | i :: r => do
      let a ← gqlExportItem i
      let b ← gqlExportItems r
      .ok (a :: b)
end

/-- `export`, export/graphql.py:63-69 -/
def gqlExport (q : QNode) : Except Err (List Defn) := do
  let sels ← gqlExportNode q
  .ok [.op { kind := .query, name := none, vars := [], sels := sels }]

end Hiku
