import Verif.Model.Query

/-! # hiku/readers/protobuf.py, hiku/export/protobuf.py and hiku/protobuf/query.proto

Messages are values of the types below.  The binary encoding (`SerializeToString`, `FromString`) and the conversion
between dicts and `google.protobuf.Struct` are library functions: the first is not modelled, the second is a
parameter, about which nothing is assumed. -/

namespace Hiku

/-- `json_format.ParseDict` into a `Struct` message and `json_format.MessageToDict` of it.  `ParseDict` marks the
message as present, also for `{}`. -/
structure PbCodec where
  S : Type
  parse : List (String × Val) → Except Err S
  toDict : S → List (String × Val)

mutual
/-- `Item` of query.proto:18-23; the fields of `Field` and `Link` (query.proto:7-16) are inlined.  `empty`: neither
`field` nor `link` is set.  `none` for the options: not present. -/
inductive PbItem (S : Type) where
  | empty
  | field (name : String) (options : Option S)
  | link (name : String) (node : PbNode S) (options : Option S)
/-- `Node`, query.proto:25-27 -/
inductive PbNode (S : Type) where
  | mk (items : List (PbItem S))
end

/-- the options of an exported item, export/protobuf.py:15-16 and export/protobuf.py:21-22 -/
def pbOptions (C : PbCodec) : Opts → Except Err (Option C.S)
  | none => .ok none
  | some o => do
      let s ← C.parse o
      .ok (some s)

mutual
/-- `Exporter.visit_field` and `Exporter.visit_link`, export/protobuf.py:12-27; aliases are ignored -/
def pbExportItem (C : PbCodec) : QItem → Except Err (PbItem C.S)
  | .field n o _ => do
      let s ← pbOptions C o
      .ok (.field n s)
  | .link n q o _ => do
      let s ← pbOptions C o
      let m ← pbExport C q
      .ok (.link n m s)
/-- `Exporter.visit_node` and `export`, export/protobuf.py:29-37; `ordered` is ignored -/
def pbExport (C : PbCodec) : QNode → Except Err (PbNode C.S)
  | .mk fs _ => do
      let r ← pbExportItems C fs
      .ok (.mk r)
def pbExportItems (C : PbCodec) : List QItem → Except Err (List (PbItem C.S))
  | [] => .ok []
  | i :: r => do
      let a ← pbExportItem C i
      let b ← pbExportItems C r
      .ok (a :: b)
end

mutual
/-- one step of the loop in `_transform`, readers/protobuf.py:16-33 -/
def pbReadItem (C : PbCodec) : PbItem C.S → Except Err QItem
  | .field n s => if n = "" then .error .typeError else .ok (.field n (s.map C.toDict) none)
  | .link n m s =>
      if n = "" then .error .typeError
      else do
        let q ← pbTransform C m
        .ok (.link n q (s.map C.toDict) none)
  | .empty => .error .typeError
/-- `_transform`, readers/protobuf.py:14-34 -/
def pbTransform (C : PbCodec) : PbNode C.S → Except Err QNode
  | .mk items => do
      let r ← pbReadItems C items
      .ok (.mk r false)
def pbReadItems (C : PbCodec) : List (PbItem C.S) → Except Err (List QItem)
  | [] => .ok []
  | i :: r => do
      let a ← pbReadItem C i
      let b ← pbReadItems C r
      .ok (a :: b)
end

/-- `transform`, readers/protobuf.py:37-38 -/
def pbRead (C : PbCodec) (H : PyHash) (m : PbNode C.S) : Except Err QNode := do
  let q ← pbTransform C m
  .ok (merge H [q])

end Hiku
