import Verif.Model.Query
import Verif.Model.Edn

/-! # hiku/readers/simple.py and hiku/export/simple.py: queries as EDN -/

namespace Hiku

/-! ## The exporter -/

/-- `Keyword(key)`, edn.py:40: the text of a string; `pyStr` is `str` of other values -/
def keywordOf (pyStr : Val → String) : Val → Val
  | .str s | .kw s | .sym s => .kw s
  | v => .kw (pyStr v)

mutual
/-- `_encode`, export/simple.py:5-17.  Keywords and symbols are strings. -/
def simpleEncode (pyStr : Val → String) : Val → Except Err Val
  | .none => .ok .none
  | .bool b => .ok (.bool b)
  | .int i => .ok (.int i)
  | .float t => .ok (.float t)
  | .str s => .ok (.str s)
  | .kw s => .ok (.kw s)
  | .sym s => .ok (.sym s)
  | .seq .list xs => do
      let r ← simpleEncodeList pyStr xs
      .ok (.seq .elist r)
  | .map _ kvs => do
      let r ← simpleEncodeKvs pyStr kvs
      .ok (.map .edict (dmk r))
  | .seq .set xs | .seq .eset xs => do
      let r ← simpleEncodeList pyStr xs
      .ok (.seq .eset (mkSet r))
  | .nothing | .seq .tup _ | .seq .elist _ | .seq .etup _ | .tagged .. | .ref .. => .error .typeError
def simpleEncodeList (pyStr : Val → String) : List Val → Except Err (List Val)
  | [] => .ok []
  | x :: r => do
      let a ← simpleEncode pyStr x
      let b ← simpleEncodeList pyStr r
      .ok (a :: b)
def simpleEncodeKvs (pyStr : Val → String) : List (Val × Val) → Except Err (List (Val × Val))
  | [] => .ok []
  | (k, v) :: r => do
      let a ← simpleEncode pyStr v
      let b ← simpleEncodeKvs pyStr r
      .ok ((keywordOf pyStr k, a) :: b)
end

/-- the name with its options, export/simple.py:23-26 and export/simple.py:29-31 -/
def exportHead (pyStr : Val → String) (name : String) (o : Opts) : Except Err Val :=
  match o with
  | none => .ok (.kw name)
  | some kvs => do
      let d ← simpleEncode pyStr (optsVal kvs)
      .ok (.seq .etup [.kw name, d])

mutual
/-- `Exporter.visit_field` and `Exporter.visit_link`, export/simple.py:22-32; aliases are ignored -/
def exportItem (pyStr : Val → String) : QItem → Except Err Val
  | .field n o _ => exportHead pyStr n o
  | .link n q o _ => do
      let h ← exportHead pyStr n o
      let v ← exportNode pyStr q
      .ok (.map .edict [(h, v)])
/-- `Exporter.visit_node` and `export`, export/simple.py:34-39; `ordered` is ignored -/
def exportNode (pyStr : Val → String) : QNode → Except Err Val
  | .mk fs _ => do
      let r ← exportItems pyStr fs
      .ok (.seq .elist r)
def exportItems (pyStr : Val → String) : List QItem → Except Err (List Val)
  | [] => .ok []
  | i :: r => do
      let a ← exportItem pyStr i
      let b ← exportItems pyStr r
      .ok (a :: b)
end

/-! ## The reader -/

/-- `{str(k): v for k, v in options_value.items()}` when all the keys are keywords, readers/simple.py:26-34 -/
def kwOpts : List (Val × Val) → Except Err (List (String × Val))
  | [] => .ok []
  | (.kw k, v) :: r => do
      let b ← kwOpts r
      .ok ((k, v) :: b)
  | _ :: _ => .error .typeError

/-- `_get_options`, readers/simple.py:12-35 -/
def simpleOptions (value : List Val) : Except Err (String × List (String × Val)) :=
  match value with
  | [.kw name, .map .edict kvs] => do
      let o ← kwOpts kvs
      .ok (name, dmk o)
  | _ => .error .typeError

mutual
/-- `transform`, readers/simple.py:61-66 -/
def simpleTransform (H : PyHash) : Val → Except Err QNode
  | .seq .elist xs => do
      let r ← simpleExtract H xs
      .ok (merge H [.mk r false])
  | _ => .error .typeError
/-- `_extract`, readers/simple.py:38-58 -/
def simpleExtract (H : PyHash) : List Val → Except Err (List QItem)
  | [] => .ok []
  | .seq .etup t :: r => do
      let o ← simpleOptions t
      let b ← simpleExtract H r
      .ok (.field o.1 (some o.2) none :: b)
  | .kw n :: r => do
      let b ← simpleExtract H r
      .ok (.field n none none :: b)
  | .map .edict kvs :: r => do
      let a ← simpleLinks H kvs
      let b ← simpleExtract H r
      .ok (a ++ b)
  | _ :: _ => .error .typeError
/-- the links of one dict, readers/simple.py:46-56 -/
def simpleLinks (H : PyHash) : List (Val × Val) → Except Err (List QItem)
  | [] => .ok []
  | (.seq .etup t, v) :: r => do
      let o ← simpleOptions t
      let q ← simpleTransform H v
      let b ← simpleLinks H r
      .ok (.link o.1 q (some o.2) none :: b)
  | (.kw n, v) :: r => do
      let q ← simpleTransform H v
      let b ← simpleLinks H r
      .ok (.link n q none none :: b)
  | _ :: _ => .error .typeError
end

/-- `read`, readers/simple.py:69-82 -/
def simpleRead (P : PyText) (th : String → Option (Val → Except Err Val)) (H : PyHash) (src : List Char) : Except Err QNode := do
  let ast ← loads P th src
  simpleTransform H ast

end Hiku
