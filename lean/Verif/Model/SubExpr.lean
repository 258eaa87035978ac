import Verif.Model.Expr
import Verif.Model.Engine
import Verif.Model.ReadGraphql

/-! # hiku/sources/graph.py: fields which are expressions over a sub-graph -/

namespace Hiku.SubExpr

open Hiku.Expr

/-! ## Notation: `to_expr` -/

/-- what users write: `S.x.f.g` (`_DotHandler`; `SObj.attr` says when it is one), calls of defined functions (`_Func`), lists, dicts and other objects,
expr/core.py:25-45 -/
inductive Src where
  | dot (x : String) (path : List String)
  | call (fn : String) (args : List Src)
  | list (xs : List Src)
  | dict (kvs : List (String × Src))
  | other (v : Val)

/-- `_DotHandler.__getattr__`, expr/core.py:33-34 -/
def dotExpr (x : String) : List String → Ex
  | [] => .sym x none
  | f :: path => .tup [.sym "get" none, dotExpr x path, .sym f none] none

mutual
/-- `_to_expr`, expr/core.py:48-62; the path of `dot` is read from the end -/
def toExpr : Src → Ex
  | .dot x path => dotExpr x path.reverse
  | .call fn args => .tup (.sym fn none :: toExprs args) none
  | .list xs => .list (toExprs xs)
  | .dict kvs => .dict (toKvs kvs)
  | .other v => .const v
def toExprs : List Src → List Ex
  | [] => []
  | x :: r => toExpr x :: toExprs r
def toKvs : List (String × Src) → List Ex
  | [] => []
  | (k, x) :: r => .kw k :: toExpr x :: toKvs r
end

/-- the objects which are got by writing `S.x.f.g`: `_DotHandler`, an expression node -/
inductive SObj where
  | handler (e : Ex)
  | node (e : Ex)

/-- `getattr(o, name)`, expr/core.py:25-34: `__getattr__` is called only for attributes which the handler does not have, and it has
`obj`.  Simplified: attributes of every Python object (`__class__`) and those of nodes (`name`, `values`, `accept`) are not
represented. -/
def SObj.attr : SObj → String → Except Err SObj
  | .handler e, f => if f = "obj" then .ok (.node e) else .ok (.handler (.tup [.sym "get" none, e, .sym f none] none))
  | .node _, _ => .error .attributeError

/-- `_to_expr` of the result, expr/core.py:49-50, 61-62 -/
def SObj.expr : SObj → Ex
  | .handler e | .node e => e

/-- `S.x.f.g` as an expression; `S.x`: `_S.__getattr__`, expr/core.py:37-40 -/
def written (x : String) (path : List String) : Except Err Ex := do
  let o ← path.foldlM SObj.attr (.handler (.sym x none))
  .ok o.expr

mutual
/-- the functions which `_to_expr` adds to `fn_reg`, expr/core.py:51-54, in the order of additions; `fn_reg` is a set, so
repeated ones are added once -/
def srcFns : Src → List String
  | .dot .. | .other _ => []
  | .call fn args => fn :: srcFnsAll args
  | .list xs => srcFnsAll xs
  | .dict kvs => srcFnsKvs kvs
def srcFnsAll : List Src → List String
  | [] => []
  | x :: r => srcFns x ++ srcFnsAll r
def srcFnsKvs : List (String × Src) → List String
  | [] => []
  | (_, x) :: r => srcFns x ++ srcFnsKvs r
end

/-- `fn_types(funcs)`, expr/checker.py:11-12, with the functions found by `to_expr`, expr/core.py:65-68; `typeOf` is
`__def_type__`.  The functions come from a set, so `order` puts them in any order.  Simplified: functions are known by their
`__def_name__`, different functions have different ones. -/
def fnTypes (typeOf : String → Ty) (order : List String → List String) (s : Src) : List (String × Ty) :=
  (order ((dmk ((srcFns s).map fun n => (n, ()))).map (·.1))).map fun n => (n, typeOf n)

/-! ## `BoundExpr.__postprocess__` -/

/-- the types of the variables, sources/graph.py:49-52: functions, fields of the root, options, `this`; later ones
replace earlier ones -/
def exprVars (rootFields fns : List (String × Ty)) (node : String) (opts : List GOption) : List (String × Ty) :=
  dset (dupdate (dupdate fns rootFields) (opts.map fun o => (o.name, o.ty.getD .any))) THIS (.ref node)

/-- `self.sub_graph.types['__root__'].__field_types__` -/
def rootTypes (g : Graph) : Except Err (List (String × Ty)) :=
  match dget g.types rootName with
  | none => .error .keyError
  | some (.record fs) => .ok fs
  | some _ => .error .attributeError

/-- a checked expression: the expression, the requirements and the code -/
structure Compiled where
  expr : Ex
  reqs : QNode
  code : Py

/-- `BoundExpr.__postprocess__`, sources/graph.py:46-65, with the expression and the types of the functions found by
`to_expr`; `fns` is ordered in some way (it is a dict made of a set of functions with different names) -/
def postprocess (H : PyHash) (lim : Nat) (g : Graph) (node : String) (fns : List (String × Ty)) (opts : List GOption)
    (e : Ex) : Except Err Compiled := do
  let rt ← rootTypes g
  let e' ← check g.types lim (rootEnv (exprVars rt fns node opts)) e
  let q ← extract H g.types e'
  let code ← compileLambda e' (opts.map (·.name))
  .ok { expr := e', reqs := .mk (q.fields.filter fun f => f.name ∉ opts.map (·.name)) false, code := code }

/-! ## Running the compiled procedure -/

/-- Python values: plain ones, objects (`Proxy`), lists and dicts with objects in them (keys of dicts are different),
functions, the dict of functions -/
inductive PV (O : Type) where
  | val (v : Val)
  | obj (o : O)
  | list (xs : List (PV O))
  | dict (kvs : List (String × PV O))
  | fn (name : String)
  | fns (names : List String)

/-- Functions of the user, by their names.  They get at the fields of objects by reading them. -/
abbrev Fns := {O : Type} → (O → String → Except Err (PV O)) → String → List (PV O) → Except Err (PV O)

/-- `v[key]` -/
def PV.get {O : Type} (get : O → String → Except Err (PV O)) : PV O → String → Except Err (PV O)
  | .obj o, f => get o f
  | .dict kvs, f =>
      match dget kvs f with
      | some v => .ok v
      | none => .error .keyError
  | .val (.map _ kvs), f =>
      match dget kvs (.str f) with
      | some v => .ok (.val v)
      | none => .error .keyError
  | .fns names, f => if f ∈ names then .ok (.fn f) else .error .keyError
  | _, _ => .error .typeError

/-- `for x in v`: items of sequences, keys of dicts, characters of strings -/
def PV.iter {O : Type} : PV O → Except Err (List (PV O))
  | .list xs => .ok xs
  | .dict kvs => .ok (kvs.map fun kv => .val (.str kv.1))
  | .fns names => .ok (names.map fun n => .val (.str n))
  | .val (.seq _ xs) => .ok (xs.map .val)
  | .val (.map _ kvs) => .ok (kvs.map fun kv => .val kv.1)
  | .val (.str s) | .val (.kw s) | .val (.sym s) => .ok (s.toList.map fun c => .val (.str (String.singleton c)))
  | _ => .error .typeError

/-- `bool(v)`; objects and functions are true -/
def PV.truthy {O : Type} : PV O → Bool
  | .val v => v.truthy
  | .list xs => !xs.isEmpty
  | .dict kvs => !kvs.isEmpty
  | .fns names => !names.isEmpty
  | _ => true

def PV.isNone {O : Type} : PV O → Bool
  | .val .none => true
  | _ => false

/-- Python, with the given objects and functions -/
def pyDom (F : Fns) {O : Type} (get : O → String → Except Err (PV O)) : PyDom (Except Err) where
  V := PV O
  const := .val
  list := .list
  dict := .dict
  isNone := PV.isNone
  truthy v := .ok v.truthy
  get := PV.get get
  iter := PV.iter
  call
    | .fn n, args => F get n args
    | _, _ => .error .typeError
  nameError _ := .error .nameError

/-- Objects as they are read from the index of the sub-query: `Proxy`, result.py:58-102, is modelled by the node and by
the tree which can be read through it. -/
structure Tree where
  node : GNode
  tree : Val

/-- the objects which a link leads to -/
def wrapLink {O : Type} (obj : Val → O) : LinkType → Val → PV O
  | .many, .seq .list xs => .list (xs.map fun x => .obj (obj x))
  | .maybe, .none => .val .none
  | _, v => .obj (obj v)

/-- `Proxy.__getitem__`, result.py:66-96: fields are values, links are objects -/
def treeGet (g : Graph) (o : Tree) (f : String) : Except Err (PV Tree) :=
  match o.tree with
  | .map .dict kvs =>
      match dget kvs (.str f) with
      | none => .error .keyError
      | some v =>
          match o.node.get f with
          | some (.link gl) =>
              match g.node gl.node with
              | some t => .ok (wrapLink (Tree.mk t) gl.typeEnum v)
              | none => .error .keyError
          | _ => .ok (.val v)
  | _ => .error .attributeError

mutual
/-- Values without objects and functions in them.  Simplified: keys of dicts are strings. -/
def reify {O : Type} : PV O → Option Val
  | .val v => some v
  | .obj _ | .fn _ | .fns _ => none
  | .list xs => (reifyAll xs).map .list
  | .dict kvs => (reifyKvs kvs).map .dict
def reifyAll {O : Type} : List (PV O) → Option (List Val)
  | [] => some []
  | x :: r =>
      match reify x, reifyAll r with
      | some a, some b => some (a :: b)
      | _, _ => none
def reifyKvs {O : Type} : List (String × PV O) → Option (List (Val × Val))
  | [] => some []
  | (k, x) :: r =>
      match reify x, reifyKvs r with
      | some a, some b => some ((.str k, a) :: b)
      | _, _ => none
end

/-- what is known about a compiled expression when it is run -/
structure Proc where
  graph : Graph
  node : GNode
  fns : List String
  params : List String
  code : Py

/-- `proc(this, sq_result, *opt_args)`, sources/graph.py:18-20, 63-64.  Results with objects in them (they would be stored
as `Proxy`) are not modelled: an exception. -/
def Proc.run (F : Fns) (p : Proc) (this root : Val) (opts : List Val) : Except Err Val := do
  let r ← runLambda (pyDom F (treeGet p.graph)) p.code (.fns p.fns) (.obj ⟨p.node, this⟩) (.obj ⟨p.graph.root, root⟩)
    (p.params.zip (opts.map .val))
  match reify r with
  | some v => .ok v
  | none => .error .exception

end Hiku.SubExpr
