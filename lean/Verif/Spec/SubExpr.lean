import Verif.Spec.ReadGraphql
import Verif.Model.SubExpr
import Verif.Spec.ExprTypes
import Verif.Spec.Semantics

/-! Specification for C55: the meaning of fields which are expressions over a sub-graph.

Objects are known by their identifiers; reading a field or a link of an object asks the data directly. -/

namespace Hiku.SubExpr

open Hiku.Expr

/-- an object of the graph -/
structure Obj where
  node : GNode
  ident : Val

/-- the objects which a link leads to -/
def linkObjs (t : GNode) (type : LinkType) (v : Val) : PV Obj :=
  match type with
  | .many => .list ((targets .many v).map fun i => .obj ⟨t, i⟩)
  | .maybe => if v = .nothing then .val .none else .obj ⟨t, v⟩
  | .one => .obj ⟨t, v⟩

/-- a field or a link of an object, in the data -/
def dataGet (D : Data) (sub : SubSem) (g : Graph) (o : Obj) (f : String) : Except Err (PV Obj) :=
  match o.node.get f with
  | some (.field gf) => .ok (.val (semField D sub o.node gf none o.ident))
  | some (.link gl) =>
      match g.node gl.node with
      | some t => .ok (linkObjs t gl.typeEnum (semLink D sub o.node o.ident gl none))
      | none => .error .keyError
  | none => .error .keyError

/-! ## Expressions -/

/-- a name which is bound here is not a function -/
def but (x : String) (isFn : String → Bool) : String → Bool := fun y => y ≠ x && isFn y

/-- a function itself, not a call -/
def bareFn (isFn : String → Bool) : Src → Bool
  | .dot x [] => isFn x
  | _ => false

mutual
/-- what the notation means: `S.x.f` reads fields, `if_` chooses, `each` and `if_some` bind variables, others are calls of functions;
`isFn` are the names of the functions (they are not tested by `if_some`) -/
def source (isFn : String → Bool) : Src → Option Term
  | .dot x path => some (path.foldl .get (.var x (isFn x)))
  | .call f args =>
      if f = "get" then none
      else if f = "if" then
        match args with
        | [t, a, b] => do
            let t ← source isFn t
            let a ← source isFn a
            let b ← source isFn b
            some (.ite t a b)
        | _ => none
      else if f = "if_some" then
        match args with
        | [.list [.dot x [], e], a, b] =>
            if bareFn isFn e then none
            else do
              let e ← source isFn e
              let a ← source (but x isFn) a
              let b ← source isFn b
              some (.ifSome x e a b)
        | _ => none
      else if f = "each" then
        match args with
        | [.dot x [], col, body] => do
            let col ← source isFn col
            let body ← source (but x isFn) body
            some (.each x col body)
        | _ => none
      else (sources isFn args).map fun as => .call (.var f (isFn f)) as
  | .list xs => (sources isFn xs).map .list
  | .dict kvs => (sourceKvs isFn kvs).map .dict
  | .other v => if plain v then some (.const v) else none
def sources (isFn : String → Bool) : List Src → Option (List Term)
  | [] => some []
  | x :: r => do
      let a ← source isFn x
      let b ← sources isFn r
      some (a :: b)
def sourceKvs (isFn : String → Bool) : List (String × Src) → Option (List (String × Term))
  | [] => some []
  | (k, x) :: r => do
      let a ← source isFn x
      let b ← sourceKvs isFn r
      some ((k, a) :: b)
end

/-- the expression of a field, as it is declared: the functions used in it, with their types, the options of the field, the
expression -/
structure Decl where
  fns : List (String × Ty)
  opts : List GOption
  src : Src

def Decl.params (d : Decl) : List String := d.opts.map (·.name)

/-- the names which stand for functions: `this`, options and fields of the root come first -/
def Decl.isFn (d : Decl) (g : Graph) (x : String) : Bool :=
  x ≠ "this" && x ∉ d.params && (g.root.get x).isNone && x ∈ d.fns.map (·.1)

/-- the value of the expression for the object `i` of the node `node`: `this` is the object, other names are options, fields
and links of the root, and functions -/
def meaning (F : Fns) (D : Data) (sub : SubSem) (g : Graph) (node : GNode) (d : Decl) (i : Val) (opts : List Val) :
    Except Err (PV Obj) :=
  match source (d.isFn g) d.src with
  | none => .error .exception
  | some t =>
      denote (pyDom F (dataGet D sub g)) (.fns (d.fns.map (·.1))) (.obj ⟨g.root, rootIdent⟩)
        (("this", .obj ⟨node, i⟩) :: d.params.zip (opts.map .val)) t

/-- the value, if it is data -/
def valueOf : Except Err (PV Obj) → Val
  | .ok w => (reify w).getD .none
  | .error _ => .none

/-- The meaning of fields computed by sub-graphs, for the graph number `gi`: the expression number `p` over the data of the
lower graph. -/
def exprSub (F : Fns) (decls : Nat → Decl) (sys : Sys) (D : Data) (gi : Nat) : SubSem := fun sg _ p opts ident =>
  match sys.subs[sg]? with
  | none => .none
  | some s =>
      if _h : s.graph < gi then
        match sys.graphs[s.graph]? with
        | none => .none
        | some g =>
            match g.node s.node with
            | some t => valueOf (meaning F D (exprSub F decls sys D s.graph) g t (decls p) ident opts)
            | none => .none
      else .none
termination_by gi

/-! ## Functions -/

/-- the same value, with other objects in it -/
inductive Same {O1 O2 : Type} (R : O1 → O2 → Prop) : PV O1 → PV O2 → Prop
  | val (v) : Same R (.val v) (.val v)
  | obj {a b} : R a b → Same R (.obj a) (.obj b)
  | list {xs ys} : List.Forall₂ (Same R) xs ys → Same R (.list xs) (.list ys)
  | dict {xs ys} : xs.map Prod.fst = ys.map Prod.fst → List.Forall₂ (Same R) (xs.map Prod.snd) (ys.map Prod.snd) →
      Same R (.dict xs) (.dict ys)
  | fn (n) : Same R (.fn n) (.fn n)
  | fns (ns) : Same R (.fns ns) (.fns ns)

/-- whatever can be read from the first objects can be read from the second ones -/
def Stands {O1 O2 : Type} (get1 : O1 → String → Except Err (PV O1)) (get2 : O2 → String → Except Err (PV O2))
    (R : O1 → O2 → Prop) : Prop :=
  ∀ a b, R a b → ∀ f v, get1 a f = .ok v → ∃ w, get2 b f = .ok w ∧ Same R v w

/-- functions do not depend on how objects are represented -/
def Parametric (F : Fns) : Prop :=
  ∀ {O1 O2 : Type} (get1 : O1 → String → Except Err (PV O1)) (get2 : O2 → String → Except Err (PV O2)) (R : O1 → O2 → Prop),
    Stands get1 get2 R → ∀ n xs ys, List.Forall₂ (Same R) xs ys → ∀ r, F get1 n xs = .ok r →
      ∃ r', F get2 n ys = .ok r' ∧ Same R r r'

/-! ## Types -/

/-- `v` is a value of the type `t`; `base` says what scalars are -/
inductive OfType (types : List (String × Ty)) (base : Ty → Val → Prop) : Ty → Val → Prop
  | any (v) : OfType types base .any v
  | scalar (t v) : t ∈ [Ty.boolean, .string, .integer, .float] → base t v → OfType types base t v
  | none (t) : OfType types base (.optional t) .none
  | some (t v) : OfType types base t v → OfType types base (.optional t) v
  | sequence (t k xs) : (∀ x ∈ xs, OfType types base t x) → OfType types base (.sequence t) (.seq k xs)
  | mapping (k t kvs) : (∀ kv ∈ kvs, OfType types base k kv.1) → (∀ kv ∈ kvs, OfType types base t kv.2) →
      OfType types base (.mapping k t) (.dict kvs)
  | record (fs kvs) (w : String → Val) : (∀ f t, dget fs f = Option.some t → dget kvs (.str f) = Option.some (w f)) →
      (∀ f t, dget fs f = Option.some t → OfType types base t (w f)) → OfType types base (.record fs) (.dict kvs)
  | named (n t v) : dget types n = Option.some t → OfType types base t v → OfType types base (.ref n) v

/-- scalars and functions in expressions -/
def exprSem (base : Ty → Val → Prop) (fns : List (String × Ty)) {O : Type} : Sem (PV O) where
  base t v :=
    match t, v with
    | .callable ats, .fn n => dget fns n = some (.callable ats)
    | .callable _, _ => False
    | t, .val v => base t v
    | _, _ => False
  items
    | .val (.map .dict kvs) => kvs.map fun kv => (.val kv.1, .val kv.2)
    | _ => []

/-- functions do not fail when their arguments are as declared -/
def Total (F : Fns) (base : Ty → Val → Prop) (fns : List (String × Ty)) : Prop :=
  ∀ {O : Type} (get : O → String → Except Err (PV O)), DeclaredFunctions (pyDom F get) (exprSem base fns)

/-! ## Fields -/

/-- the types are simple: named types are not names of other types, functions are not fields, options or arguments -/
structure SimpleTypes (g : Graph) (d : Decl) : Prop where
  alias_ : NoAlias g.types
  noFn : NoFnTypes g.types
  fns : ∀ x t, dget d.fns x = some t → ∃ ats, t = .callable ats ∧ ∀ a ∈ ats, NoFn a = true
  opts : ∀ o ∈ d.opts, NoFn (o.ty.getD .any) = true

/-- the data of the graph number `gi`: values are of the declared types -/
def TypedData (D : Data) (sub : SubSem) (U : String → Opts → Prop) (gi : Nat) (g : Graph) (base : Ty → Val → Prop) : Prop :=
  ∀ gn n gf i, IsNode g gn → U n none → gn.get n = some (.field gf) → OptsGiven gf none → IdentOk D gi gn i →
    OfType g.types base (gf.ty.getD .any) (semField D sub gn gf none i)

/-- The field computed by the expression number `p` over the node `node` of the graph number `gi` (which is `g`): it was
made by `postprocess`, and its procedure is the compiled one. -/
structure ExprField (env : Env) (F : Fns) (base : Ty → Val → Prop) (gi : Nat) (g : Graph) (node : String) (t : GNode)
    (d : Decl) (gf : GField) (reqs : QNode) (p : Nat) : Prop where
  options : gf.options = d.opts
  made : ∃ lim c, postprocess env.H lim g node d.fns d.opts (toExpr d.src) = .ok c ∧ reqs = c.reqs ∧
    env.world.proc p = Proc.run F ⟨g, t, d.fns.map (·.1), d.params, c.code⟩
  simple : SimpleTypes g d
  /-- no function fails when its arguments are as declared -/
  total : Total F base d.fns
  /-- the notation is used properly, see C37 for `Hygienic` -/
  source : ∃ term, source (d.isFn g) d.src = some term ∧ Hygienic d.params term

/-- The fields computed by sub-graphs are compiled expressions. -/
structure ExprFields (env : Env) (D : Data) (F : Fns) (decls : Nat → Decl) (base : Ty → Val → Prop)
    (U : String → Opts → Prop) : Prop where
  parametric : Parametric F
  /-- the values of the lower graphs are of the declared types -/
  typed : ∀ (gi : Nat) g, env.sys.graphs[gi]? = some g → (∃ s ∈ env.sys.subs, s.graph = gi) →
    TypedData D (exprSub F decls env.sys D gi) U gi g base
  obj : ∀ (gi : Nat) g nn gn n gf sg reqs p s i, env.sys.graphs[gi]? = some g →
    g.node nn = some gn → gn.get n = some (.field gf) → gf.func = .checked sg reqs p →
    env.sys.subs[sg]? = some s → D.obj gi nn i → D.obj s.graph s.node i
  fields : ∀ (gi : Nat) g nn gn n gf sg reqs p s g' t, env.sys.graphs[gi]? = some g →
    g.node nn = some gn → gn.get n = some (.field gf) → gf.func = .checked sg reqs p →
    env.sys.subs[sg]? = some s → env.sys.graphs[s.graph]? = some g' → g'.node s.node = some t →
    ExprField env F base s.graph g' s.node t (decls p) gf reqs p
  /-- the values of the options are of the declared types -/
  options : ∀ (gi : Nat) g nn gn n o gf sg reqs p s g', env.sys.graphs[gi]? = some g → g.node nn = some gn →
    gn.get n = some (.field gf) → gf.func = .checked sg reqs p → U n o → OptsGiven gf o → env.sys.subs[sg]? = some s →
    env.sys.graphs[s.graph]? = some g' →
    List.Forall₂ (fun (op : GOption) v => OfType g'.types base (op.ty.getD .any) v) gf.options (optVals gf o)
  /-- the expressions give data -/
  values : ∀ (gi : Nat) g nn gn n o gf sg reqs p s g' t i w, env.sys.graphs[gi]? = some g →
    g.node nn = some gn → gn.get n = some (.field gf) → gf.func = .checked sg reqs p → U n o → OptsGiven gf o →
    env.sys.subs[sg]? = some s → D.obj gi nn i → env.sys.graphs[s.graph]? = some g' → g'.node s.node = some t →
    meaning F D (exprSub F decls env.sys D s.graph) g' t (decls p) i (optVals gf o) = .ok w →
    ∃ v, reify w = some v ∧ v.refLike = false

/-! ### Python values -/

/-- the values which count as false: `None`, `False`, zeros, and everything which is empty -/
inductive PFalsy {O : Type} : PV O → Prop
  | val {v} : Falsy v → PFalsy (.val v)
  | list : PFalsy (.list [])
  | dict : PFalsy (.dict [])
  | fns : PFalsy (.fns [])

mutual
/-- the value is the data `v`: there are no objects and functions in it -/
inductive IsData {O : Type} : PV O → Val → Prop
  | val (v) : IsData (.val v) v
  | list {xs vs} : AllData xs vs → IsData (.list xs) (.list vs)
  | dict {kvs vs} : KvsData kvs vs → IsData (.dict kvs) (.dict vs)
inductive AllData {O : Type} : List (PV O) → List Val → Prop
  | nil : AllData [] []
  | cons {x v r vs} : IsData x v → AllData r vs → AllData (x :: r) (v :: vs)
inductive KvsData {O : Type} : List (String × PV O) → List (Val × Val) → Prop
  | nil : KvsData [] []
  | cons {k x v r vs} : IsData x v → KvsData r vs → KvsData ((k, x) :: r) ((.str k, v) :: vs)
end

end Hiku.SubExpr
