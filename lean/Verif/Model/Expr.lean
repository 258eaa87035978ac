import Verif.Model.Graph
import Verif.Model.Validate

/-! # hiku/expr: expressions, the checker, the requirements and the compiler

Malformed expressions raise the same errors as in Python; IndexError is `Err.exception`. -/

namespace Hiku.Expr

/-! ## Nodes and references -/

/-- `Ref` and `NamedRef`, expr/refs.py:17-41.  `root` is a `NamedRef` without backref. -/
inductive Ref where
  | root (name : String) (to : Ty)
  | named (backref : Ref) (name : String) (to : Ty)
  | ref (backref : Ref) (to : Ty)

def Ref.to : Ref → Ty
  | .root _ t | .named _ _ t | .ref _ t => t

/-- expr/nodes.py:1-64; `const` is any other Python object.  The optional `ref` is the attribute `__ref__`. -/
inductive Ex where
  | sym (name : String) (ref : Option Ref)
  | kw (name : String)
  | tup (xs : List Ex) (ref : Option Ref)
  | list (xs : List Ex)
  | dict (xs : List Ex)
  | const (v : Val)

/-- `getattr(node, '__ref__', None)` -/
def Ex.ref : Ex → Option Ref
  | .sym _ r | .tup _ r => r
  | _ => none

/-- the attribute `name` -/
def Ex.name : Ex → Option String
  | .sym n _ | .kw n => some n
  | _ => none

def Ex.isKw : Ex → Bool
  | .kw _ => true
  | _ => false

/-- `values[::2]` -/
def evens {α : Type} : List α → List α
  | [] => []
  | [a] => [a]
  | a :: _ :: r => a :: evens r

/-! ## The checker -/

/-- `types[...]` or the type -/
def getTypeE (types : List (String × Ty)) (t : Ty) : Except Err Ty :=
  match getType types t with
  | some t => .ok t
  | none => .error .keyError

/-- `check_type`, expr/checker.py:48-72.  At most `lim` calls inside each other; one more is RecursionError (named
types may be recursive). -/
def checkType (types : List (String × Ty)) : Nat → Ty → Ty → Except Err Unit
  | 0, _, _ => .error .recursionError
  | lim + 1, t1, t2 => do
      let t1 ← getTypeE types t1
      let t2 ← getTypeE types t2
      match t2 with
      | .any => .ok ()
      | .optional b =>
          match t1 with
          | .optional a => checkType types lim a b
          | t1 => checkType types lim t1 b
      | .sequence b =>
          match t1 with
          | .sequence a => checkType types lim a b
          | _ => .error .typeError
      | .mapping k2 v2 =>
          match t1 with
          | .mapping k1 v1 => do
              checkType types lim k1 k2
              checkType types lim v1 v2
          | _ => .error .typeError
      | .record fs2 =>
          match t1 with
          | .record fs1 => eachM (fun kv =>
              match dget fs1 kv.1 with
              | none => .error .typeError
              | some v1 => do
                  let v1 ← getTypeE types v1
                  checkType types lim v1 kv.2) fs2
          | _ => .error .typeError
      | .boolean => match t1 with | .boolean => .ok () | _ => .error .typeError
      | .string => match t1 with | .string => .ok () | _ => .error .typeError
      | .integer => match t1 with | .integer => .ok () | _ => .error .typeError
      | .float => match t1 with | .float => .ok () | _ => .error .typeError
      | .callable _ => match t1 with | .callable _ => .ok () | _ => .error .typeError
      | .ref _ => match t1 with | .ref _ => .ok () | _ => .error .typeError

/-- the arguments of a call, expr/checker.py:135-142 -/
def checkArgs (types : List (String × Ty)) (lim : Nat) (args : List Ex) (argTys : List Ty) : Except Err Unit :=
  if argTys.length = args.length then
    eachM (fun at_ =>
      match at_.1.ref with
      | some r => do
          let t ← getTypeE types r.to
          checkType types lim t at_.2
      | none => checkType types lim .any at_.2) (args.zip argTys)
  else .error .assertionError

/-- the end of `visit_get_expr`, expr/checker.py:85-94 -/
def checkGet (types : List (String × Ty)) (lim : Nat) (h obj : Ex) (name : String) (nref : Option Ref) : Except Err Ex :=
  match obj.ref with
  | none => .error .assertionError
  | some r => do
      let t ← getTypeE types r.to
      checkType types lim t (.record [(name, .any)])
      match t with
      | .record fs =>
          match dget fs name with
          | some res => .ok (.tup [h, obj, .sym name nref] (some (.named r name res)))
          | none => .error .assertionError
      | _ => .error .attributeError

/-- the reference of the variable of `each`, expr/checker.py:100-104 -/
def eachRef (types : List (String × Ty)) (lim : Nat) (col : Ex) : Except Err Ref :=
  match col.ref with
  | none => .error .assertionError
  | some r => do
      let t ← getTypeE types r.to
      checkType types lim t (.sequence .any)
      match t with
      | .sequence it => .ok (.ref r it)
      | _ => .error .attributeError

/-- the reference of the variable of `if_some`, expr/checker.py:115-123 -/
def someRef (types : List (String × Ty)) (e : Ex) : Except Err Ref :=
  match e.ref with
  | none => .error .assertionError
  | some r => do
      let t ← getTypeE types r.to
      match t with
      | .optional t => .ok (.ref r t)
      | _ => .ok r

/-- `node_type(self.types, sym).__arg_types__`, expr/checker.py:134 -/
def fnArgs (types : List (String × Ty)) (sym : Ex) : Except Err (List Ty) :=
  match sym.ref with
  | none => .error .attributeError
  | some r => do
      let t ← getTypeE types r.to
      match t with
      | .callable args => .ok args
      | _ => .error .attributeError

mutual
/-- `Checker`, expr/checker.py:75-167; `env` are the variables with their references, innermost first
(`Environ`, expr/checker.py:15-41) -/
def check (types : List (String × Ty)) (lim : Nat) (env : List (String × Ref)) : Ex → Except Err Ex
  | .sym n _ =>
      match dget env n with
      | none => .error .typeError
      | some r => .ok (.sym n (some r))
  | .kw n => .ok (.kw n)
  | .const v => .ok (.const v)
  | .list xs => do
      let r ← checks types lim env xs
      .ok (.list r)
  | .dict xs =>
      if xs.length % 2 = 1 then .error .assertionError
      else if (evens xs).all Ex.isKw then do
        let r ← checks types lim env xs
        .ok (.dict r)
      else .error .assertionError
  | .tup [] _ => .error .exception
  | .tup (h :: args) _ =>
      match h.name with
      | none => .error .attributeError
      | some n =>
          if n = "get" then
            match args with
            | [obj, .sym name nref] => do
                let obj ← check types lim env obj
                checkGet types lim h obj name nref
            | [_, _] => .error .assertionError
            | _ => .error .valueError
          else if n = "each" then
            match args with
            | [.sym var _, col, expr] => do
                let col ← check types lim env col
                let r ← eachRef types lim col
                let expr ← check types lim ((var, r) :: env) expr
                .ok (.tup [.sym "each" none, .sym var (some r), col, expr] none)
            | [_, _, _] => .error .assertionError
            | _ => .error .valueError
          else if n = "if_some" then
            match args with
            | [.list [.sym var _, e], a, b] => do
                let e ← check types lim env e
                let r ← someRef types e
                let a ← check types lim ((var, r) :: env) a
                let b ← check types lim env b
                .ok (.tup [.sym "if_some" none, .list [.sym var (some r), e], a, b] none)
            | [_, _, _] => .error .assertionError
            | _ => .error .valueError
          else do
            let s ← check types lim env h
            match s with
            | .sym .. => do
                let as ← checks types lim env args
                let argTys ← fnArgs types s
                checkArgs types lim as argTys
                .ok (.tup (s :: as) none)
            | _ => .error .assertionError
def checks (types : List (String × Ty)) (lim : Nat) (env : List (String × Ref)) : List Ex → Except Err (List Ex)
  | [] => .ok []
  | x :: r => do
      let a ← check types lim env x
      let b ← checks types lim env r
      .ok (a :: b)
end

/-- the environment of the checker, expr/checker.py:17-21 -/
def rootEnv (vars : List (String × Ty)) : List (String × Ref) := vars.map fun v => (v.1, .root v.1 v.2)

/-! ## Requirements -/

/-- `isinstance(t, _CONTAINER_TYPES)`, expr/refs.py:9-14 -/
def isContainer : Ty → Bool
  | .optional _ | .sequence _ | .mapping .. | .record _ => true
  | _ => false

/-- the type of a reference, expr/refs.py:49-51 -/
def refType (types : List (String × Ty)) (r : Ref) : Except Err Ty := do
  let t ← getTypeE types r.to
  match t with
  | .optional t => getTypeE types t
  | t => .ok t

/-- the requirement which `ref` itself adds to `add`, expr/refs.py:53-84: what is passed on to its backref -/
def reqStep (types : List (String × Ty)) (name : Option String) (t : Ty) (add : Option QNode) : Except Err (Option QNode) :=
  match t with
  | .record _ =>
      match name with
      | some n => .ok (some (.mk [.link n (add.getD (.mk [] false)) none none] false))
      | none => .ok add
  | .sequence it => do
      let it ← getTypeE types it
      match it with
      | .record _ =>
          match name with
          | some n => .ok (some (.mk [.link n (add.getD (.mk [] false)) none none] false))
          | none => .error .assertionError
      | it =>
          if isContainer it then .error .assertionError
          else
            match name, add with
            | some n, none => .ok (some (.mk [.field n none none] false))
            | _, _ => .error .assertionError
  | t =>
      if isContainer t then .error .assertionError
      else
        match name, add with
        | some n, none => .ok (some (.mk [.field n none none] false))
        | none, none => .ok none
        | _, some _ => .error .assertionError

/-- `ref_to_req`, expr/refs.py:44-85 -/
def refToReq (types : List (String × Ty)) : Ref → Option QNode → Except Err QNode
  | .root n t, add => do
      let ty ← refType types (.root n t)
      let r ← reqStep types (some n) ty add
      match r with
      | some q => .ok q
      | none => .error .assertionError
  | .named b n t, add => do
      let ty ← refType types (.named b n t)
      let r ← reqStep types (some n) ty add
      refToReq types b r
  | .ref b t, add => do
      let ty ← refType types (.ref b t)
      let r ← reqStep types none ty add
      refToReq types b r

mutual
/-- `type_to_query`, expr/refs.py:88-104 -/
def typeToQuery : Ty → Option QNode
  | .record fs => some (.mk (fieldsToQuery fs) false)
  | .sequence t => typeToQuery t
  | .optional t => typeToQuery t
  | _ => none
def fieldsToQuery : List (String × Ty) → List QItem
  | [] => []
  | (n, t) :: r =>
      (match typeToQuery t with
      | some q => QItem.link n q none none
      | none => QItem.field n none none) :: fieldsToQuery r
end

/-- the requirement of the reference of a node, expr/refs.py:120-124 -/
def ownReqs (types : List (String × Ty)) (r : Option Ref) : Except Err (List QNode) :=
  match r with
  | none => .ok []
  | some r => do
      let q ← refToReq types r none
      .ok [q]

mutual
/-- `RequirementsExtractor.visit`, expr/refs.py:119-140: the requirements, in order -/
def reqsOf (types : List (String × Ty)) : Ex → Except Err (List QNode)
  | .sym _ r => ownReqs types r
  | .kw _ | .const _ => .ok []
  | .list xs | .dict xs => reqsAll types xs
  | .tup xs r => do
      let own ← ownReqs types r
      match xs with
      | [] => .error .exception
      | h :: args =>
          match h.ref with
          | some r => do
              match r.to with
              | .callable argTys => do
                  let rest ← reqsArgs types argTys args
                  .ok (own ++ rest)
              | _ => .error .attributeError
          | none => do
              let rest ← reqsAll types args
              .ok (own ++ rest)
def reqsAll (types : List (String × Ty)) : List Ex → Except Err (List QNode)
  | [] => .ok []
  | x :: r => do
      let a ← reqsOf types x
      let b ← reqsAll types r
      .ok (a ++ b)
/-- the arguments of a function together with their types, expr/refs.py:131-137 -/
def reqsArgs (types : List (String × Ty)) : List Ty → List Ex → Except Err (List QNode)
  | t :: ts, x :: r => do
      let a ←
        match typeToQuery t with
        | some q =>
            match x.ref with
            | some ref => do
                let a ← refToReq types ref (some q)
                .ok [a]
            | none => .error .attributeError
        | none => reqsOf types x
      let b ← reqsArgs types ts r
      .ok (a ++ b)
  | _, _ => .ok []
end

/-- `RequirementsExtractor.extract`, expr/refs.py:113-117 -/
def extract (H : PyHash) (types : List (String × Ty)) (e : Ex) : Except Err QNode := do
  let reqs ← reqsOf types e
  .ok (merge H reqs)

/-! ## The compiler -/

/-- the Python expressions which the compiler generates -/
inductive Py where
  | name (n : String)
  | const (v : Val)
  /-- `e["key"]` -/
  | sub (e : Py) (key : String)
  | ifexp (test a b : Py)
  /-- `next(a if x is not None else b for x in (src,))` -/
  | nextSome (x : String) (src a b : Py)
  /-- `[body for x in src]` -/
  | listComp (x : String) (src body : Py)
  | call (f : Py) (args : List Py)
  | list (xs : List Py)
  | dict (kvs : List (String × Py))

/-- `Environ.vars`, a `Counter`, expr/compiler.py:11-32 -/
abbrev Counter := List (String × Nat)

def cnt (c : Counter) (n : String) : Nat := (dget c n).getD 0

/-- `Environ.__getitem__`, expr/compiler.py:16-18 -/
def genName (n : String) (i : Nat) : String := if 1 < i then n ++ "_" ++ toString i else n

/-- `Environ.push`, expr/compiler.py:23-26 -/
def push (c : Counter) (n : String) : Counter := dset c n (cnt c n + 1)
/-- the end of `Environ.push`, expr/compiler.py:29-31 -/
def pop (c : Counter) (n : String) : Counter := dset c n (cnt c n - 1)

/-- `isinstance(t, CallableMeta)` -/
def isCallable : Ty → Bool
  | .callable _ => true
  | _ => false

/-- `visit_symbol`, expr/compiler.py:148-154 -/
def compileSym (c : Counter) (n : String) (r : Option Ref) : Except Err Py :=
  if dhas c n then .ok (.name (genName n (cnt c n)))
  else
    match r with
    | none => .error .attributeError
    | some r => if isCallable r.to then .ok (.sub (.name "env") n) else .ok (.sub (.name "ctx") n)

mutual
/-- `ExpressionCompiler.visit`, expr/compiler.py:73-166.  Simplified: the first argument of `if_some` is a list of a symbol and
an expression, as the checker demands; everything else raises ValueError here. -/
def compile : Ex → Counter → Except Err (Py × Counter)
  | .sym n r, c => do
      let p ← compileSym c n r
      .ok (p, c)
  | .kw _, _ => .error .attributeError
  | .const v, c =>
      match v with
      | .none | .bool _ | .int _ | .float _ | .str _ | .kw _ | .sym _ => .ok (.const v, c)
      | _ => .error .exception
  | .list xs, c => do
      let r ← compiles xs c
      .ok (.list r.1, r.2)
  | .dict xs, c =>
      if xs.length % 2 = 1 then .error .assertionError
      else if (evens xs).all Ex.isKw then do
        let r ← compileKvs xs c
        .ok (.dict r.1, r.2)
      else .error .assertionError
  | .tup [] _, _ => .error .exception
  | .tup (h :: args) _, c =>
      match h.name with
      | none => .error .attributeError
      | some n =>
          if n = "get" then
            match args with
            | [obj, .sym name _] => do
                let r ← compile obj c
                .ok (.sub r.1 name, r.2)
            | [_, _] => .error .assertionError
            | _ => .error .valueError
          else if n = "if" then do
            let r ← compiles args c
            match r.1 with
            | [t, a, b] => .ok (.ifexp t a b, r.2)
            | _ => .error .valueError
          else if n = "if_some" then
            match args with
            | [.list [.sym var _, e], a, b] => do
                let c1 := push c var
                let x := genName var (cnt c1 var)
                let e ← compile e c1
                let a ← compile a e.2
                let b ← compile b a.2
                .ok (.nextSome x e.1 a.1 b.1, pop b.2 var)
            | _ => .error .valueError
          else if n = "each" then
            match args with
            | [.sym var _, col, body] => do
                let col ← compile col c
                let c1 := push col.2 var
                let x := genName var (cnt c1 var)
                let body ← compile body c1
                .ok (.listComp x col.1 body.1, pop body.2 var)
            | [_, _, _] => .error .assertionError
            | _ => .error .valueError
          else do
            let f ← compile h c
            let as ← compiles args f.2
            .ok (.call f.1 as.1, as.2)
def compiles : List Ex → Counter → Except Err (List Py × Counter)
  | [], c => .ok ([], c)
  | x :: r, c => do
      let a ← compile x c
      let b ← compiles r a.2
      .ok (a.1 :: b.1, b.2)
/-- keys and values of a dict -/
def compileKvs : List Ex → Counter → Except Err (List (String × Py) × Counter)
  | .kw k :: x :: r, c => do
      let a ← compile x c
      let b ← compileKvs r a.2
      .ok ((k, a.1) :: b.1, b.2)
  | [], c => .ok ([], c)
  | _, _ => .error .assertionError
end

/-- the body of `compile_lambda_expr(node, args)`, expr/compiler.py:45-60; the lambda has the parameters `env`, `this`,
`ctx` and `args` -/
def compileLambda (e : Ex) (args : List String) : Except Err Py := do
  let r ← compile e (("this" :: args).foldl push [])
  .ok r.1

/-! ## Python -/

/-- Python values and the operations on them, with effects in `M`.  Nothing is assumed about them. -/
structure PyDom (M : Type → Type) where
  V : Type
  const : Val → V
  list : List V → V
  dict : List (String × V) → V
  isNone : V → Bool
  truthy : V → M Bool
  /-- `v[key]` -/
  get : V → String → M V
  /-- the items of the iteration over `v`.  Simplified: the iteration ends before the body is run for its items. -/
  iter : V → M (List V)
  call : V → List V → M V
  /-- reading of an unbound variable, or a call of something else than the builtin `next` -/
  nameError : String → M V

/-- the value bound to a variable -/
def PyDom.lookup {M : Type → Type} [Monad M] (D : PyDom M) (σ : List (String × D.V)) (n : String) : M D.V :=
  match dget σ n with
  | some v => pure v
  | none => D.nameError n

mutual
/-- evaluation of the generated expressions with the local variables `σ` (innermost first); comprehensions have their
own scope, the iterable is evaluated outside of it -/
def eval {M : Type → Type} [Monad M] (D : PyDom M) (σ : List (String × D.V)) : Py → M D.V
  | .name n => D.lookup σ n
  | .const v => pure (D.const v)
  | .sub e k => do
      let v ← eval D σ e
      D.get v k
  | .ifexp t a b => do
      let v ← eval D σ t
      let c ← D.truthy v
      if c then eval D σ a else eval D σ b
  | .nextSome x src a b => do
      if dhas σ "next" then D.nameError "next"
      else do
        let v ← eval D σ src
        if D.isNone v then eval D ((x, v) :: σ) b else eval D ((x, v) :: σ) a
  | .listComp x src body => do
      let v ← eval D σ src
      let xs ← D.iter v
      let r ← xs.mapM fun y => eval D ((x, y) :: σ) body
      pure (D.list r)
  | .call f args => do
      let g ← eval D σ f
      let as ← evals D σ args
      D.call g as
  | .list xs => do
      let r ← evals D σ xs
      pure (D.list r)
  | .dict kvs => do
      let r ← evalKvs D σ kvs
      pure (D.dict r)
def evals {M : Type → Type} [Monad M] (D : PyDom M) (σ : List (String × D.V)) : List Py → M (List D.V)
  | [] => pure []
  | x :: r => do
      let a ← eval D σ x
      let b ← evals D σ r
      pure (a :: b)
def evalKvs {M : Type → Type} [Monad M] (D : PyDom M) (σ : List (String × D.V)) : List (String × Py) → M (List (String × D.V))
  | [] => pure []
  | (k, x) :: r => do
      let a ← eval D σ x
      let b ← evalKvs D σ r
      pure ((k, a) :: b)
end

/-- a call of the compiled procedure `proc(env, this, ctx, *args)` (sources/graph.py:18, 63-64) -/
def runLambda {M : Type → Type} [Monad M] (D : PyDom M) (p : Py) (env this ctx : D.V) (args : List (String × D.V)) : M D.V :=
  eval D (("env", env) :: ("this", this) :: ("ctx", ctx) :: args) p

end Hiku.Expr
