import Verif.Model.Query
import Verif.Model.InitOptions
import Verif.Model.Denormalize

/-! # hiku/query.py and hiku/utils.py: query objects with their caches

The rest of the model takes a query for a tree (`QNode`).  In the code it is a graph of Python objects which are
shared between queries (`merge` yields the fields of its arguments and `InitOptions` keeps fields without options)
and which remember what was computed from them (`cached_property`).  This module has the objects on a heap. -/

namespace Hiku.QObj
open Hiku

/-- what is set by the constructors, the `__attrs__` of `Field`, `Link` and `Node`; a reference to another object is its
address (query.py:111-123, 129-144, 150-162) -/
inductive Attrs where
  | field (name : String) (options : Opts) (alias_ : Option String)
  | link (name : String) (node : Nat) (options : Opts) (alias_ : Option String)
  | node (fields : List Nat) (ordered : Bool)
  deriving Inhabited

/-- the entries which `cached_property` adds to `__dict__` (utils.py:10-14); `none`: not there yet -/
structure Cache where
  resultKey : Option String := none
  optionsHash : Option (Option Int) := none
  indexKey : Option String := none
  fieldsMap : Option (List (String × Nat)) := none
  resultMap : Option (List (String × Nat)) := none
  deriving Inhabited

/-- `obj.__dict__` (query.py:64-84, utils.py:4-14) -/
structure Obj where
  attrs : Attrs
  cache : Cache := {}
  deriving Inhabited

/-- all query objects of the program; an address is a position (no code in /repo: CPython's memory) -/
abbrev Heap := List Obj

/-- A piece of code which works on query objects: whatever it did to them stays when it raises (no code in /repo). -/
def M (α : Type) := Heap → Except Err α × Heap

/-- sequencing of statements (no code in /repo) -/
def M.bind {α β : Type} (m : M α) (f : α → M β) : M β := fun h =>
  match m h with
  | (.ok a, h') => f a h'
  | (.error e, h') => (.error e, h')

/-- the notation for programs (no code in /repo) -/
instance : Monad M where
  pure a := fun h => (.ok a, h)
  bind := M.bind

/-- `raise` (no code in /repo) -/
def raise {α : Type} (e : Err) : M α := fun h => (.error e, h)

/-- a dereference (no code in /repo); the address of no object cannot come up in Python -/
def load (o : Nat) : M Obj := fun h =>
  match h[o]? with
  | some x => (.ok x, h)
  | none => (.error .exception, h)

/-- `obj.__dict__[name] = value` of `cached_property.__get__` (utils.py:13) -/
def save (o : Nat) (f : Cache → Cache) : M Unit := fun h => (.ok (), h.modify o fun x => { x with cache := f x.cache })

/-- a constructor: a new object without cached entries (query.py:120-123, 140-144, 160-162) -/
def new (a : Attrs) : M Nat := fun h => (.ok h.length, h ++ [{ attrs := a }])

/-- a loop over a list which builds a list (no code in /repo) -/
def each {α β : Type} (f : α → M β) : List α → M (List β)
  | [] => pure []
  | x :: r => do
      let y ← f x
      let ys ← each f r
      pure (y :: ys)

/-- `obj.name` (query.py:121, 141); a node has none -/
def nameOf (o : Nat) : M String := do
  let x ← load o
  match x.attrs with
  | .field n _ _ => pure n
  | .link n _ _ _ => pure n
  | .node .. => raise .attributeError

/-- `obj.fields` (query.py:161) -/
def fieldsOf (o : Nat) : M (List Nat) := do
  let x ← load o
  match x.attrs with
  | .node fs _ => pure fs
  | _ => raise .attributeError

/-- `obj.ordered` (query.py:162) -/
def orderedOf (o : Nat) : M Bool := do
  let x ← load o
  match x.attrs with
  | .node _ b => pure b
  | _ => raise .attributeError

/-- `FieldBase.result_key` behind `cached_property.__get__`: an entry of `__dict__` is found before the descriptor,
which has no `__set__` (query.py:89-94, utils.py:10-14) -/
def resultKey (o : Nat) : M String := do
  let x ← load o
  match x.cache.resultKey with
  | some k => pure k
  | none =>
      match x.attrs with
      | .field n _ a => do
          save o fun c => { c with resultKey := some (a.getD n) }
          pure (a.getD n)
      | .link n _ _ a => do
          save o fun c => { c with resultKey := some (a.getD n) }
          pure (a.getD n)
      | .node .. => raise .attributeError

/-- `FieldBase.options_hash` behind `cached_property.__get__` (query.py:96-101, utils.py:10-14) -/
def optionsHash (H : PyHash) (o : Nat) : M (Option Int) := do
  let x ← load o
  match x.cache.optionsHash with
  | some k => pure k
  | none =>
      match x.attrs with
      | .field _ os _ => do
          save o fun c => { c with optionsHash := some (Hiku.optionsHash H os) }
          pure (Hiku.optionsHash H os)
      | .link _ _ os _ => do
          save o fun c => { c with optionsHash := some (Hiku.optionsHash H os) }
          pure (Hiku.optionsHash H os)
      | .node .. => raise .attributeError

/-- the body of `FieldBase.index_key` (query.py:105-108) -/
def keyText (name : String) : Option Int → String
  | some v => name ++ "[" ++ toString v ++ "]"
  | none => name

/-- `FieldBase.index_key` behind `cached_property.__get__` (query.py:103-108, utils.py:10-14) -/
def indexKey (H : PyHash) (o : Nat) : M String := do
  let x ← load o
  match x.cache.indexKey with
  | some k => pure k
  | none => do
      let oh ← optionsHash H o
      let n ← nameOf o
      save o fun c => { c with indexKey := some (keyText n oh) }
      pure (keyText n oh)

/-- `Node.fields_map` behind `cached_property.__get__` (query.py:164-166, utils.py:10-14) -/
def fieldsMap (o : Nat) : M (List (String × Nat)) := do
  let x ← load o
  match x.cache.fieldsMap with
  | some m => pure m
  | none => do
      let fs ← fieldsOf o
      let ns ← each nameOf fs
      save o fun c => { c with fieldsMap := some (dmk (ns.zip fs)) }
      pure (dmk (ns.zip fs))

/-- `Node.result_map` behind `cached_property.__get__` (query.py:168-170, utils.py:10-14) -/
def resultMap (o : Nat) : M (List (String × Nat)) := do
  let x ← load o
  match x.cache.resultMap with
  | some m => pure m
  | none => do
      let fs ← fieldsOf o
      let ns ← each resultKey fs
      save o fun c => { c with resultMap := some (dmk (ns.zip fs)) }
      pure (dmk (ns.zip fs))

/-- the keyword arguments of `Base.copy` (query.py:80); aliases and names are never replaced in /repo -/
structure Kw where
  node : Option Nat := none
  options : Option Opts := none
  fields : Option (List Nat) := none

/-- `kwargs.get(attr, self.__dict__[attr])` for each of `__attrs__` (query.py:82-83); other keywords are ignored -/
def Attrs.with (a : Attrs) (kw : Kw) : Attrs :=
  match a with
  | .field n o al => .field n (kw.options.getD o) al
  | .link n c o al => .link n (kw.node.getD c) (kw.options.getD o) al
  | .node fs b => .node (kw.fields.getD fs) b

/-- `Base.copy` (query.py:80-84): only `__attrs__` are copied, not what is cached -/
def copy (o : Nat) (kw : Kw) : M Nat := do
  let x ← load o
  new (x.attrs.with kw)

/-- `to_merge[key] = [field.node]; links[key] = field` or `to_merge[key].append(field.node)` (query.py:184-188): the key,
the link and the nodes -/
def addGroup (k : MKey) (l c : Nat) : List (MKey × Nat × List Nat) → List (MKey × Nat × List Nat)
  | [] => [(k, l, [c])]
  | g :: r => if g.1 = k then (g.1, g.2.1, g.2.2 ++ [c]) :: r else g :: addGroup k l c r

/-- the first loop of `_merge` (query.py:180-191): the fields which are yielded and `to_merge` with `links` at the end -/
def mergeLoop (H : PyHash) : List Nat → List MKey → List (MKey × Nat × List Nat) →
    M (List Nat × List (MKey × Nat × List Nat))
  | [], _, gs => pure ([], gs)
  | f :: r, seen, gs => do
      let n ← nameOf f
      let oh ← optionsHash H f
      let x ← load f
      match x.attrs with
      | .field _ _ a =>
          if (n, oh, a) ∈ seen then mergeLoop H r seen gs
          else do
            let y ← mergeLoop H r ((n, oh, a) :: seen) gs
            pure (f :: y.1, y.2)
      | .link _ c _ a => mergeLoop H r seen (addGroup (n, oh, a) f c gs)
      | .node .. => raise .attributeError

/-- `merge` and `_merge` (query.py:176-205); `lim` is the recursion limit -/
def merge (H : PyHash) : Nat → List Nat → M Nat
  | 0, _ => raise .recursionError
  | lim + 1, nodes => do
      let bs ← each orderedOf nodes
      let fss ← each fieldsOf nodes
      let y ← mergeLoop H fss.flatten [] []
      let ls ← each (fun (g : MKey × Nat × List Nat) => do
        let m ← merge H lim g.2.2
        copy g.2.1 { node := some m }) y.2
      new (.node (y.1 ++ ls) (bs.any id))

/-- `[self.visit(f) for f in obj.fields if f.name != '__typename']`, endpoint/graphql.py:28-30, with the condition as an
argument -/
def visitFields (keep : String → Bool) (visit : Nat → M Nat) : List Nat → M (List Nat)
  | [] => pure []
  | f :: r => do
      let n ← nameOf f
      if keep n then do
        let y ← visit f
        let ys ← visitFields keep visit r
        pure (y :: ys)
      else visitFields keep visit r

/-- `QueryTransformer.visit` (query.py:224-236) when `keep` is constantly true, `_StripQuery` (endpoint/graphql.py:26-30)
when it is "not `__typename`" -/
def transform (keep : String → Bool) : Nat → Nat → M Nat
  | 0, _ => raise .recursionError
  | lim + 1, o => do
      let x ← load o
      match x.attrs with
      | .field .. => copy o {}
      | .link _ c _ _ => do
          let c' ← transform keep lim c
          copy o { node := some c' }
      | .node fs _ => do
          let fs' ← visitFields keep (transform keep lim) fs
          copy o { fields := some fs' }

/-- a pure computation which may raise (no code in /repo) -/
def lift {α : Type} : Except Err α → M α
  | .ok a => pure a
  | .error e => raise e

/-- `InitOptions` (engine.py:30-57); `gn` is `self._path[-1]` -/
def init (g : Graph) : Nat → GNode → Nat → M Nat
  | 0, _, _ => raise .recursionError
  | lim + 1, gn, o => do
      let x ← load o
      match x.attrs with
      | .field n os _ =>
          match gn.get n with
          | none => raise .keyError
          | some gi =>
              if gi.options.isEmpty then pure o
              else do
                let os' ← lift (getOptions gi.options os)
                copy o { options := some (some os') }
      | .link n c os _ =>
          match gn.get n with
          | none => raise .keyError
          | some (.link gl) =>
              match g.node gl.node with
              | none => raise .keyError
              | some t => do
                  let c' ← init g lim t c
                  if gl.options.isEmpty then copy o { node := some c', options := some none }
                  else do
                    let os' ← lift (getOptions gl.options os)
                    copy o { node := some c', options := some (some os') }
          | some (.field gf) =>
              if gf.options.isEmpty then copy o { node := some c, options := some none }
              else do
                let os' ← lift (getOptions gf.options os)
                copy o { node := some c, options := some (some os') }
      | .node fs _ => do
          let fs' ← each (init g lim gn) fs
          copy o { fields := some fs' }

/-- `list.__eq__` for lists of objects, which does not ask an object whether it is equal to itself (no code in /repo) -/
def eqList (eq : Nat → Nat → M Bool) : List Nat → List Nat → M Bool
  | [], [] => pure true
  | a :: r, b :: s =>
      if a = b then eqList eq r s
      else do
        let x ← eq a b
        if x then eqList eq r s else pure false
  | _, _ => pure false

/-- `Base.__eq__` (query.py:72-75).  `E` is the equality of options (`None` or dicts). -/
def eqObj (E : Opts → Opts → Bool) : Nat → Nat → Nat → M Bool
  | 0, _, _ => raise .recursionError
  | lim + 1, a, b => do
      let x ← load a
      let y ← load b
      match x.attrs, y.attrs with
      | .field n o al, .field n' o' al' => pure (decide (n = n') && E o o' && decide (al = al'))
      | .link n c o al, .link n' c' o' al' =>
          if n = n' then do
            let e ← eqObj E lim c c'
            pure (e && E o o' && decide (al = al'))
          else pure false
      | .node fs b, .node fs' b' => do
          let e ← eqList (eqObj E lim) fs fs'
          pure (e && decide (b = b'))
      | _, _ => pure false

/-- what a program can do with query objects: the public API of query.py and the transformers of the package
(query.py:64-236, engine.py:30-57, endpoint/graphql.py:26-30).  Attributes are not assigned and the lists and dicts in
them are not changed in place; no code of the package does. -/
inductive Op where
  | field (name : String) (options : Opts) (alias_ : Option String)
  | link (name : String) (node : Nat) (options : Opts) (alias_ : Option String)
  | node (fields : List Nat) (ordered : Bool)
  | resultKey (o : Nat)
  | optionsHash (o : Nat)
  | indexKey (o : Nat)
  | fieldsMap (o : Nat)
  | resultMap (o : Nat)
  | copy (o : Nat) (kw : Kw)
  | merge (lim : Nat) (os : List Nat)
  | transform (keep : String → Bool) (lim : Nat) (o : Nat)
  | init (g : Graph) (lim : Nat) (gn : GNode) (o : Nat)
  | eq (E : Opts → Opts → Bool) (lim : Nat) (a b : Nat)

/-- one operation; what is raised is caught (no code in /repo) -/
def step (H : PyHash) (h : Heap) : Op → Heap
  | .field n o a => (new (.field n o a) h).2
  | .link n c o a => (new (.link n c o a) h).2
  | .node fs b => (new (.node fs b) h).2
  | .resultKey o => (QObj.resultKey o h).2
  | .optionsHash o => (QObj.optionsHash H o h).2
  | .indexKey o => (QObj.indexKey H o h).2
  | .fieldsMap o => (QObj.fieldsMap o h).2
  | .resultMap o => (QObj.resultMap o h).2
  | .copy o kw => (QObj.copy o kw h).2
  | .merge lim os => (QObj.merge H lim os h).2
  | .transform keep lim o => (QObj.transform keep lim o h).2
  | .init g lim gn o => (QObj.init g lim gn o h).2
  | .eq E lim a b => (QObj.eqObj E lim a b h).2

/-- a history: any sequence of operations on any objects (no code in /repo) -/
def run (H : PyHash) (ops : List Op) (h : Heap) : Heap := ops.foldl (step H) h

end Hiku.QObj
