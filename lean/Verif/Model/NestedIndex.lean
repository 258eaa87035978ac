import Verif.Model.StoreFx

/-! # hiku/result.py: the index as it is in memory

`Model/Index.lean` has the index as a flat table of cells `(node, ident, key)`.  In the code it is a `defaultdict` of
`defaultdict`s of dicts, in which every lookup makes the missing parts, with one of the dicts cached as `root`, until
`finish` takes the factories away.  This module has it like that; C72 shows that nobody can tell the difference. -/

namespace Hiku.NIdx
open Hiku

/-- `Index` (result.py:43-55): the two levels of defaultdicts, with the address of the dict of each object, the dicts
themselves, what `cached_property` remembers of `root`, and whether `finish` was called (it takes away the factories of both
levels at once) -/
structure NIndex where
  nodes : List (String × List (Val × Nat)) := []
  dicts : List (List (String × Val)) := []
  root : Option Nat := none
  finished : Bool := false

/-- a piece of code which works on one index (no code in /repo) -/
def NM (α : Type) := NIndex → Except Err α × NIndex

/-- sequencing of statements (no code in /repo) -/
def NM.bind {α β : Type} (m : NM α) (f : α → NM β) : NM β := fun s =>
  match m s with
  | (.ok a, s') => f a s'
  | (.error e, s') => (.error e, s')

/-- the notation for programs (no code in /repo) -/
instance : Monad NM where
  pure a := fun s => (.ok a, s)
  bind := NM.bind

/-- `raise`, and pure computations which may raise (no code in /repo) -/
def lift {α : Type} (x : Except Err α) : NM α := fun s => (x, s)

/-- `index[name]`: `defaultdict.__missing__` of the outer level (result.py:45-46); KeyError after `finish` -/
def getNode (n : String) : NM Unit := fun s =>
  if dhas s.nodes n then (.ok (), s)
  else if s.finished then (.error .keyError, s)
  else (.ok (), { s with nodes := dset s.nodes n [] })

/-- the address of `index[name][ident]`, if it is there (no code in /repo) -/
def NIndex.addr (s : NIndex) (n : String) (i : Val) : Option Nat := (dget s.nodes n).bind fun d => dget d i

/-- `node_idx[ident]` where `node_idx` is `index[name]`: `defaultdict.__missing__` of the inner level (result.py:45-46);
KeyError after `finish`.  Inner levels are never replaced, so the name stands for the object `node_idx`. -/
def getObj (n : String) (i : Val) : NM Nat := fun s =>
  match s.addr n i with
  | some a => (.ok a, s)
  | none =>
      if s.finished then (.error .keyError, s)
      else (.ok s.dicts.length,
        { s with nodes := dset s.nodes n (dset ((dget s.nodes n).getD []) i s.dicts.length), dicts := s.dicts ++ [[]] })

/-- `obj.__dict__[self.func.__name__] = self.func(obj)` for `root` (utils.py:13) -/
def setRoot (a : Nat) : NM Nat := fun s => (.ok a, { s with root := some a })

/-- `Index.root` behind `cached_property.__get__` (result.py:48-50, utils.py:10-14) -/
def getRoot : NM Nat := fun s =>
  match s.root with
  | some a => (.ok a, s)
  | none => (do
      getNode rootName
      let a ← getObj rootName rootIdent
      setRoot a : NM Nat) s

/-- `d.update(pairs)` for the dict at an address, also `d[key] = value` (engine.py:165, 168, 249, 251) -/
def update (a : Nat) (kvs : List (String × Val)) : NM Unit := fun s =>
  (.ok (), { s with dicts := s.dicts.modify a fun d => dupdate d kvs })

/-- `d[key]` for the dict at an address; KeyError -/
def readKey (a : Nat) (k : String) : NM Val := fun s =>
  match (s.dicts[a]?).bind fun d => dget d k with
  | some v => (.ok v, s)
  | none => (.error .keyError, s)

/-- `for i, row in zip(ids, query_result): node_idx[i].update(zip(names, row))` (engine.py:164-165) -/
def writeRows (n : String) (names : List String) : List (Val × List Val) → NM Unit
  | [] => pure ()
  | (i, row) :: r => do
      let a ← getObj n i
      update a (names.zip row)
      writeRows n names r

/-- `store_fields` (engine.py:152-168) -/
def storeFields (H : PyHash) (node : GNode) (qfs : List QItem) (ids : Option (List Val)) (result : Val) : NM Unit := do
  let rows ← lift (checkStoreFields node qfs.length ids result)
  let names := qfs.map (QItem.indexKey H)
  match node.name with
  | some n =>
      match ids with
      | none => lift (.error .assertionError)
      | some ids => do
          getNode n
          writeRows n names (ids.zip rows)
  | none =>
      match ids with
      | some _ => lift (.error .assertionError)
      | none =>
          match rows with
          | [row] => do
              let a ← getRoot
              update a (names.zip row)
          | _ => lift (.error .assertionError)

/-- `[node_idx[i][link.requires] for i in ids]` (engine.py:175) -/
def readReqs (n : String) (req : String) : List Val → NM (List Val)
  | [] => pure []
  | i :: r => do
      let a ← getObj n i
      let v ← readKey a req
      let vs ← readReqs n req r
      pure (v :: vs)

/-- `link_reqs` (engine.py:171-177) -/
def linkReqs (node : GNode) (req : String) (ids : Option (List Val)) : NM Val :=
  match node.name with
  | some n =>
      match ids with
      | none => lift (.error .assertionError)
      | some ids => do
          getNode n
          let vs ← readReqs n req ids
          pure (.list vs)
  | none => do
      let a ← getRoot
      readKey a req

/-- `for i, res in zip(ids, query_result): node_idx[i][key] = field_val(res)` (engine.py:248-249); the value is computed
before `node_idx[i]` -/
def writeLinks (n : String) (gl : GLink) (key : String) : List (Val × Val) → NM Unit
  | [] => pure ()
  | (i, res) :: r => do
      let v ← lift (linkRef gl res)
      let a ← getObj n i
      update a [(key, v)]
      writeLinks n gl key r

/-- `store_links` (engine.py:238-251) -/
def storeLinks (H : PyHash) (node : GNode) (gl : GLink) (ql : QItem) (ids : Option (List Val)) (result : Val) : NM Unit := do
  lift (checkStoreLinks node gl ids result)
  match node.name with
  | some n =>
      match ids with
      | none => lift (.error .assertionError)
      | some ids => do
          let rs := if gl.requires.isNone then List.replicate ids.length result else result.asSeq.getD []
          getNode n
          writeLinks n gl (ql.indexKey H) (ids.zip rs)
  | none => do
      let v ← lift (linkRef gl result)
      let a ← getRoot
      update a [(ql.indexKey H, v)]

/-- `Index.finish` (result.py:52-55) -/
def finish (s : NIndex) : NIndex := { s with finished := true }

/-- `Proxy.__getitem__` down to the stored value (result.py:66-83) -/
def proxyCell (H : PyHash) (node : String) (ident : Val) (q : QNode) (key : String) : NM (QItem × Val) :=
  match dget q.resultMap key with
  | none => lift (.error .keyError)
  | some f => fun s =>
      match (do getNode node; getObj node ident : NM Nat) s with
      | (.error _, s') => (.error .assertionError, s')
      | (.ok a, s') =>
          match readKey a (f.indexKey H) s' with
          | (.error _, s'') => (.error .assertionError, s'')
          | (.ok v, s'') => (.ok (f, v), s'')

/-- what a query does with its index (engine.py:351, 372, 379) -/
inductive Op where
  | fields (node : GNode) (qfs : List QItem) (ids : Option (List Val)) (result : Val)
  | links (node : GNode) (gl : GLink) (ql : QItem) (ids : Option (List Val)) (result : Val)
  | reqs (node : GNode) (req : String) (ids : Option (List Val))

/-- one operation, with what it returns or raises (engine.py:351, 372, 379) -/
def nstep (H : PyHash) : Op → NM (Option Val)
  | .fields node qfs ids result => do
      storeFields H node qfs ids result
      pure none
  | .links node gl ql ids result => do
      storeLinks H node gl ql ids result
      pure none
  | .reqs node req ids => do
      let v ← linkReqs node req ids
      pure (some v)

/-- the same operation on the flat index of the rest of the model (Model/StoreFx, Model/Engine) -/
def fstep (H : PyHash) (op : Op) (idx : Index) : Except Err (Option Val) × Index :=
  match op with
  | .fields node qfs ids result =>
      let r := storeFieldsFx H idx node qfs ids result
      (r.2.map fun _ => none, r.1)
  | .links node gl ql ids result =>
      let r := storeLinksFx H idx node gl ql ids result
      (r.2.map fun _ => none, r.1)
  | .reqs node req ids => ((Hiku.linkReqs idx node req ids).map some, idx)

/-- a history; the outcomes and the index at the end (no code in /repo) -/
def nrun (H : PyHash) : List Op → NIndex → List (Except Err (Option Val)) × NIndex
  | [], s => ([], s)
  | op :: r, s =>
      let x := nstep H op s
      let y := nrun H r x.2
      (x.1 :: y.1, y.2)

/-- the same history on the flat index (no code in /repo) -/
def frun (H : PyHash) : List Op → Index → List (Except Err (Option Val)) × Index
  | [], s => ([], s)
  | op :: r, s =>
      let x := fstep H op s
      let y := frun H r x.2
      (x.1 :: y.1, y.2)

end Hiku.NIdx
