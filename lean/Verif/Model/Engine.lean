import Verif.Model.InitOptions
import Verif.Model.Index
import Verif.Model.Queue

/-! # hiku/engine.py and hiku/sources/graph.py: query execution -/

namespace Hiku

/-- `sources.graph.SubGraph` (sources/graph.py:89-94): the lower graph (by number) and node -/
structure SubGraph where
  graph : Nat
  node : String

/-- All graphs of a program in the order of their creation, and the `SubGraph` objects.  A sub-graph
can only be built on a graph which already exists. -/
structure Sys where
  graphs : List Graph
  subs : List SubGraph

/-- arguments passed to data functions -/
inductive Arg where
  | ctx
  | fields (l : List QItem)
  | ids (l : List Val)
  | val (v : Val)
  | opts (o : Opts)

/-- The outside world.  `call n f args` is the outcome of the data function `f` in the `n`-th
submission (so functions may be stateful); `proc` interprets the compiled expression procedures of
sub-graph fields on the data visible through the `this` proxy and the root proxy (see
`resultProc`). -/
structure World where
  call : Nat → Nat → List Arg → Except Err Val
  proc : Nat → Val → Val → List Val → Except Err Val

/-- `atOnce n`: a failure of the `n`-th submission is raised by `executor.submit` itself, not later by
`Future.result`.  executors/sync.py:12-13: always (the function runs inside `submit`);
executors/threads.py:9-10: never; executors/asyncio.py:13-18: when the exception is raised by the
call and not by the awaitable it returns, or when the result is not awaitable (TypeError). -/
structure Env where
  sys : Sys
  world : World
  H : PyHash
  atOnce : Nat → Bool := fun _ => false

/-- the exception raised by `executor.submit` in the `n`-th submission -/
def Env.refused (env : Env) (n : Nat) : Except Err Val → Option Err
  | .ok _ => none
  | .error e => if env.atOnce n then some e else none

/-- where the data of a `store_fields` callback comes from: `dep.result` or the result procedure of
a sub-graph workflow (engine.py:358-374) -/
inductive Src where
  | fut (f : Nat)
  | sub (w : Nat) (procs : List (Nat × List Val))

/-- a step of an ordered node: a list of fields with one function, or a link (engine.py:93-125) -/
inductive Step where
  | fields (k : FKey) (items : List (GItem × QItem))
  | link (gl : GLink) (ql : QItem)

/-- The closures which the engine registers as callbacks; `w` is the `Query` object (`self`).
* `store`: `lambda: store_fields(self._index, node, query_fields, ids, proc())` engine.py:370-373
* `schedLink`: `partial(self._schedule_link, node, graph_link, query_link, ids)` engine.py:337-342
* `procLink`: `lambda: self.process_link(...)` engine.py:383-386
* `procSteps`: `lambda: proc(steps)` engine.py:313 -/
inductive CB where
  | store (w : Nat) (node : GNode) (qfs : List QItem) (ids : Option (List Val)) (src : Src)
  | schedLink (w : Nat) (node : GNode) (gl : GLink) (ql : QItem) (ids : Option (List Val))
  | procLink (w : Nat) (node : GNode) (gl : GLink) (ql : QItem) (ids : Option (List Val)) (fut : Nat)
  | procSteps (w : Nat) (node : GNode) (ids : Option (List Val)) (steps : List Step)

/-- a `Query` workflow object, engine.py:279-285 -/
structure Wf where
  graph : Nat
  query : QNode
  ts : Nat
  index : Index := []

/-- one submission: the future, the task set, the function and its arguments; and where it comes from:
the `Query` workflow object and the node (`none` for the root node) -/
structure Submit where
  fut : Nat
  ts : Nat
  func : PFunc
  args : List Arg
  wf : Nat
  node : Option String

/-- What an observer of the executor sees: submissions of data functions, and the futures reported
as finished at the beginning of a round. -/
inductive Ev where
  | call (s : Submit)
  | done (futs : List Nat)

/-- The state of an execution: the queue, the outcomes of all submitted futures (future `n` is the
`n`-th submission), the workflow objects and the log of events (the log does not exist in the code,
nothing in the model reads it). -/
structure St where
  q : Queue CB := {}
  results : List (Except Err Val) := []
  wfs : List Wf := []
  log : List Ev := []

def qlens : QLens St CB where
  get s := s.q
  put s q := { s with q := q }

/-! ## Storing results -/

/-- `_check_store_fields`, engine.py:128-149.  On success returns the rows which `store_fields`
iterates over (a single row for the root node). -/
def checkStoreFields (node : GNode) (nfields : Nat) (ids : Option (List Val)) (result : Val) :
    Except Err (List (List Val)) :=
  match node.name with
  | some _ =>
      match ids with
      | none => .error .assertionError
      | some ids =>
          match result.asSeq with
          | none => .error .typeError
          | some rows =>
              if rows.length = ids.length then
                match rows.mapM Val.asSeq with
                | none => .error .typeError
                | some rows' =>
                    if rows'.all (fun r => r.length == nfields) then .ok rows' else .error .typeError
              else .error .typeError
  | none =>
      match result.asSeq with
      | none => .error .typeError
      | some row => if row.length = nfields then .ok [row] else .error .typeError

/-- `node_idx[i].update(zip(names, row))`, engine.py:152-168 -/
def storeRow (idx : Index) (node : String) (ident : Val) (names : List String) (row : List Val) :
    Index :=
  dupdate idx ((names.zip row).map fun p => ((node, ident, p.1), p.2))

/-- `for i, row in zip(ids, query_result): ...`, engine.py:152-168 -/
def storeRows (idx : Index) (node : String) (names : List String) : List (Val × List Val) → Index
  | [] => idx
  | (i, row) :: r => storeRows (storeRow idx node i names row) node names r

/-- `store_fields`, engine.py:152-168.  A generator is made a list there: a function which returns a generator is
represented as a function which returns the list of its items (or raises what the generator raises; both are raised
when the result is stored). -/
def storeFields (H : PyHash) (idx : Index) (node : GNode) (qfs : List QItem)
    (ids : Option (List Val)) (result : Val) : Except Err Index := do
  let rows ← checkStoreFields node qfs.length ids result
  let names := qfs.map (QItem.indexKey H)
  match node.name with
  | some n =>
      match ids with
      | none => .error .assertionError
      | some ids => .ok (storeRows idx n names (ids.zip rows))
  | none =>
      match ids with
      | some _ => .error .assertionError
      | none =>
          match rows with
          | [row] => .ok (storeRow idx rootName rootIdent names row)
          | _ => .error .assertionError

/-- `link_reqs`, engine.py:171-177 -/
def linkReqs (idx : Index) (node : GNode) (req : String) (ids : Option (List Val)) :
    Except Err Val :=
  match node.name with
  | some n =>
      match ids with
      | none => .error .assertionError
      | some ids => do
          let vs ← ids.mapM fun i =>
            match dget idx (n, i, req) with
            | none => .error Err.keyError
            | some v => .ok v
          .ok (.list vs)
  | none =>
      match dget idx (rootName, rootIdent, req) with
      | none => .error .keyError
      | some v => .ok v

/-- `link_ref_maybe`, `link_ref_one`, `link_ref_many`, engine.py:180-200 -/
def linkRef (gl : GLink) (v : Val) : Except Err Val :=
  match gl.typeEnum with
  | .maybe => if v = .nothing then .ok .none else .ok (.ref gl.node v)
  | .one => if v = .nothing then .error .assertionError else .ok (.ref gl.node v)
  | .many =>
      match v.asSeq with
      | none => .error .typeError
      | some ids => .ok (.list (ids.map (.ref gl.node)))

/-- `_check_store_links`, engine.py:203-235 -/
def checkStoreLinks (node : GNode) (gl : GLink) (ids : Option (List Val)) (result : Val) :
    Except Err Unit :=
  if node.name.isSome && gl.requires.isSome then
    match ids with
    | none => .error .assertionError
    | some ids =>
        match result.asSeq with
        | none => .error .typeError
        | some rs =>
            if rs.length = ids.length then
              match gl.typeEnum with
              | .one | .maybe => .ok ()
              | .many => if rs.all (fun r => r.asSeq.isSome) then .ok () else .error .typeError
            else .error .typeError
  else
    match gl.typeEnum with
    | .one | .maybe => .ok ()
    | .many => if result.asSeq.isSome then .ok () else .error .typeError

/-- `for i, res in zip(ids, query_result): node_idx[i][key] = field_val(res)`, engine.py:238-251 -/
def storeLinkRows (idx : Index) (node : String) (gl : GLink) (key : String) :
    List (Val × Val) → Except Err Index
  | [] => .ok idx
  | (i, res) :: r => do
      let v ← linkRef gl res
      storeLinkRows (dset idx (node, i, key) v) node gl key r

/-- the part of `store_links` after the check, engine.py:241-251 -/
def writeLinks (H : PyHash) (idx : Index) (node : GNode) (gl : GLink) (ql : QItem)
    (ids : Option (List Val)) (result : Val) : Except Err Index :=
  match node.name with
  | some n =>
      match ids with
      | none => .error .assertionError
      | some ids =>
          let rs := if gl.requires.isNone then List.replicate ids.length result
                    else result.asSeq.getD []
          storeLinkRows idx n gl (ql.indexKey H) (ids.zip rs)
  | none => do
      let v ← linkRef gl result
      .ok (dset idx (rootName, rootIdent, ql.indexKey H) v)

/-- `store_links`, engine.py:238-251 -/
def storeLinks (H : PyHash) (idx : Index) (node : GNode) (gl : GLink) (ql : QItem)
    (ids : Option (List Val)) (result : Val) : Except Err Index := do
  let _ ← checkStoreLinks node gl ids result
  writeLinks H idx node gl ql ids result

/-- `link_result_to_ids`, engine.py:254-274 -/
def linkResultToIds (fromList : Bool) (t : LinkType) (result : Val) : Except Err (List Val) :=
  if fromList then
    match result.asSeq with
    | none => .error .typeError
    | some rs =>
        match t with
        | .maybe => .ok (rs.filter (· ≠ .nothing))
        | .one => if rs.any (· = .nothing) then .error .typeError else .ok rs
        | .many =>
            match rs.mapM Val.asSeq with
            | none => .error .typeError
            | some l => .ok l.flatten
  else
    match t with
    | .maybe => .ok (if result = .nothing then [] else [result])
    | .one => if result = .nothing then .error .typeError else .ok [result]
    | .many =>
        match result.asSeq with
        | none => .error .typeError
        | some l => .ok l

/-! ## Splitting a query node -/

/-- `SplitQuery.visit_field`, engine.py:75-78 -/
def splitField (node : GNode) (name : String) (q : QItem) : Except Err (FKey × GItem × QItem) :=
  match node.get name with
  | none => .error .keyError
  | some (.field gf) => .ok (gf.func.key, .field gf, q)
  | some (.link gl) => .ok (.plain gl.func, .link gl, q)

/-- `SplitQuery`, engine.py:60-90: fields with their functions (the fields required by links
included, at the position of the link) and links -/
def splitItems (node : GNode) : List QItem →
    Except Err (List (FKey × GItem × QItem) × List (GLink × QItem))
  | [] => .ok ([], [])
  | .field n o a :: r => do
      let f ← splitField node n (.field n o a)
      let (fs, ls) ← splitItems node r
      .ok (f :: fs, ls)
  | .link n q o a :: r =>
      match node.get n with
      | none => .error .keyError
      | some (.link gl) => do
          let pre ← (if gl.reqTruthy then do
              let f ← splitField node (gl.requires.getD "") (.field (gl.requires.getD "") none none)
              pure [f]
            else pure [])
          let (fs, ls) ← splitItems node r
          .ok (pre ++ fs, (gl, .link n q o a) :: ls)
      | some (.field gf) => do
          let (fs, ls) ← splitItems node r
          .ok ((gf.func.key, .field gf, .link n q o a) :: fs, ls)

/-- `GroupQuery.visit_field`, engine.py:109-117: appends to the current group if the function is
the current one -/
def groupField (steps : List Step) (cur : Option FKey) (k : FKey) (gi : GItem) (q : QItem) :
    List Step :=
  if cur = some k then
    match steps.getLast? with
    | some (.fields k' items) => steps.dropLast ++ [.fields k' (items ++ [(gi, q)])]
    | _ => steps ++ [.fields k [(gi, q)]]
  else steps ++ [.fields k [(gi, q)]]

/-- `GroupQuery`, engine.py:93-125, with the accumulated steps and the current function -/
def groupItems (node : GNode) (steps : List Step) (cur : Option FKey) :
    List QItem → Except Err (List Step)
  | [] => .ok steps
  | .field n o a :: r => do
      let (k, gi, q) ← splitField node n (.field n o a)
      groupItems node (groupField steps cur k gi q) (some k) r
  | .link n q o a :: r =>
      match node.get n with
      | none => .error .keyError
      | some (.field _) => .error .attributeError
      | some (.link gl) => do
          let steps' ← (if gl.reqTruthy then do
              let (k, gi, f) ← splitField node (gl.requires.getD "")
                (.field (gl.requires.getD "") none none)
              pure (groupField steps cur k gi f)
            else pure steps)
          groupItems node (steps' ++ [.link gl (.link n q o a)]) none r

/-! ## Scheduling -/

section
variable (env : Env)

/-- `Query._submit`, engine.py:287-291, with `TaskSet.submit`/`Queue.submit`: the context is the
first argument of functions marked with `pass_context` (`nd`, the name of the node, is only written to
the log) -/
def submitCall (w : Nat) (nd : Option String) (f : PFunc) (args : List Arg) (st : St) : Except Err (St × Nat) :=
  match st.wfs[w]? with
  | none => .error .assertionError
  | some wf =>
      let args' := if f.passCtx then Arg.ctx :: args else args
      let fut := st.results.length
      match env.refused fut (env.world.call fut f.id args') with
      | some e => .error e
      | none =>
      match st.q.submit wf.ts fut with
      | .error e => .error e
      | .ok q' =>
          let st' : St := { st with
            q := q'
            results := st.results ++ [env.world.call fut f.id args']
            log := st.log ++ [.call ⟨fut, wf.ts, f, args', w, nd⟩] }
          .ok (st', fut)

def addCB (o : Obj) (cb : CB) (st : St) : St := { st with q := st.q.addCallback o cb }

/-- The implementation of `SubGraph.__call__` passed to the scheduling functions (it calls them
again for the lower graph): sub-graph, fields, ids, task set. -/
abbrev SubCall := Nat → List (GItem × QItem) → List Val → Nat → St → Except Err (St × Src)

/-- `Query._schedule_fields`, engine.py:358-374 -/
def scheduleFields (sub : SubCall) (w : Nat) (node : GNode) (k : FKey) (items : List (GItem × QItem))
    (ids : Option (List Val)) (st : St) : Except Err (St × Obj) :=
  let qfs := items.map (·.2)
  match k with
  | .sub sg =>
      match ids with
      | none => .error .assertionError
      | some ids' =>
          match st.wfs[w]? with
          | none => .error .assertionError
          | some wf => do
              let (q', dep) ← st.q.fork (some wf.ts)
              let (st', src) ← sub sg items ids' dep { st with q := q' }
              .ok (addCB (.ts dep) (.store w node qfs ids src) st', .ts dep)
  | .plain f => do
      let args := match ids with
        | none => [Arg.fields qfs]
        | some ids' => [Arg.fields qfs, Arg.ids ids']
      let (st', fut) ← submitCall env w node.name f args st
      .ok (addCB (.fut fut) (.store w node qfs ids (.fut fut)) st', .fut fut)

/-- `Query._schedule_link`, engine.py:376-387 -/
def scheduleLink (w : Nat) (node : GNode) (gl : GLink) (ql : QItem) (ids : Option (List Val))
    (st : St) : Except Err (St × Obj) :=
  match st.wfs[w]? with
  | none => .error .assertionError
  | some wf => do
      let reqArgs ← (if gl.reqTruthy then do
          let v ← linkReqs wf.index node (gl.requires.getD "") ids
          pure [Arg.val v]
        else pure [])
      let optArgs := if gl.options.isEmpty then [] else [Arg.opts ql.options]
      let (st', fut) ← submitCall env w node.name gl.func (reqArgs ++ optArgs) st
      .ok (addCB (.fut fut) (.procLink w node gl ql ids fut) st', .fut fut)

/-- `proc` of `_process_node_ordered`, engine.py:300-316: run the first step and register the rest
on its completion -/
def runSteps (sub : SubCall) (w : Nat) (node : GNode) (ids : Option (List Val)) :
    List Step → St → Except Err St
  | [], st => .ok st
  | step :: rest, st => do
      let (st', dep) ← (match step with
        | .fields k items => scheduleFields env sub w node k items ids st
        | .link gl ql => scheduleLink env w node gl ql ids st)
      .ok (if rest.isEmpty then st' else addCB dep (.procSteps w node ids rest) st')

/-- grouping of `from_func`, engine.py:325-329 -/
def addToGroup (k : FKey) (x : GItem × QItem) :
    List (FKey × List (GItem × QItem)) → List (FKey × List (GItem × QItem))
  | [] => [(k, [x])]
  | (k', xs) :: r => if k' = k then (k', xs ++ [x]) :: r else (k', xs) :: addToGroup k x r

def groupByFunc (fields : List (FKey × GItem × QItem)) : List (FKey × List (GItem × QItem)) :=
  fields.foldl (fun acc f => addToGroup f.1 (f.2.1, f.2.2) acc) []

/-- engine.py:331-334: schedule every group, remembering the dependency object of each function -/
def scheduleGroups (sub : SubCall) (w : Nat) (node : GNode) (ids : Option (List Val)) :
    List (FKey × List (GItem × QItem)) → St → Except Err (St × List (FKey × Obj))
  | [], st => .ok (st, [])
  | (k, items) :: r, st => do
      let (st1, dep) ← scheduleFields env sub w node k items ids st
      let (st2, deps) ← scheduleGroups sub w node ids r st1
      .ok (st2, (k, dep) :: deps)

/-- engine.py:336-344 -/
def scheduleLinks (w : Nat) (node : GNode) (ids : Option (List Val))
    (toFunc : List (String × FKey)) (toDep : List (FKey × Obj)) :
    List (GLink × QItem) → St → Except Err St
  | [], st => .ok st
  | (gl, ql) :: r, st =>
      if gl.reqTruthy then
        match dget toFunc (gl.requires.getD "") with
        | none => .error .keyError
        | some k =>
            match dget toDep k with
            | none => .error .keyError
            | some dep =>
                scheduleLinks w node ids toFunc toDep r (addCB dep (.schedLink w node gl ql ids) st)
      else do
        let (st', _) ← scheduleLink env w node gl ql ids st
        scheduleLinks w node ids toFunc toDep r st'

/-- `Query.process_node`, engine.py:318-344 -/
def processNode (sub : SubCall) (w : Nat) (node : GNode) (q : QNode) (ids : Option (List Val))
    (st : St) : Except Err St :=
  if q.ordered then do
    let steps ← groupItems node [] none q.fields
    runSteps env sub w node ids steps st
  else do
    let (fields, links) ← splitItems node q.fields
    let toFunc := dmk (fields.map fun f => (f.2.1.name, f.1))
    let (st', toDep) ← scheduleGroups env sub w node ids (groupByFunc fields) st
    scheduleLinks env w node ids toFunc toDep links st'

def setIndex (w : Nat) (idx : Index) (st : St) : St :=
  { st with wfs := st.wfs.modify w fun wf => { wf with index := idx } }

/-- `Query.process_link`, engine.py:346-356 (generators: see `storeFields`) -/
def processLink (sub : SubCall) (w : Nat) (node : GNode) (gl : GLink) (ql : QItem)
    (ids : Option (List Val)) (result : Val) (st : St) : Except Err St :=
  match st.wfs[w]? with
  | none => .error .assertionError
  | some wf => do
      let idx ← storeLinks env.H wf.index node gl ql ids result
      let st := setIndex w idx st
      let fromList := ids.isSome && gl.requires.isSome
      let toIds ← linkResultToIds fromList gl.typeEnum result
      if toIds.isEmpty then .ok st
      else
        match env.sys.graphs[wf.graph]? with
        | none => .error .assertionError
        | some g =>
            match g.node gl.node, ql with
            | none, _ => .error .keyError
            | some _, .field .. => .error .attributeError
            | some target, .link _ q _ _ => processNode env sub w target q (some toIds) st

/-- the requirement and procedure of a field resolved by a sub-graph, `gf.func.reqs`,
`gf.func.proc` (sources/graph.py:71-77, 110-111) -/
def checkedOf : GItem → Except Err (QNode × Nat)
  | .field { func := .checked _ reqs proc, .. } => .ok (reqs, proc)
  | _ => .error .attributeError

/-- `[qf.options[opt.name] for opt in gf.options]`, sources/graph.py:112-113: TypeError if the
options are None, KeyError for a missing option -/
def optionValues (gi : GItem) (q : QItem) : Except Err (List Val) :=
  gi.options.mapM fun op =>
    match q.options with
    | none => .error Err.typeError
    | some o =>
        match dget o op.name with
        | none => .error .keyError
        | some v => .ok v

def THIS : String := "this"

/-- `this_graph_link`, sources/graph.py:107-108 -/
def thisLink (node : String) : GLink :=
  { name := THIS, typeEnum := .many, node := node, func := { id := 0 }, requires := none }

/-- `SubGraph.__call__`, sources/graph.py:106-123, given the implementation for the sub-graphs of the
lower graph -/
def subGraphCall (inner : SubCall) : SubCall := fun sg fields ids ts st =>
  match env.sys.subs[sg]? with
  | none => .error .assertionError
  | some s =>
      match env.sys.graphs[s.graph]? with
      | none => .error .assertionError
      | some g => do
          let ch ← fields.mapM fun f => checkedOf f.1
          let reqs := merge env.H (ch.map (·.1))
          let opts ← fields.mapM fun f => optionValues f.1 f.2
          match dget reqs.fieldsMap THIS with
          | none => .error .keyError
          | some thisQ => do
              let other := QNode.mk (reqs.fields.filter fun r => r.name ≠ THIS) false
              let w := st.wfs.length
              let st := { st with wfs := st.wfs ++ [{ graph := s.graph, query := reqs, ts := ts }] }
              let st ← processLink env inner w g.root (thisLink s.node) thisQ none (.list ids) st
              let st ← processNode env inner w g.root other none st
              .ok (st, .sub w ((ch.map (·.2)).zip opts))

/-- sub-graph calls nested `n` levels deep; a graph with number `n` can only use sub-graphs on
graphs with smaller numbers, so `n` levels are enough for it -/
def subCall : Nat → SubCall
  | 0 => fun _ _ _ _ _ => .error .exception
  | n + 1 => subGraphCall env (subCall n)

/-- `_create_result_proc`, sources/graph.py:15-21.  The procedures get everything which can be read
through the proxies: `this` is unfolded by the requirements below the link `this`, the root by the
other requirements.  Simplification: unfolding is eager; compiled expressions read `this` only
through their first argument, so `this` is left out of the root data. -/
def resultProc (wf : Wf) (procs : List (Nat × List Val)) : Except Err Val := do
  let (f, v) ← proxyCell env.H wf.index rootName rootIdent wf.query THIS
  match f, v with
  | .link _ q _ _, .seq .list refs => do
      let root ← readNode env.H wf.index rootName rootIdent
        (.mk (wf.query.fields.filter fun r => r.name ≠ THIS) false)
      let rows ← refs.mapM fun r =>
        match r with
        | .ref n i => do
            let this ← readNode env.H wf.index n i q
            let row ← procs.mapM fun p => env.world.proc p.1 this root p.2
            pure (Val.list row)
        | _ => .error .attributeError
      .ok (.list rows)
  | _, _ => .error .typeError

/-- number of levels of sub-graphs -/
def Env.levels : Nat := env.sys.graphs.length

/-- running a callback -/
def runCB (cb : CB) (st : St) : Except Err St :=
  match cb with
  | .store w node qfs ids src => do
      let result ← (match src with
        | .fut f => (st.results[f]?).getD (.error .assertionError)
        | .sub w' procs =>
            match st.wfs[w']? with
            | none => .error .assertionError
            | some wf' => resultProc env wf' procs)
      match st.wfs[w]? with
      | none => .error .assertionError
      | some wf => do
          let idx ← storeFields env.H wf.index node qfs ids result
          .ok (setIndex w idx st)
  | .schedLink w node gl ql ids => do
      let (st', _) ← scheduleLink env w node gl ql ids st
      .ok st'
  | .procLink w node gl ql ids fut => do
      let result ← (st.results[fut]?).getD (.error .assertionError)
      processLink env (subCall env env.levels) w node gl ql ids result st
  | .procSteps w node ids steps => runSteps env (subCall env env.levels) w node ids steps st

/-- The executor loop, executors/threads.py:12-16, executors/asyncio.py:19-30,
executors/sync.py:15-18: `choose round outstanding` are the futures reported as finished in this
round. -/
def execLoop (choose : Nat → List Nat → List Nat) (inner : Nat) : Nat → Nat → St → Except Err St
  | 0, _, _ => .error .exception
  | fuel + 1, round, st =>
      if st.q.outstanding.isEmpty then .ok st
      else do
        let done := choose round st.q.outstanding
        let st' ← progress qlens (runCB env) inner done { st with log := st.log ++ [.done done] }
        execLoop choose inner fuel (round + 1) st'

/-- `Engine.execute` up to the start of the executor loop, engine.py:423-430 -/
def startQuery (g : Nat) (q : QNode) : Except Err St :=
  match env.sys.graphs[g]? with
  | none => .error .assertionError
  | some gr => do
      let q' ← initOptions gr q
      let (queue, ts) ← ({} : Queue CB).fork none
      let st : St := { q := queue, wfs := [{ graph := g, query := q', ts := ts }] }
      processNode env (subCall env env.levels) 0 gr.root q' none st

/-- `Engine.execute`, engine.py:423-431; the result is the index of the finished top workflow with
the query (`Query.result`, engine.py:296-298) -/
def execute (choose : Nat → List Nat → List Nat) (inner fuel : Nat) (g : Nat) (q : QNode) :
    Except Err (Index × QNode) := do
  let st ← startQuery env g q
  let st' ← execLoop env choose inner fuel 0 st
  match st'.wfs[0]? with
  | none => .error .assertionError
  | some wf => .ok (wf.index, wf.query)

end

end Hiku
