import Verif.Model.Transform
import Verif.Model.Engine

/-! # hiku/telemetry/prometheus.py -/

namespace Hiku.Telemetry
open Hiku.Transform

/-- what a wrapper function was made for: a field function (`_wrap_field`) or a link (`_wrap_link`, with the
name of the link) -/
inductive WKind where
  | field
  | link (name : String)
  deriving DecidableEq, Repr

/-- A wrapper function: the node label of its `observe`, the wrapped function.  The wrapper is marked with
`pass_context` iff the wrapped function is. -/
structure Wrapper where
  label : String
  inner : PFunc
  kind : WKind
  deriving DecidableEq

/-- The state of `GraphMetricsBase`, prometheus.py:43-47: the functions created so far, the wrappers of
sub-graphs created so far (label and wrapped sub-graph), and `self._wrappers`. -/
structure MSt where
  funcs : List Wrapper := []
  subs : List (String × Nat) := []
  wrappers : List (FKey × FKey) := []

/-- the function number `k` created by the transformer, when the functions of the program have numbers below
`base` -/
def newFunc (base k : Nat) (inner : PFunc) : PFunc := { id := base + k, passCtx := inner.passCtx }

/-- replacing the function of a field, prometheus.py:128-137 -/
def putFunc (f : GField) : FKey → GField
  | .plain w => { f with func := .plain w }
  | .sub sg =>
      match f.func with
      | .checked _ reqs proc => { f with func := .checked sg reqs proc }
      | .plain _ => f

/-- `GraphMetricsBase.visit_field`, prometheus.py:109-137, after `super().visit_field`.  `nm` is the name of
`self._node`, which is None on roots; `root` is `root_name`. -/
def metricsField (root : String) (base baseSub : Nat) (nm : Option String) (f : GField) (s : MSt) :
    GField × MSt :=
  match dget s.wrappers f.func.key with
  | some k => (putFunc f k, s)
  | none =>
      match f.func with
      | .plain inner =>
          let k := FKey.plain (newFunc base s.funcs.length inner)
          (putFunc f k, { s with
            funcs := s.funcs ++ [{ label := nm.getD root, inner := inner, kind := .field }]
            wrappers := dset s.wrappers f.func.key k })
      | .checked sg _ _ =>
          let k := FKey.sub (baseSub + s.subs.length)
          (putFunc f k, { s with
            subs := s.subs ++ [(nm.getD root, sg)]
            wrappers := dset s.wrappers f.func.key k })

/-- `GraphMetricsBase.visit_link`, prometheus.py:139-143, after `super().visit_link`: each link gets its own
wrapper -/
def metricsLink (root : String) (base : Nat) (nm : Option String) (l : GLink) (s : MSt) : GLink × MSt :=
  ({ l with func := newFunc base s.funcs.length l.func },
   { s with funcs := s.funcs ++ [{ label := nm.getD root, inner := l.func, kind := .link l.name }] })

/-- the transformer; the name of the root is "Root", prometheus.py:41 -/
def metricsHooks (base baseSub : Nat) : Hooks MSt where
  field := metricsField "Root" base baseSub
  link := metricsLink "Root" base

/-- `GraphMetrics(name).visit(graph)` -/
def metricsVisit (base baseSub : Nat) (g : Graph) : Except Err (Graph × MSt) :=
  visitGraph (metricsHooks base baseSub) g {}

/-- the field names which a wrapper reports: the names of the fields in the fields argument (the second one
for functions with a context), prometheus.py:26-31, or the name of the link, prometheus.py:90 -/
def observedNames (w : Wrapper) (args : List Arg) : Except Err (List String) :=
  match w.kind with
  | .link name => .ok [name]
  | .field =>
      let pos := if w.inner.passCtx then 1 else 0
      match args[pos]? with
      | some (Arg.fields qfs) => .ok (qfs.map QItem.name)
      | _ => .error .typeError

/-- A call of a wrapper function: the outcome and the observations (node label, field name).
`GraphMetrics.field_wrapper`, `link_wrapper`, prometheus.py:163-177, and their asynchronous versions,
prometheus.py:182-196 (awaiting is not represented), with `_observe_fields`, prometheus.py:61-73. -/
def wrapperCall (call : Nat → List Arg → Except Err Val) (w : Wrapper) (args : List Arg) :
    Except Err Val × List (String × String) :=
  match observedNames w args with
  | .error e => (.error e, [])
  | .ok names =>
      match call w.inner.id args with
      | .ok v => (.ok v, names.map fun n => (w.label, n))
      | .error e => (.error e, [])

/-- the program with the wrapper functions: `base` must be above the numbers of all functions -/
def metricsWorld (W : World) (base : Nat) (funcs : List Wrapper) : World where
  call n f args :=
    if f < base then W.call n f args
    else
      match funcs[f - base]? with
      | some w => (wrapperCall (W.call n) w args).1
      | none => .error .typeError
  proc := W.proc

/-- the observations made by a call in this program -/
def observations (W : World) (base : Nat) (funcs : List Wrapper) (n f : Nat) (args : List Arg) :
    List (String × String) :=
  if f < base then []
  else
    match funcs[f - base]? with
    | some w => (wrapperCall (W.call n) w args).2
    | none => []

/-- The wrappers of sub-graphs behave as the wrapped sub-graphs: `subquery_wrapper`, prometheus.py:148-158
(the observation happens when the result procedure runs). -/
def metricsSys (sys : Sys) (gi : Nat) (g' : Graph) (s : MSt) : Sys where
  graphs := sys.graphs.set gi g'
  subs := sys.subs ++ s.subs.map fun x => (sys.subs[x.2]?).getD { graph := sys.graphs.length, node := "" }

/-- The wrapper of a sub-graph, prometheus.py:148-158: the outcome of its result procedure and the
observations, when `names` are the names of the requested fields (`_subquery_field_names`,
prometheus.py:34-37). -/
def subqueryWrapper (label : String) (names : List String) (result : Except Err Val) :
    Except Err Val × List (String × String) :=
  match result with
  | .ok v => (.ok v, names.map fun n => (label, n))
  | .error e => (.error e, [])

end Hiku.Telemetry
