import Verif.Spec.Plan
import Verif.Spec.Ordered

/-! Specification for C64: how long a query takes, computed from the query and the graphs alone.

`wt f` is the time which one call of the data function `f` takes at most.  Everything which does not
need a result of something else goes on at the same time: the time of a node is the largest of the times
of its parts, and times are added only along a chain of calls in which one needs the result of the
previous one:

* fields with one function are one call; fields defined over one sub-graph are one query against it;
* a link which requires a field starts when the call which loads this field has finished;
* the objects behind a link are loaded when the link has been loaded;
* the steps of an ordered node follow one another (but not the loading of the objects behind links). -/

namespace Hiku
namespace Lat

def maxOf (l : List Nat) : Nat := l.foldr max 0

/-- the function which loads the item as a field of the node; none for links -/
def loader (gn : GNode) (q : QItem) : Option FKey :=
  match q, gn.get q.name with
  | .link .., some (.link _) => none
  | _, some gi => some gi.funcKey
  | _, none => none

section
variable (wt : PFunc → Nat) (subt : Nat → List QNode → Nat)

/-- the time of one call which loads fields; `subt sg reqs` is the time of a query of the sub-graph `sg`
for the requirements `reqs` of several fields -/
def callTime (gn : GNode) (k : FKey) (items : List QItem) : Nat :=
  match k with
  | .plain f => wt f
  | .sub sg => subt sg (items.filterMap (requirements gn))

/-! ### ordered nodes -/

/-- the time of a step: a link or several fields with one function -/
def stepTime (gn : GNode) : List QItem → Nat
  | [] => 0
  | q :: r =>
      match loader gn q with
      | some k => callTime wt subt gn k (q :: r)
      | none =>
          match gn.get q.name with
          | some (.link gl) => wt gl.func
          | _ => 0

/-- the time which passes until all of the items have been loaded one after another (neighbours with one
function are loaded together) -/
def elapsed (gn : GNode) (items : List QItem) : Nat :=
  ((items.splitBy fun a b => decide ((loader gn a).isSome ∧ loader gn a = loader gn b)).map
    (stepTime wt subt gn)).sum

/-! ### unordered nodes -/

/-- the time of the call which loads the item as a field of a node, together with all the `items` of the
node which have the same function -/
def batchTime (gn : GNode) (items : List QItem) (q : QItem) : Nat :=
  match loader gn q with
  | none => 0
  | some k => callTime wt subt gn k ((expand gn items).filter fun x => loader gn x = some k)

/-! ### both -/

/-- the field which is loaded before the link -/
def required (gl : GLink) : List QItem :=
  if gl.reqTruthy then [.field (gl.requires.getD "") none none] else []

/-- the time after which all fields of the node are there -/
def fieldsTime (gn : GNode) (ordered : Bool) (items : List QItem) : Nat :=
  if ordered then elapsed wt subt gn (expand gn items)
  else maxOf ((expand gn items).map (batchTime wt subt gn items))

/-- the time after which the function of a link is called; `before` are the items before the link -/
def linkStart (gn : GNode) (ordered : Bool) (items before : List QItem) (gl : GLink) : Nat :=
  if ordered then elapsed wt subt gn (expand gn before ++ required gl)
  else maxOf ((required gl).map (batchTime wt subt gn items))

mutual
/-- the time of a query node on objects of the node `gn` -/
def nodeTime (g : Graph) (gn : GNode) : QNode → Nat
  | .mk fs ordered => max (fieldsTime wt subt gn ordered fs) (linksTime g gn ordered fs [] fs)
def linksTime (g : Graph) (gn : GNode) (ordered : Bool) (items before : List QItem) : List QItem → Nat
  | [] => 0
  | i :: r => max (linkTime g gn ordered items before i) (linksTime g gn ordered items (before ++ [i]) r)
/-- the time after which everything behind the link is loaded -/
def linkTime (g : Graph) (gn : GNode) (ordered : Bool) (items before : List QItem) : QItem → Nat
  | .field .. => 0
  | .link n q _ _ =>
      match gn.get n with
      | some (.link gl) =>
          linkStart wt subt gn ordered items before gl + wt gl.func +
            (match g.node gl.node with
             | some t => nodeTime g t q
             | none => 0)
      | _ => 0
end

end

/-- The time of a query of a sub-graph for the requirements of several fields: the merged requirements,
below `this` on the objects themselves, the others on the root of the lower graph, at the same time. -/
def subTime (sys : Sys) (H : PyHash) (wt : PFunc → Nat) (gi : Nat) : Nat → List QNode → Nat := fun sg reqs =>
  match sys.subs[sg]? with
  | none => 0
  | some s =>
      if _h : s.graph < gi then
        match sys.graphs[s.graph]? with
        | none => 0
        | some g =>
            max
              (match g.node s.node, dget (merge H reqs).fieldsMap THIS with
               | some t, some (.link _ q _ _) => nodeTime wt (subTime sys H wt s.graph) g t q
               | _, _ => 0)
              (nodeTime wt (subTime sys H wt s.graph) g g.root
                (.mk ((merge H reqs).fields.filter fun r => r.name ≠ THIS) false))
      else 0
termination_by gi

/-- the time of a query of the graph number `gi` -/
def queryTime (sys : Sys) (H : PyHash) (wt : PFunc → Nat) (gi : Nat) (q : QNode) : Nat :=
  match sys.graphs[gi]? with
  | none => 0
  | some g => nodeTime wt (subTime sys H wt gi) g g.root q

/-- the number of rounds of the executor in the log -/
def rounds (log : List Ev) : Nat := (log.filter fun | .call _ => false | .done _ => true).length

/-- No task is older than its function allows: a task which is outstanding after `round` rounds was
submitted less than `wt` rounds ago. -/
def InTime (wt : PFunc → Nat) (round : Nat) (st : St) : Prop :=
  ∀ pre s post, st.log = pre ++ .call s :: post → s.fut ∈ st.q.outstanding → round < rounds pre + wt s.func

/-! ### a simpler bound -/

mutual
/-- how deep links are nested in the query -/
def depth : QNode → Nat
  | .mk fs _ => depthItems fs
def depthItems : List QItem → Nat
  | [] => 0
  | i :: r => max (depthItem i) (depthItems r)
def depthItem : QItem → Nat
  | .field .. => 0
  | .link _ q _ _ => depth q + 1
end

mutual
/-- no node of the query is ordered -/
def Unordered : QNode → Prop
  | .mk fs ordered => ordered = false ∧ UnorderedItems fs
def UnorderedItems : List QItem → Prop
  | [] => True
  | i :: r => UnorderedItem i ∧ UnorderedItems r
def UnorderedItem : QItem → Prop
  | .field .. => True
  | .link _ q _ _ => Unordered q
end

/-- no field of the graph is defined over a sub-graph -/
def NoSubGraphs (g : Graph) : Prop :=
  ∀ gn, IsNode g gn → ∀ n gf, gn.get n = some (.field gf) → ∃ f, gf.func = .plain f

end Lat
end Hiku
