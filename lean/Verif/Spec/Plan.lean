import Verif.Spec.Calls
import Mathlib.Data.List.Dedup

/-! Specification for C59: the calls of data functions which a query makes, computed from the query and
the data alone: no queue, no callbacks, no index, no schedule.

The fields of a node which have one function are loaded by one call for all objects; a link is loaded
by one call for all objects; the objects behind a link are loaded together, by the same rules.  Fields
computed by a sub-graph load their merged requirements from the lower graph. -/

namespace Hiku

/-- a call of a data function: the function and its arguments -/
abbrev FCall := PFunc × List Arg

/-- the calls in the log of an execution, in order -/
def callsOf (log : List Ev) : List FCall :=
  log.filterMap fun e => match e with | .call s => some (s.func, s.args) | .done _ => none

/-- the function which loads the item as a field; none for links -/
def fieldFunc (gn : GNode) (q : QItem) : Option FKey :=
  match gn.get q.name with
  | some (.field gf) => some gf.func.key
  | _ => none

/-- what is loaded for an item of a query: a link is preceded by the field it requires -/
def loadItem (gn : GNode) : QItem → List QItem
  | .field n o a => [.field n o a]
  | .link n q o a =>
      match gn.get n with
      | some (.link gl) => (gl.requires.map fun r => QItem.field r none none).toList ++ [.link n q o a]
      | _ => [.link n q o a]

/-- Fields which are loaded together.  In an ordered node these are the fields with one function which
follow each other, otherwise all fields with one function.  (Links are in no group or in groups of
links, for which no field function is called.) -/
def together (gn : GNode) (ordered : Bool) (items : List QItem) : List (List QItem) :=
  let l := items.flatMap (loadItem gn)
  if ordered then
    l.splitBy fun a b => (fieldFunc gn a).isSome && fieldFunc gn a == fieldFunc gn b
  else
    (l.map (fieldFunc gn)).dedup.map fun k => l.filter fun q => fieldFunc gn q = k

/-- the requirements of a field computed by a sub-graph -/
def requirements (gn : GNode) (q : QItem) : Option QNode :=
  match gn.get q.name with
  | some (.field gf) =>
      match gf.func with
      | .checked _ reqs _ => some reqs
      | .plain _ => none
  | _ => none

/-- calls made by sub-graphs: sub-graph, requirements of the fields, objects -/
abbrev SubPlan := Nat → List QNode → List Val → List FCall

/-- the calls for a group of fields of the objects `ids` -/
def planFields (subp : SubPlan) (gn : GNode) (ids : Option (List Val)) : List QItem → List FCall
  | [] => []
  | q :: r =>
      match fieldFunc gn q with
      | none => []
      | some (.plain f) => [(f, withCtx f (.fields (q :: r) :: idsArg ids))]
      | some (.sub sg) => subp sg ((q :: r).filterMap (requirements gn)) (ids.getD [])

section
variable (D : Data) (sub : SubSem) (subp : SubPlan)

/-- the call of the function of a link -/
def planLink (gn : GNode) (ids : Option (List Val)) (gl : GLink) (o : Opts) : FCall :=
  (gl.func, withCtx gl.func (reqArg D sub gn ids gl.requires ++ optArgs gl o))

/-- the objects behind a link, in the order of the objects which have the link; a link which requires
nothing has the same value for all objects -/
def linkedObjects (gn : GNode) (ids : Option (List Val)) (gl : GLink) (o : Opts) : List Val :=
  match gl.requires with
  | none => targets gl.typeEnum (D.link gl.func none (declOpts gl o))
  | some _ => (identsOf ids).flatMap fun i => targets gl.typeEnum (semLink D sub gn i gl o)

mutual
/-- the calls for a query node on the objects `ids` of the node `gn` of the graph (`none`: the root) -/
def planNode (g : Graph) (gn : GNode) (ids : Option (List Val)) : QNode → List FCall
  | .mk fs ordered =>
      (together gn ordered fs).flatMap (planFields subp gn ids) ++ planItems g gn ids fs
def planItems (g : Graph) (gn : GNode) (ids : Option (List Val)) : List QItem → List FCall
  | [] => []
  | i :: r => planItem g gn ids i ++ planItems g gn ids r
/-- the calls for a link and for the objects behind it -/
def planItem (g : Graph) (gn : GNode) (ids : Option (List Val)) : QItem → List FCall
  | .field .. => []
  | .link n q o _ =>
      match gn.get n with
      | some (.link gl) =>
          planLink D sub gn ids gl o ::
            (if (linkedObjects D sub gn ids gl o).isEmpty then []
             else
               match g.node gl.node with
               | some t => planNode g t (some (linkedObjects D sub gn ids gl o)) q
               | none => [])
      | _ => []
end

end

/-- The calls for fields computed by a sub-graph: the merged requirements, below `this` on the objects
themselves, the others on the root of the lower graph. -/
def planSub (sys : Sys) (H : PyHash) (D : Data) (gi : Nat) : SubPlan := fun sg reqs ids =>
  match sys.subs[sg]? with
  | none => []
  | some s =>
      if _h : s.graph < gi then
        match sys.graphs[s.graph]? with
        | none => []
        | some g =>
            match g.node s.node, dget (merge H reqs).fieldsMap THIS with
            | some t, some (.link _ q _ _) =>
                planNode D (semSub sys D s.graph) (planSub sys H D s.graph) g t (some ids) q ++
                planNode D (semSub sys D s.graph) (planSub sys H D s.graph) g g.root none
                  (.mk ((merge H reqs).fields.filter fun r => r.name ≠ THIS) false)
            | _, _ => []
      else []
termination_by gi

/-- the calls for a query of the graph number `gi` -/
def planQuery (sys : Sys) (H : PyHash) (D : Data) (gi : Nat) (q : QNode) : List FCall :=
  match sys.graphs[gi]? with
  | none => []
  | some g => planNode D (semSub sys D gi) (planSub sys H D gi) g g.root none q

end Hiku
