import Verif.Model.Engine

/-! Specification for C07 and C08: a number computed from the query and the graphs alone.

`a` is the weight of one call of a data function, `b` the weight of one sub-graph call (a forked
task set).  Every field counts one call, every link one call plus its required field plus its
selection; a field computed by a sub-graph counts one sub-graph call plus its requirements, counted
in the lower graph. -/

namespace Hiku

section
variable (a b : Nat) (sc : Nat → QNode → Nat)

/-- `sc sg reqs` is the cost of the requirements `reqs` in the sub-graph `sg` -/
def costField (gf : GField) : Nat :=
  match gf.func with
  | .plain _ => a
  | .checked sg reqs _ => b + sc sg reqs

def costGItem : GItem → Nat
  | .field gf => costField a b sc gf
  | .link _ => a

/-- cost of loading the field called `n` -/
def costName (gn : GNode) (n : String) : Nat :=
  match gn.get n with
  | some gi => costGItem a b sc gi
  | none => 0

/-- cost of loading the field required by a link -/
def costReq (gn : GNode) (gl : GLink) : Nat :=
  if gl.reqTruthy then costName a b sc gn (gl.requires.getD "") else 0

mutual
def costItem (g : Graph) (gn : GNode) : QItem → Nat
  | .field n _ _ => costName a b sc gn n
  | .link n q _ _ =>
      match gn.get n with
      | some (.link gl) =>
          costReq a b sc gn gl + a +
          (match g.node gl.node with
           | some t => costNode g t q
           | none => 0)
      | some (.field gf) => costField a b sc gf
      | none => 0
def costNode (g : Graph) (gn : GNode) : QNode → Nat
  | .mk fs _ => costItems g gn fs
def costItems (g : Graph) (gn : GNode) : List QItem → Nat
  | [] => 0
  | i :: r => costItem g gn i + costItems g gn r
end

/-- cost of a requirement of a sub-graph field: the selections below `this` on the node `node`, the
other requirements on the root -/
def costThis (g : Graph) (node : String) : QItem → Nat
  | .field n o al => if n = THIS then 0 else costItem a b sc g g.root (.field n o al)
  | .link n q o al =>
      if n = THIS then
        match g.node node with
        | some t => costNode a b sc g t q
        | none => 0
      else costItem a b sc g g.root (.link n q o al)

end

/-- cost of requirements in the sub-graph `sg` used by the graph number `gi` (a sub-graph is built
on an older graph) -/
def costSub (sys : Sys) (a b : Nat) (gi : Nat) (sg : Nat) (reqs : QNode) : Nat :=
  match sys.subs[sg]? with
  | none => 0
  | some s =>
      if _h : s.graph < gi then
        match sys.graphs[s.graph]? with
        | none => 0
        | some g => (reqs.fields.map (costThis a b (costSub sys a b s.graph) g s.node)).sum
      else 0
termination_by gi

/-- cost of a query of the graph number `gi` -/
def costQuery (sys : Sys) (a b : Nat) (gi : Nat) (q : QNode) : Nat :=
  match sys.graphs[gi]? with
  | none => 0
  | some g => costNode a b (costSub sys a b gi) g g.root q

end Hiku
