import Verif.Model.Engine
import Mathlib.Data.List.Forall2

/-! Specification for C10 and C11: shapes of results of data functions and what they mean. -/

namespace Hiku

/-- `result` is a sequence of `n` values on the root node, a sequence with a sequence of `n` values
for every identifier on the other nodes; `rows` are these values -/
def RowsOf (node : GNode) (n : Nat) (ids : Option (List Val)) (result : Val)
    (rows : List (List Val)) : Prop :=
  match node.name, ids with
  | some _, some ids => ∃ rs, result.asSeq = some rs ∧ rs.length = ids.length ∧
      List.Forall₂ (fun r row => r.asSeq = some row ∧ row.length = n) rs rows
  | none, none => ∃ row, result.asSeq = some row ∧ row.length = n ∧ rows = [row]
  | _, _ => False

/-- the identifiers of the objects whose cells are written: the given ones or the root object -/
def identsOf (ids : Option (List Val)) : List Val := ids.getD [rootIdent]

/-- the name of a node in the index -/
def GNode.indexName (node : GNode) : String := node.name.getD rootName

/-- `rs` are the link values of the objects, one for every object: the items of the result if the
link is on a node and has a requirement, else the result itself for every object -/
def LinkValues (node : GNode) (gl : GLink) (ids : Option (List Val)) (result : Val)
    (rs : List Val) : Prop :=
  match node.name, ids with
  | some _, some ids =>
      if gl.requires.isSome then result.asSeq = some rs ∧ rs.length = ids.length
      else rs = List.replicate ids.length result
  | none, none => rs = [result]
  | _, _ => False

/-- a link value of the right type: a sequence for sequence links -/
def ValueShape (t : LinkType) (v : Val) : Prop :=
  match t with
  | .many => ∃ l, v.asSeq = some l
  | _ => True

/-- the objects which a link value points to -/
def targets (t : LinkType) (v : Val) : List Val :=
  match t with
  | .maybe => if v = .nothing then [] else [v]
  | .one => [v]
  | .many => v.asSeq.getD []

/-- what is stored in the result for a link value -/
def linkCell (gl : GLink) (v : Val) : Val :=
  match gl.typeEnum with
  | .maybe => if v = .nothing then .none else .ref gl.node v
  | .one => .ref gl.node v
  | .many => .list ((v.asSeq.getD []).map (.ref gl.node))

end Hiku
