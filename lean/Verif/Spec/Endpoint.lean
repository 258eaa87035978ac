import Verif.Model.Endpoint
import Verif.Spec.Validate
import Verif.Spec.Denormalize

/-! Specification for C45: requests and answers of the GraphQL endpoint -/

namespace Hiku.Endpoint

variable (ep : Endpoint)

/-- the text of the request is a document in which this operation is requested -/
def Reads (r : Request) (op : Operation) : Prop :=
  ∃ src doc, r.query = some src ∧ ep.parse src = .ok doc ∧
    readOperation ep.H doc (r.variables.getD []) r.operationName = .ok op

/-- reading the request raises the exception -/
def ReadFails (r : Request) (e : Err) : Prop :=
  (r.query = none ∧ e = .keyError) ∨
  ∃ src, r.query = some src ∧ (ep.parse src = .error e ∨
    ∃ doc, ep.parse src = .ok doc ∧ readOperation ep.H doc (r.variables.getD []) r.operationName = .error e)

/-- the graph for operations of the kind -/
def graphOf : OpKind → Option Nat
  | .query => some ep.query
  | .mutation => ep.mutation
  | .subscription => none

/-- the name of the type of the root in answers (subscriptions are never answered with data) -/
def rootType : OpKind → String
  | .query => "Query"
  | .mutation => "Mutation"
  | .subscription => ""

/-- the request asks for this operation, which is an operation for this graph -/
structure Asks (r : Request) (op : Operation) (gi : Nat) (g : Graph) : Prop where
  reads : Reads ep r op
  graph : graphOf ep op.kind = some gi
  get : ep.graphs[gi]? = some g

mutual
/-- `__typename` occurs nowhere -/
def NoTypename : QNode → Prop
  | .mk fs _ => NoTypenameItems fs
def NoTypenameItems : List QItem → Prop
  | [] => True
  | .field n _ _ :: r => n ≠ "__typename" ∧ NoTypenameItems r
  | .link n q _ _ :: r => n ≠ "__typename" ∧ NoTypename q ∧ NoTypenameItems r
end

/-- the graphs of the endpoint exist -/
structure WellBuilt : Prop where
  query : (ep.graphs[ep.query]?).isSome
  mutation : ∀ m, ep.mutation = some m → (ep.graphs[m]?).isSome

mutual
/-- the selections of a query which may contain `__typename`: selections are made on links only and all names exist -/
def Selects (g : Graph) (gn : GNode) : QNode → Prop
  | .mk fs _ => SelectsItems g gn fs
def SelectsItems (g : Graph) (gn : GNode) : List QItem → Prop
  | [] => True
  | .field n _ _ :: r => (n = "__typename" ∨ (gn.get n).isSome) ∧ SelectsItems g gn r
  | .link n q _ _ :: r =>
      (n ≠ "__typename" ∧ ∃ gl t, gn.get n = some (.link gl) ∧ g.node gl.node = some t ∧ Selects g t q) ∧
      SelectsItems g gn r
end

/-- `v` is the denormalized value of the query without `__typename`, `v'` is the answer: the same with the names of
the enclosing types under the keys of `__typename`, in the order of the query -/
def Completes (g : Graph) (root : String) (q : QNode) (v v' : Val) : Prop :=
  ∃ ts, dget g.types rootName = some (.record ts) ∧ WithTypename g.types root (.record ts) q v v'

end Hiku.Endpoint
