import Verif.Model.ReadGraphql
import Verif.Model.Validate
import Verif.Model.Denormalize
import Verif.Model.Introspection

/-! # hiku/endpoint/graphql.py

The parser of GraphQL documents is a parameter.  The engine is a parameter too, so that its answers may depend on
what was executed before (mutations); `build` plugs in the engine of Model/Engine.lean.  Awaiting is not
represented: the coroutines of the asynchronous endpoints execute the same statements. -/

namespace Hiku.Endpoint

/-- the keys `query`, `variables` and `operationName` of the dict `data`, endpoint/graphql.py:35-37.  A value of
`variables` or `operationName` which is not a dict or a string is not represented. -/
structure Request where
  query : Option String
  variables : Option (List (String × Val)) := none
  operationName : Option String := none

/-- elements of `GraphQLError.errors`, endpoint/graphql.py:39-41, 47-49, 56-57.  `raisedByCode`: what data functions
put there if they raise `GraphQLError` themselves. -/
inductive Msg where
  | failedToRead (e : Err)
  | unsupported (kind : OpKind)
  | invalid (e : QErr)
  | raisedByCode
  deriving DecidableEq

/-- exceptions: `GraphQLError` with its errors, and all the others -/
inductive Raised where
  | graphql (errors : List Msg)
  | other (e : Err)

/-- an exception raised by the engine or by data functions -/
def Raised.ofErr (e : Err) : Raised := if e = .graphQLError then .graphql [.raisedByCode] else .other e

/-- `{'data': ...}` and `{'errors': ...}`, endpoint/graphql.py:103-105 -/
inductive Answer where
  | data (v : Val)
  | errors (ms : List Msg)

/-- one call of `Engine.execute` -/
structure Run where
  graph : Nat
  query : QNode

/-- `BaseGraphQLEndpoint`, endpoint/graphql.py:62-77: the numbers of the graphs among `graphs`.  `engine log` is
`self.engine.execute` after the calls of `log`; `lim` is the recursion limit of the validators. -/
structure Endpoint where
  H : PyHash
  parse : String → Except Err (List Defn)
  lim : Nat
  graphs : List Graph
  query : Nat
  mutation : Option Nat
  engine : List Run → Nat → QNode → Except Err (Index × QNode)

variable (ep : Endpoint)

/-- `read_operation(data['query'], ...)`, endpoint/graphql.py:35-37; `variables or {}` readers/graphql.py:264 -/
def readRequest (r : Request) : Except Err Operation :=
  match r.query with
  | none => .error .keyError
  | some src => do
      let doc ← ep.parse src
      readOperation ep.H doc (r.variables.getD []) r.operationName

/-- the choice of the graph, endpoint/graphql.py:42-49 -/
def chooseGraph (k : OpKind) : Except Raised Nat :=
  match k, ep.mutation with
  | .query, _ => .ok ep.query
  | .mutation, some m => .ok m
  | k, _ => .error (.graphql [.unsupported k])

/-- `_switch_graph`, endpoint/graphql.py:33-50 -/
def switchGraph (r : Request) : Except Raised (Nat × Operation) :=
  match readRequest ep r with
  | .error .typeError => .error (.graphql [.failedToRead .typeError])
  | .error e => .error (.other e)
  | .ok op =>
      match chooseGraph ep op.kind with
      | .error e => .error e
      | .ok g => .ok (g, op)

/-- `_process_query`, endpoint/graphql.py:53-59 -/
def processQuery (g : Graph) (q : QNode) : Except Raised QNode :=
  match validate g ep.lim (stripNode q) with
  | .error e => .error (.other e)
  | .ok [] => .ok (stripNode q)
  | .ok errors => .error (.graphql (errors.map .invalid))

/-- `_type_names`, endpoint/graphql.py:13-16 (subscriptions never get there) -/
def typeName : OpKind → String
  | .query => "Query"
  | .mutation => "Mutation"
  | .subscription => ""

/-- `GraphQLEndpoint.execute`, endpoint/graphql.py:91-95; the second component are the calls of the engine so far -/
def execute (gi : Nat) (op : Operation) (log : List Run) : Except Raised Val × List Run :=
  match ep.graphs[gi]? with
  | none => (.error (.other .assertionError), log)
  | some g =>
      match processQuery ep g op.query with
      | .error e => (.error e, log)
      | .ok q =>
          match ep.engine log gi q with
          | .error e => (.error (Raised.ofErr e), log ++ [⟨gi, q⟩])
          | .ok r =>
              match denormalizeQ ep.H r.1 g (some (typeName op.kind)) r.2 op.query with
              | .error e => (.error (.other e), log ++ [⟨gi, q⟩])
              | .ok v => (.ok v, log ++ [⟨gi, q⟩])

/-- the `except` clause of `dispatch`, endpoint/graphql.py:104-105 -/
def answer : Except Raised Val → Except Err Answer
  | .ok v => .ok (.data v)
  | .error (.graphql ms) => .ok (.errors ms)
  | .error (.other e) => .error e

/-- `GraphQLEndpoint.dispatch`, endpoint/graphql.py:97-105 -/
def dispatch (r : Request) (log : List Run) : Except Err Answer × List Run :=
  match switchGraph ep r with
  | .error e => (answer (.error e), log)
  | .ok x =>
      match execute ep x.1 x.2 log with
      | (a, log') => (answer a, log')

/-- `BatchGraphQLEndpoint.dispatch` of a list, endpoint/graphql.py:111-115: a list comprehension -/
def dispatchList : List Request → List Run → Except Err (List Answer) × List Run
  | [], log => (.ok [], log)
  | r :: rs, log =>
      match dispatch ep r log with
      | (.error e, log') => (.error e, log')
      | (.ok a, log') =>
          match dispatchList rs log' with
          | (.error e, log'') => (.error e, log'')
          | (.ok as, log'') => (.ok (a :: as), log'')

/-- what a batch endpoint is given: a list of requests or one request -/
inductive BatchData where
  | list (rs : List Request)
  | one (r : Request)

inductive BatchAnswer where
  | list (as : List Answer)
  | one (a : Answer)

/-- `BatchGraphQLEndpoint.dispatch`, endpoint/graphql.py:110-117 -/
def dispatchBatch (d : BatchData) (log : List Run) : Except Err BatchAnswer × List Run :=
  match d with
  | .list rs =>
      match dispatchList ep rs log with
      | (.error e, log') => (.error e, log')
      | (.ok as, log') => (.ok (.list as), log')
  | .one r =>
      match dispatch ep r log with
      | (.error e, log') => (.error e, log')
      | (.ok a, log') => (.ok (.one a), log')

/-! ## The constructor -/

open Hiku.Intro

/-- the numbers of the functions of the introspection of the mutation graph start after those of the query graph -/
def base2 (base : Nat) (gq : Graph) : Nat := base + table.length + gq.items.length

/-- the program after `BaseGraphQLEndpoint.__init__`, endpoint/graphql.py:69-77: both graphs are replaced by graphs
with introspection of both of them.  `q`, `m` are the numbers of the graphs; other graphs are those which are used
by sub-graphs. -/
def initEnv (base : Nat) (dumps : Val → Except Err String) (env : Env) (q : Nat) (m : Option Nat) : Except Err Env :=
  match env.sys.graphs[q]? with
  | none => .error .assertionError
  | some gq =>
      match m with
      | none => do
          let gq' ← introspect base gq
          .ok (introEnv base dumps { query := gq } env q gq gq')
      | some m =>
          match env.sys.graphs[m]? with
          | none => .error .assertionError
          | some gm => do
              let s : Schema := { query := gq, mutation := some gm }
              let gq' ← introspect base gq
              let gm' ← introspect (base2 base gq) gm
              .ok (introEnv (base2 base gq) dumps s (introEnv base dumps s env q gq gq') m gm gm')

/-- an endpoint with the engine of Model/Engine.lean.  The data functions and the order in which tasks are finished
may depend on the previous executions. -/
def build (parse : String → Except Err (List Defn)) (lim : Nat) (H : PyHash) (sys : Sys)
    (envs : List Run → Env) (choose : List Run → Nat → List Nat → List Nat) (inner fuel : Nat) (q : Nat) (m : Option Nat) :
    Endpoint where
  H := H
  parse := parse
  lim := lim
  graphs := sys.graphs
  query := q
  mutation := m
  engine log gi qn := Hiku.execute (envs log) (choose log) inner fuel gi qn

end Hiku.Endpoint
