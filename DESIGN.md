# A Lean 4 model of hiku: design

Everything is in `/verif/lean/Verif`.  The model is written by reading `/repo/hiku` as text (the
code is never run); every model definition carries a comment with the file and the lines it models
and with each simplification.

## Layout

| layer | directory | content |
|---|---|---|
| model | `Verif/Model/*.lean` | definitions only, function by function after the Python code |
| specification | `Verif/Spec/*.lean` | small independent specifications (reference semantics, validity, typing, ...) |
| proofs | `Verif/Proofs/*.lean` | helper lemmas |
| properties | `Verif/Props/*.lean` | the property theorems, named `cNN_...`, each with a concrete case which meets the hypotheses |

`MANIFEST.json` maps properties to theorems.  `seeded/LOG.jsonl` records the wrong programs against
which the theorems were tested.

## Modelling conventions

* Python values are one inductive type `Val` (none, bool, int, opaque float, str, edn keyword /
  symbol / list / tuple, list, dict, set, tagged element, the `Nothing` sentinel, `Reference`).
  A dict is an association list in insertion order (`dset` overwrites in place or appends).
* Exceptions are values: every function which may raise returns `Except Err _`, where `Err` is the
  Python exception class (`TypeError`, `KeyError`, `AssertionError`, ...).  Messages are dropped
  unless they are the result (the validator returns messages; they are a datatype with one
  constructor per message template).
* `while` loops are fuel recursions whose fuel is proved sufficient, or well-founded recursions.
  Where Python's own recursion limit can be observed (recursive named types, cyclic builder
  handles) the limit is a parameter `lim`, and the statement says for which `lim` it holds.
* Callbacks (closures) of the engine are defunctionalised: one constructor per `lambda`/`partial`
  which the engine creates.
* Data-loading functions are an arbitrary *world*: submission number -> function -> arguments ->
  outcome (value or exception).  Executors are an arbitrary *chooser* which on every round selects
  a non-empty set of outstanding futures as `done`.  Theorems about schedules quantify over all
  choosers.
* Generators returned by data functions: `store_fields` and `process_link` turn them into lists, so a generator is
  a world whose outcome is `list(generator)` and whose failures are not `atOnce`.
* `hash()` of Python is a parameter of the model (`H : PyHash`); the only fact about CPython used
  anywhere is in the counterexamples (`hash(-1) == hash(-2)`).
* Hashability: identifiers, options and values used as keys are taken to be hashable (Python raises TypeError for a list
  as an identifier); the one place where it is observable through the API, reading of EDN maps and sets, checks it
  (`Val.hashable`).  In the EDN reader, equality of keys and of items of sets is a parameter
  (any equivalence which tells keywords apart by name; `pyPyText` is one where `True` is `1` and a list is the tuple of
  its items).  Elsewhere equality of keys is structural: Python also identifies `1`, `True` and `1.0`.
* Where the code mutates an object in place and a property depends on it (stored results on errors,
  builder handles) the model is a program on an explicit store which also returns the store on errors.

## Properties

The planned approach (invariants over scheduler steps and refinement to a recursive reference
semantics for the engine, structural induction for the pure functions) was kept; the table says what
came out.  "Model" are the modules under `Verif/`.

| id | property | status | model | what is proved, what is missing |
|---|---|---|---|---|
| C01 | merge removes duplicates and requests exactly the same data | proved | Model/Query | merge requests exactly the same paths, no duplicates at any depth |
| C02 | merge is idempotent and independent of grouping | proved | Model/Query |  |
| C03 | an ordered (mutation) query keeps its field order when it is read | partial | Model/Query | Order is kept among fields and among links. c03_order_iff: the order of the document is kept exactly when no field follows a link (and nothing is repeated); the full claim is false of the code (merge puts fields before links), counterexample proved |
| C04 | the stored result of a field does not depend on the order in which options were written, and differs for different options | partial | Model/Query | first half proved; second half only for an injective hash, and false for CPython's hash (-1 and -2 collide), counterexample proved |
| C05 | options reaching the data functions are exactly the declared ones, with defaults applied | proved | Model/InitOptions |  |
| C06 | the result of a query is the reference semantics, whatever the schedule | proved | Model/Engine, Queue, Index | Every schedule, every protocol-conforming world (Spec/Semantics.lean: Conforms), sub-graphs included; the result is what can be read through Proxy. Hypotheses: no index key collisions among the used names and options (Faithful, see C04), no selections on complex fields in ordered nodes. |
| C07 | query execution always terminates and never deadlocks | proved | Model/Engine, Queue |  |
| C08 | the number of data function calls does not depend on the amount of data (no N+1) | proved | Model/Engine |  |
| C09 | a link function runs only after its required field was loaded, on exactly those values | proved | Model/Engine | c09_calls: the whole log of an execution with protocol-conforming functions; c09_call: arguments of a single link call for arbitrary functions. |
| C10 | malformed data function results are rejected and store nothing | proved | Model/StoreFx, Engine | store_fields/store_links modelled as in-place programs returning the index also on errors asSeq_exact: which Python values are sequences; link_kind/link_type: kinds of links by their types. |
| C11 | Nothing is handled according to the link type | proved | Model/Engine |  |
| C12 | ordered nodes run their steps one after another | proved | Model/Engine | For every ordered top query, all functions and schedules: the calls of the root node follow the plan of the query one by one; c12_waits covers the steps of ordered nodes below links. A step of fields over a sub-graph: c12_waits_sub with c17_engine. |
| C13 | context is passed exactly to the functions that ask for it | proved | Model/Engine, Context |  |
| C14 | results do not depend on the executor | proved | Model/Engine | Two schedules and two conforming implementations of the data functions. |
| C15 | results have no dangling references | proved | Model/Engine, Index | For conforming data functions; with functions which return different links for equal arguments the claim is false (a later call overwrites the reference). |
| C16 | callbacks of a task run exactly once, in registration order, after the task finished | proved | Model/Queue |  |
| C17 | a task set completes only after all its tasks and all its forks | partial | Model/Queue | proved for programs whose callbacks do not submit to task sets completed in the same batch; false without this, counterexample proved. For the engine itself the full claim is proved (c17_engine): in every execution of every query, when a callback of a task set starts, no task of the set and no task set forked from it is left in the queue |
| C18 | the queue is empty when execution has finished | proved | Model/Engine, Queue |  |
| C19 | a result gives access to exactly what was requested | proved | Model/Index, Denormalize | Proxy access; examples beside the theorems |
| C20 | denormalized results have exactly the shape of the query | proved | Model/Denormalize | shape for every stored result, and for every finished execution; equals the reference semantics for queries selecting on links c20_dict: a dict where a list of records is declared is an error, not the list of its values. |
| C21 | both denormalizers agree | proved | Model/Denormalize | exact agreement, including exceptions, for every index; two counterexamples show that the restriction to the selections of PlainSel is needed |
| C22 | __typename is the name of the type of the enclosing object | proved | Model/Denormalize | also the negative witness for a selection on __typename |
| C23 | a query accepted by validate executes | partial | Model/Validate, Engine | Accepted queries execute without error on protocol-following functions, for every schedule; all looked-up names exist and every option value has its declared type (no condition on functions). Missing: selections inside record fields of ordered nodes, where the claim is false (c23_ordered_record) |
| C24 | validate reports every violation | proved | Model/Validate | Exactly the violations are reported whenever validate returns; it returns [] iff the query is valid on graphs with well-formed types |
| C25 | option values are checked against the declared type exactly | proved | Model/Validate | Option values are accepted iff they have the declared type (HasType), for arbitrary named types; recursion limit as a parameter; recursion on a recursive named sequence type is a proved finding  |
| C26 | validate itself never raises | partial | Model/Validate | validate returns for every query that selects inside existing record fields, on graphs with well-formed types. The full claim is false: four proved counterexamples On graphs with well-formed types c26_exact says exactly when validate raises (a selection inside an unknown field of a record) and what (KeyError). |
| C27 | Graph() accepts exactly the well-formed graphs | proved | Model/Graph, Validate | A graph is constructed iff it is well-formed |
| C28 | EDN text round-trips | partial | Model/Edn | Round trip proved for every value built from the EDN types to any depth; the exclusions of EdnVal (characters written as \uXXXX, inf/nan, tagged atoms without delimiter, unreadable symbols) are necessary: the c28_* witnesses show the code does not round-trip there. for strings the characterisation is exact (iff) c28_exact: a value of readable atoms is read back iff no collection in it ends with a tagged value without delimiter, otherwise loads raises ValueError; c28_symbols and c28_keywords are exact (iff) as well. |
| C29 | queries survive export to and reading from the simple (EDN) format | partial | Model/Simple, Edn | Proved for every query without aliases and ordered nodes whose options are scalars; c29_view says what is read back for all exportable queries (aliases and ordered lost, option lists/dicts as EDN values), and the c29_* witnesses show the full statement is false there. c29_iff: a merged query survives exactly when it has no aliases, no ordered nodes and its option values are kept by EDN (c29_kept_value: scalars, EDN sets of such, empty EDN dicts). c29_keywords: the keys of every exported dict are keywords, whatever they were. |
| C30 | queries survive export to and reading from protobuf | partial | Model/Protobuf | Proved for queries without aliases/ordered nodes, with non-empty names and options which survive the Struct conversion (a parameter; nothing is assumed about it); c30_view says what is read back in general; c30_malformed characterises the readable messages. Binary encoding not modelled. c30_iff: for merged queries the condition of c30_partial is also necessary. |
| C31 | queries survive export to and reading from GraphQL | partial | Model/ExportGraphql, ReadGraphql | Proved for every query with JSON options, aliases included, without ordered nodes and without {} options; c31_view says what is read back in general. Printing and parsing of the document text are library functions, not modelled. c31_iff: for merged queries the condition of c31_partial is also necessary. |
| C32 | fragments mean their contents | proved | Model/ReadGraphql | Reading an operation gives the same outcome (query or exception) as reading the fully inlined operation in a document without fragments, cache and pending set included; inlining is possible for every document whose fragments are defined and acyclic. |
| C33 | cyclic fragments are rejected and reading always terminates | proved | Model/ReadGraphql | The recursion bound of the model is never reached and a larger one changes nothing; a reachable self-spreading fragment is never accepted, and is a TypeError in documents whose fragments are defined. |
| C34 | @skip and @include select as GraphQL says | partial | Model/ReadGraphql | The rule of GraphQL is proved for every document except selections which carry both @skip(if: false) and @include(if: false) (c34_both proves that the code ignores the @include then, so the full statement is false) or repeated conditions. For all documents without condition the rule of the code is proved (c34_exact: first @skip, else first @include), and c34_deviation says exactly where it differs from GraphQL. |
| C35 | variables resolve to the provided value, the default or null | proved | Model/ReadGraphql | The partial suffix of the meaning theorem concerns C34 only (a selection with both false conditions). |
| C36 | the requested operation is the one that is read | proved | Model/ReadGraphql | Choice of the operation, error kinds (unknown name: ValueError), ordered flag at the root only for mutations. |
| C37 | compiled expressions compute the lexically scoped meaning of the expression | partial | Model/Expr | Proved for every expression whose variables obey the naming conditions Hygienic (simple names are enough, no reuse of a global's name, if_some variable not used in its own expression or else-branch); the unrestricted statement is false, five counterexamples are proved. |
| C38 | requirements extracted from an expression cover everything it reads | proved | Model/Expr | Evaluation succeeds on any data that supplies only the extracted query; functions may read what their declared inline types spell out (a TypeRef argument yields no requirement: c38_typeref). c38_compiled_partial adds the compiled procedure under the naming conditions of C37. |
| C39 | the checker accepts exactly the expressions which touch existing fields only | proved | Model/Expr | Typing derivation and semantic safety. Assumes that named types are not aliases of other names (c39_alias shows why) and, for safety, no callable types inside data types. Both directions are proved: c39_accepts (accepted for some depth of the stack iff well-typed), c39_decides (accepted for every depth above some one; never accepted when not well-typed). |
| C40 | database field rows are matched to identifiers | proved | Model/Sources | FieldsQuery of the SQL source: every requested cell in request order, None for missing rows, row order irrelevant, unknown column error, column types, the primary key must be a single column. |
| C41 | database link rows are matched to identifiers | proved | Model/Sources | LinkQuery: exact mapping for the three link kinds; both columns must be of one table; c41_null_target is the finding about NULL target columns. |
| C42 | chunked fetching loses nothing | proved | Model/Sources | Chunking of large id lists does not change the result. |
| C43 | introspected types have correct nullability | proved | Model/Introspection | TypeIdent for every type, in both modes; Describes is the independent specification; callable types and unknown input types are refused |
| C44 | introspection is closed and complete | partial | Model/Introspection, Engine | End to end through the engine: every query with introspection gives what the schema prescribes, for every schema of GoodSchema (no mutation-only nodes mentioned, typed options, record data types, a public field in every node). For all graphs the claim is false: the counterexamples are proved.  |
| C45 | the endpoint never executes an invalid query and reports data or errors | partial | Model/Endpoint, ReadGraphql, Validate, Engine, Denormalize | Only valid queries are executed, once, without __typename; answers are data (reference semantics with type names, also for graphs with introspection) or all validation errors; batches in order. Not total in the code: unknown fragments/operations, a missing query and syntax errors escape as exceptions (proved), one such item loses a whole batch. c45_escapes says exactly when and with which exception a request is not answered. |
| C46 | graph transformers compose and preserve the graph | proved | Model/Transform | Base transformer is the identity on constructed graphs; transformers which only replace functions preserve everything else; apply is left-to-right composition. |
| C47 | metrics wrappers are transparent | partial | Model/Telemetry, Engine | Transparency proved for every valid query, program and schedule. Labels proved when no function loads fields of two nodes (c47_observations_partial); false otherwise: c47_counterexample. c47_reported says exactly what is reported for all graphs: fields carry the label of the first node loaded by the same function. |
| C48 | the query builder builds what is written | proved | Model/Builder | Handles live in a heap and are mutated in place as in the code. Impure uses are defects: c48_changed_variable, c48_global, c48_cycle, c48_alias_twice. |
| C49 | console routing | proved | Model/Console | Page template, script, docs text, json.dumps, int() and traceback formatting are parameters. Exceptions which escape: c49_no_path, c49_bad_length, c49_not_json. |
| C50 | adding introspection is conservative | proved | Model/Introspection, Engine | the refused and the accepted graphs are characterised; the newline at the end of a name is a defect which is part of the statement (AcceptedName); a graph with two Root() items is refused  |
| C51 | a failing data function fails the query, and nothing else does | proved | Model/Engine | executors which raise at submission are Env.atOnce c51_left_running is a finding: other tasks are left running after a failure. |
| C52 | cancelling an asynchronous execution cancels exactly the unfinished tasks | proved | Model/Executors, Engine | the event loop's treatment of cancelled tasks and a CancelledError raised by a data function itself are not modelled |
| C53 | the Kinko type file of a graph says what the graph declares | proved | Model/Kinko | the restrictions are part of the statement; what happens outside them is proved too |
| C54 | a graph over a database answers the joined data of its tables | proved | Model/Db, Sources, Engine | End-to-end: the tables' data is what the engine answers. Sources are the modelled FieldsQuery/LinkQuery of C40-C42; c54_async shows the bucketed fetch satisfies InOrder; db_result is a concrete database and query. |
| C55 | fields defined by expressions over a sub-graph have the values of the expressions over the data | proved | Model/SubExpr, Expr, Engine | Expressions are modelled from the notation (to_expr) through check, requirements extraction and compilation to the run of the compiled lambda on results of the sub-query. The meaning (Spec/SubExpr, meaning and exprSub) asks the data directly. c55_declared: for graphs built over layers of declared subgraphs the assumption ReqsOk of GoodSys is derived (by C56). c55_truth and c55_stored pin the truth of values in conditions and the value stored for a computed one. Example: Props/SubExprExample, SubExprDeclared. c55_written says which Python notation makes the expressions; c55_obj is the finding about fields called obj. |
| C56 | requirements of an accepted expression are a valid query which asks only for what is read | proved | Model/Expr, SubExpr | For every accepted expression; the assumptions are needed: c56_any_field, c56_function_argument and c56_no_this are accepted expressions whose requirements are not valid queries. c56_exists drops the assumption on types of arguments: everything asked for exists. xReqs_valid is a concrete case. |
| C57 | a function annotated by the text of a query is declared for what is written | proved | Model/Define, Simple, Expr | Concrete case: dCall. c57_options, c57_options_lost, c57_many show what annotations cannot say. c57_exact: which texts are accepted, and TypeError for the others |
| C58 | requirements of an expression are exactly the paths which it uses | proved | Model/Expr, SubExpr | Concrete cases: SubExpr.xPaths, Expr.dCall. |
| C59 | the calls of data functions are exactly the plan of the query, whatever the schedule | proved | Model/Engine, Queue | The multiset of calls equals planQuery, a recursive specification over the query and the data which knows nothing of queues or stores; every schedule. |
| C60 | the EDN reader accepts exactly the EDN grammar, with the value of each text | proved | Model/Edn | loads = ok v iff the text is a document of an inductive grammar (Spec/EdnText) with the value v; c60_truncated and c60_swallowed are findings. equality of keys is a parameter, any equivalence: c60_same_key shows equal keys which are written differently  |
| C61 | the EDN and protobuf query readers read exactly what is written | proved | Model/Simple, Model/Protobuf, Model/Edn | the grammar of queries is Spec/QueryText over the EDN grammar of C60 |
| C62 | requests of an asynchronous batch do not interfere | proved | Model/Gather, Model/Endpoint, Model/Engine | interleavings of the tasks of gather; c62_goes_on: the other requests are not stopped by a failure. c62_reference covers the selections of C45 (links and __typename). Cancellation of the batch is not modelled |
| C63 | the functions of an expression are found, and their order does not matter | proved | Model/SubExpr, Expr | Calls (Spec/Registry.lean) says where a function is called; Lists says that a set may be listed in any order. Functions are known by their names (different functions have different names). |
| C64 | a query takes no longer than its longest chain of calls | proved | Model/Engine, Queue, Query | Punctual states the bound on calls; Lat.punctual_all shows that it is met by an executor which waits for everything with wt = 1. The specification (Spec/Latency.lean) computes the time recursively over the query; c64_depth is the bound without it. |
| C65 | cancelling an asynchronous batch cancels exactly the unfinished tasks of its requests | proved | Model/GatherCancel, Gather, Executors | How asyncio delivers cancellation (gather cancels all unfinished children at once, CancelledError is thrown at their await) is part of the model. exCancelled is a concrete cancelled batch. |
| C66 | the notation of types makes the types which are written, and types are compared by structure | proved | Model/Types, Graph (`Ty`) | Classes are modelled with metaclass and __dict__; c66_endless: Callable[Sequence], Callable[Optional] and Callable[TypeRef] never end (finding 49), the only such cases c66_*_equal: equality for arbitrary parameters. |
| C67 | executing merged queries gives each query what it would get alone | proved | Model/Query (merge), InitOptions, Engine, Denormalize | c67_union: the result of the merged query is the union of the results of the single queries (Spec/Parts: Union), c67_parts: it contains each of them (Extends); init_merge: acceptance of options; union_merge: the same for the reference semantics at any node, also with selections on complex fields; c67_conflict: without distinct result keys merge silently drops one of two fields (finding 50). Example: exUnion. |
| C68 | introspection conforms to the introspection schema of GraphQL | proved | Model/Introspection, Engine, Validate | the introspection schema is written down from the specification in Spec/MetaSchema. Deviations: `includeDeprecated: null` is refused (c68_null_argument), `fields`, `interfaces`, `possibleTypes`, `enumValues` and `inputFields` are empty lists where the specification has null (Coherent). |
| C69 | a graph can grow without existing queries noticing | proved | Model/Graph, InitOptions, Validate, Engine, Store | Spec/Grow.lean says what may be done with the nodes of a graph (NodesGrow) and what it means for lookups (GraphExtends, SysExtends); c69_extends and c69_append connect them. Validity assumes that the named data types of the graph exist and are not recursive (GraphTypesOk, as in C26). c69_result and c69_calls assume the loading protocol (Conforms) of the larger system only; that it holds for the smaller one is proved. |
| C70 | What an item evaluates to does not depend on its alias, its position and its company | proved | Model/Query (merge), InitOptions, Engine, Denormalize | Within (Spec/Company.lean) relates the query as the user wrote it, not the one with initialised options; ReadOff is an item by item relation between the two Python values. Hypotheses on the system are those of C20: good system, faithful hashing, data the backend really returns. Example: aliases, another order, the same link and field twice. |
| C71 | Query objects with cached keys and shared parts behave as immutable trees | proved | Model/QueryObjects, Query (merge), InitOptions, Denormalize (strip) | A heap of objects with __attrs__ and __dict__ caches (Model/QueryObjects); IsItem/IsNode (Spec/QueryObjects.lean) say which tree an object stands for. Refinement: justifies the trees (QItem, QNode) which the rest of the model uses. Attributes are not assigned and the dicts and lists in them are not changed in place (no code of the package does). The recursion limit is a parameter, larger than the depth. |
| C72 | The nested index of default dicts behaves as one table of cells | proved | Model/NestedIndex, StoreFx, Index, Engine | For all histories of store_fields, store_links and link_reqs calls with any results, the nested index gives the outcomes of the flat index used in the rest of the model; after finish every proxy read gives the value or error of the flat index and leaves the index as it is; different objects have different dicts. The texts of errors are not modelled. c72_rounds and c72_execute: in every round of every execution, and at its end, the index of each workflow is one which such a history gives. |

## What is modelled, file by file

| file | modelled | not modelled |
|---|---|---|
| `query.py` | `Field`, `Link`, `Node`, `_compute_hash`, `index_key`, `merge`, the visitors which other code subclasses; the objects with their caches, `copy`, `==` (C71) | `__repr__`; `hash` is a parameter |
| `graph.py` | options, fields, links, nodes, root, graph, `get_type_enum`, `GraphTypes`, `GraphInit`, visitors and transformers, `apply` | `__repr__`; the graph of `Union`/abstract types does not exist at this commit |
| `engine.py` | everything: `InitOptions`, `SplitQuery`, `GroupQuery`, `_check_store_*`, `store_*`, `link_reqs`, `link_result_to_ids`, `Query`, `pass_context`, `Context`, `Engine` | texts of messages; keyword arguments of functions |
| `executors/queue.py` | everything, generic in the callbacks | identity of `TaskSet` objects is a number |
| `executors/{sync,threads,asyncio}.py` | `submit` and the `process` loops, see C14, C51 and C52 | the thread pool and the event loop themselves: only "`wait` returns a non-empty set of outstanding futures" |
| `result.py` | `Index`, `Reference`, `Proxy`, `denormalize`; the index is a flat table in most of the model, and the nested index with its factories, cached `root` and `finish` in Model/NestedIndex (C72 relates both) | `ROOT` objects are fixed names |
| `denormalize/*.py` | everything | |
| `validate/query.py`, `validate/graph.py` | everything | texts of messages |
| `types.py` | all types, `get_type`; the classes with their metaclasses in `Model/Types` (C66), which justifies the structural `Ty` of the rest of the model | `__repr__`; parameters with their own `__eq__`, `__iter__` |
| `edn.py` | encoder, parser (coroutines as an explicit state machine) | `float`/`int` text conversion is a parameter `PyText` |
| `readers/*.py`, `export/*.py` | everything after/before the libraries | graphql-core's parser and printer, protobuf's binary encoding, `google.protobuf.Struct` conversion (a parameter) |
| `expr/{core,nodes,checker,refs,compiler}.py` | checker, requirements, compiler and the Python subset it generates | `to_expr` with its registry of functions is modelled on the notation `Src` (`Model/SubExpr`), functions are known by their names; `define` as the text of its annotation (`Model/Define`); iteration of `each` finishes before its body runs; the domain of values is abstract (`PyDom`) |
| `sources/graph.py` | `SubGraph`, `BoundExpr.__postprocess__`, `CheckedExpr`, `Expr` | results with objects (`Proxy`) in them; strings and dicts are not iterated over |
| `sources/sqlalchemy*.py`, `sources/aiopg.py` | `FieldsQuery`, `LinkQuery`, chunked fetching | SQL text, drivers: `SELECT` is an abstract relation on rows; equality in the database is equality of values; order of sets is abstract |
| `introspection/graphql.py` | everything, the sync variant; the functions are bound to the graph by number | `json.dumps` is a parameter; the async variant has the same bodies |
| `endpoint/graphql.py` | everything | parser and engine are parameters (the engine may depend on what was executed before); `gather` as an interleaving of the tasks (`Model/Gather`), with cancellation in `Model/GatherCancel` (data functions which suppress `CancelledError` are not modelled); variables are a dict |
| `console/ui.py` | everything | page template, script, `json.dumps`, `int()`, traceback text, UTF-8 decoding are parameters |
| `telemetry/prometheus.py` | everything | `prometheus_client`, clocks (an observation is an event); the async wrapper differs only in `await` |
| `builder.py` | everything, handles in a heap | attributes which every Python object has; `python -O` |
| `typedef/kinko.py` | all: `Model/Kinko` | `TypeDoc` of a `TypeDoc` (not reachable) |
| `utils.py` | used functions are inlined | `cached_property`, `const`, `listify` as such |
| `compat.py`, `protobuf/query_pb2.py` | | generated or interpreter-dependent |

## Assumptions which appear as hypotheses, and why

* `Faithful` (C06, C15, C20, C44, C45): no two fields or links *of the query and the requirements*
  share an index slot although the functions can tell them apart.  False in general because slots
  are named by `hash()` (C04, finding 1).
* `Conforms` (C06, C14, C15, C20, C23, C44, C45): the documented loading protocol.  Functions are
  deterministic: they may not depend on the submission number.  `c15` is false otherwise: a later
  call overwrites a reference written by an earlier one.
* `GoodSys`/`NodeOk` (C06, ...): the query is one which the graph can load; implied by `validate`
  returning no errors (`c23_partial`, `c24_valid`) except that ordered nodes may not select inside
  complex fields (finding 9).
* `PlainSel` (C21): selections on the field types which both denormalizers support (finding 5).
* `Hygienic` (C37): variables do not clash with generated names (finding 16; `c37_*` witnesses).
* `NoAlias`, `NoFnTypes` (C39), `Declared` (C38): named types are not names of names; functions read
  only what their declared argument types spell out.
* `GoodSchema`, `TypesDict` (C44): excludes exactly the graphs of findings 18, 33, 36, 37.
* `UniqueKeys` (C45, C49, C20): no two items of a node share a result key (finding 3: `validate`
  does not guarantee it).
* `Pure` (C48): the expression gives options/items only to handles it creates (finding 39).

Every hypothesis has a concrete witness in `Props/` beside its theorem (`Props/Example.lean`,
`Props/EndpointExample.lean`, `Props/IntrospectExample.lean`, `Props/TelemetryExample.lean`).

## Trusted base

* Lean 4.33 kernel.  Axioms used: at most `propext`, `Classical.choice`, `Quot.sound`; none of our
  own.  No compiled evaluation is used in any proof.
* The reading of `/repo` into the model, as cited in the comments of `Model/*.lean`.
* Not modelled at all: CPython itself, thread preemption inside callbacks (the queue and the index
  are only touched by the thread which runs `process`), garbage collection, memory, time; and the
  libraries in the table above.

### Axioms of each property theorem (412 theorems; prefix `Hiku.` dropped)

* **(none)** (6): `link_type`, `Sources.c40_types`, `Sources.c41_one_table`, `Endpoint.c45_strip_same`, `Transform.c46_apply_cons`, `Telemetry.c47_subquery_outcome`
* **propext** (21): `link_kind`, `c27_requires_link`, `c29_unsupported`, `c31_unsupported`, `c34_single`, `Expr.exBody_value`, `Expr.c37_closed_scope`, `Expr.c37_if_some_self`, `Expr.c37_if_some_else`, `Expr.exTypes_good`, `Expr.c39_alias`, `Expr.c39_callable`, `Expr.c39_recursive`, `Sources.c41_null_target`, `Intro.c44_untyped_option`, `Intro.c44_record_node`, `Intro.c44_listed_twice`, `Intro.c44_type_record`, `Telemetry.c47_counterexample`, `Intro.type_lookup_noname`, `Grow.c69_options`
* **propext, Quot.sound** (63): `c05_options`, `c05_positions`, `c05_idempotent`, `c09_call`, `c12_waits`, `c13_missing_key`, `c13_present_key`, `c16_order`, `c16_after_report`, `c16_run`, `c17_complete_partial`, `c17_fires`, `c17_counterexample`, `c27_duplicates`, `RoundTrip.c29_kept_value`, `Tight.c29_keywords`, `c34_deviation`, `c35_value_unique`, `c36_chosen`, `c36_errors`, `Expr.exTyped`, `Sources.c40_fields`, `Sources.c40_order_irrelevant`, `Sources.c40_unknown_column`, `Sources.c41_many_row_order`, `Sources.c42_chunks`, `Sources.c42_async_same`, `Sources.c42_bucket_size`, `Intro.c43`, `Intro.c43_reported`, `Intro.c43_total`, `Intro.c43_refused`, `Intro.c43_nonNull_iff`, `Intro.c43_wellFormed`, `Endpoint.c45_no_typename`, `Transform.c46_identity`, `Transform.c46_only_functions`, `Transform.c46_apply_append`, `Transform.c46_apply_identity`, `Telemetry.c47_graph`, `Telemetry.c47_subqueries`, `Builder.c48_written`, `Builder.c48_exact`, `Builder.c48_unchanged`, `Builder.c48_assertion`, `Builder.c48_stateless`, `Builder.c48_every`, `Builder.c48_build`, `Builder.c48_reachable`, `Intro.type_lookup`, `Kinko.c53_untyped`, `Sources.c54_async`, `SubExpr.c55_stored`, `SubExpr.c55_written`, `SubExpr.c55_field`, `EdnText.c60_hashable`, `SubExpr.c63_functions`, `SubExpr.c63_scope`, `Gather.c65_raises`, `Types.c66_dicts`, `Grow.c69_extends`, `Company.init_within`, `Company.linksOnly_within`
* **propext, Classical.choice, Quot.sound** (322): `c01_merge_requests`, `c01_merge_nodup`, `c01_merge_kept`, `c02_merge_grouping`, `c02_merge_idempotent`, `c03_merge_order_partial`, `c03_order_iff`, `c03_counterexample`, `c04_same_options_same_slot`, `c04_distinct_slots_partial`, `c04_collision`, `c05_missing`, `c05_before_any_call`, `c06_result`, `c06_loop`, `c07_terminates`, `c07_deterministic`, `c08_calls`, `c08_total_calls`, `c09_calls`, `c10_fields_reject`, `c10_fields_store`, `c10_links_reject`, `c10_links_store`, `asSeq_exact`, `c11_targets`, `c11_maybe`, `c11_many`, `c11_one_raises`, `c12_ordered`, `c12_ordered_all`, `c12_waits_sub`, `c13_context`, `c14_executor_independent`, `c15_no_dangling`, `c17_engine`, `c18_queue_empty`, `c19_denied`, `c19_missing`, `c19_granted`, `c19_access`, `c20_shape`, `c20_denormalize`, `c20_value`, `Tight.c20_dict`, `c21_agree`, `c21_named_list`, `c21_record_alias`, `c22_typename`, `c22_error`, `c22_typename_selection`, `c23_partial`, `c23_options`, `c23_ordered_record`, `c24_exact`, `c24_valid`, `c24_accepts`, `c25_option_types`, `c25_decided`, `c25_recursive_string`, `c26_partial`, `c26_no_records`, `c26_unknown_link`, `c26_dangling_type`, `c26_recursive_type`, `c26_callable`, `c26_exact`, `c27_graph`, `c27_links`, `c27_lookups`, `c28_partial`, `c28_injective`, `c28_control`, `c28_inf`, `c28_tagged`, `c28_dash`, `c28_list`, `EdnText.c28_strings`, `EdnText.c28_strings_iff`, `EdnLast.c28_exact`, `EdnSym.c28_symbols`, `EdnSym.c28_keywords`, `EdnSym.c28_second`, `EdnSym.c28_plus`, `c29_partial`, `c29_view`, `c29_alias`, `c29_ordered`, `c29_list`, `c29_dict`, `c29_name`, `RoundTrip.c29_iff`, `c30_partial`, `c30_view`, `c30_malformed`, `c30_alias`, `c30_ordered`, `c30_empty_name`, `RoundTrip.c30_iff`, `c31_partial`, `c31_view`, `c31_empty`, `c31_ordered`, `RoundTrip.c31_iff`, `c32_inlining`, `c32_possible`, `c33_terminates`, `c33_cyclic`, `c34_c35_meaning_partial`, `c34_prune_partial`, `c34_exact`, `c34_left_out`, `c34_malformed`, `c34_both`, `c35_missing`, `c35_undeclared`, `c36_ordered`, `c36_read`, `Expr.c37_compiled_meaning_partial`, `Expr.clean_of_simple`, `Expr.c37_capture`, `Expr.c37_reserved`, `Expr.c38_requirements_cover`, `Expr.c38_compiled_partial`, `Expr.merge_covers`, `Expr.exExpr_checked`, `Expr.exExpr_globals`, `Expr.c38_typeref`, `Expr.c39_checked_typed`, `Expr.c39_checked_safe`, `Expr.c39_accepts`, `Expr.c39_decides`, `Sources.c40_primary_key`, `Sources.c41_maybe`, `Sources.c41_one`, `Sources.c41_one_missing`, `Sources.c41_many`, `Sources.c41_none_not_sent`, `Intro.c44_result_partial`, `Intro.c44_loop_partial`, `Intro.c44_leaf_listed_partial`, `Intro.c44_listed_iff`, `Intro.c44_schema`, `Intro.c44_types`, `Intro.c44_type`, `Intro.c44_typeField`, `Intro.c44_fields`, `Intro.c44_fieldType`, `Intro.c44_mutation_nodes`, `Intro.c44_alias_type`, `Intro.c44_private_node`, `Intro.c44_query_node`, `Intro.c44_args`, `Intro.c44_argType`, `Intro.c44_argField`, `Intro.c44_inputFields`, `Intro.c44_ofType`, `Endpoint.c45_only_valid`, `Endpoint.c45_invalid`, `Endpoint.c45_unsupported`, `Endpoint.c45_unreadable`, `Endpoint.c45_executed`, `Endpoint.c45_data_executed`, `Endpoint.c45_answers_partial`, `Endpoint.c45_data_partial`, `Endpoint.c45_endpoint_partial`, `Endpoint.c45_batch`, `Endpoint.c45_batch_one`, `Endpoint.c45_batch_alone`, `Endpoint.c45_batch_only_valid`, `Endpoint.c45_batch_escapes`, `Endpoint.c45_unknown_fragment`, `Endpoint.c45_unknown_operation`, `Endpoint.c45_no_query`, `Endpoint.c45_syntax`, `Endpoint.c45_batch_lost`, `Endpoint.c45_escapes`, `Telemetry.c47_execute`, `Telemetry.c47_calls`, `Telemetry.c47_observations_partial`, `Telemetry.c47_reported`, `Console.c49_once`, `Console.c49_index`, `Console.c49_script_name`, `Console.c49_docs`, `Console.c49_script`, `Console.c49_not_allowed`, `Console.c49_not_found`, `Console.c49_too_big`, `Console.c49_invalid`, `Console.c49_data`, `Console.c49_failure`, `Console.c49_no_leak`, `Console.c49_reads`, `Console.c49_only_valid`, `Console.c49_serve`, `Console.c49_answers`, `Console.c49_escapes`, `Console.c49_value`, `Intro.c50_constructed`, `Intro.c50_transparent`, `Intro.c50_calls`, `Intro.c50_typename`, `Intro.c50_two_roots`, `Intro.c50_newline`, `c51_no_swallow`, `c51_outcome`, `c51_fails_iff`, `c51_left_running`, `c52_accounted`, `c52_cancel`, `c52_not_cancelled`, `Kinko.c53_dumps`, `Kinko.c53_injective`, `Kinko.c53_garbled`, `Kinko.c53_garbled_unreadable`, `Kinko.c53_callable`, `Kinko.c53_float`, `Sources.c54_result`, `Sources.conforms`, `Sources.fields_call`, `Sources.link_call`, `Sources.db_result`, `SubExpr.c55_result`, `SubExpr.c55_procedure`, `SubExpr.c55_declared`, `SubExpr.c55_truth`, `SubExpr.c55_obj`, `Expr.c56_fits`, `Expr.c56_exists`, `SubExpr.c56_requirements_valid`, `SubExpr.xReqs_valid`, `Expr.c57_define`, `Expr.c57_call`, `Expr.c57_exact`, `Expr.c58_exact`, `SubExpr.c58_field`, `c59_calls`, `c59_so_far`, `c59_schedule_independent`, `EdnText.c60_exact`, `EdnText.c60_text`, `EdnText.c60_unique`, `EdnText.c60_space`, `EdnText.c60_truncated`, `EdnText.c60_swallowed`, `EdnText.c60_rejected`, `EdnText.c60_same_key`, `EdnText.c60_unhashable`, `QueryText.c61_simple`, `QueryText.c61_simple_rejects`, `QueryText.c61_simple_requests`, `QueryText.c61_protobuf`, `Gather.c62_alone`, `Gather.c62_answers`, `Gather.c62_raises`, `Gather.c62_progress`, `Gather.c62_terminates`, `Gather.c62_completes`, `Gather.c62_decided`, `Gather.c62_stable`, `Gather.c62_reference`, `Gather.c62_deterministic`, `SubExpr.c63_order`, `SubExpr.c63_meaning`, `Lat.c64_rounds`, `Lat.c64_latency`, `Lat.c64_all`, `Lat.c64_depth`, `Gather.c65_exact`, `Gather.c65_all`, `Gather.c65_frozen`, `Gather.exCancelled`, `Types.c66_written`, `Types.c66_equal`, `Types.c66_same`, `Types.c66_final`, `Types.c66_bare`, `Types.c66_single`, `Types.c66_mapping`, `Types.c66_callable`, `Types.c66_record`, `Types.c66_endless`, `Types.c66_two_chars`, `Types.c66_chars`, `Types.c66_one_argument`, `Types.c66_single_equal`, `Types.c66_mapping_equal`, `Types.c66_callable_equal`, `Parts.c67_union`, `Parts.c67_parts`, `Parts.init_merge`, `Parts.union_merge`, `Parts.c67_conflict`, `MetaSchema.c68_valid`, `MetaSchema.c68_mixed`, `MetaSchema.c68_served`, `MetaSchema.c68_null_argument`, `Grow.c69_append`, `Grow.c69_valid`, `Grow.c69_accepted`, `Grow.c69_value`, `Grow.c69_plan`, `Grow.c69_result`, `Grow.c69_denormalize`, `Grow.c69_calls`, `Company.c70_company`, `Company.c70_twice`, `Company.readOff_sem`, `QObj.c71_immutable`, `QObj.c71_keys`, `QObj.c71_maps`, `QObj.c71_merge`, `QObj.c71_transform`, `QObj.c71_strip`, `QObj.c71_init`, `QObj.c71_eq`, `NIdx.c72_outcomes`, `NIdx.c72_proxy`, `NIdx.c72_separate`, `NIdx.c72_rounds`, `NIdx.c72_execute`

## Findings: properties the code itself violates

Each has a theorem with a concrete witness (named in brackets) unless said otherwise.

1. `_compute_hash` uses `hash`: `hash(-1) == hash(-2)` (also `1`, `True`, `1.0`), so fields with
   different options share an index slot and are merged [`c04_collision`].
2. `merge` yields all fields before all links: a mutation mixing fields and links runs out of order
   [`c03_counterexample`].
3. `{ a{x} a: a{y} }`: merge keys differ by alias, `validate` accepts, `result_map` keeps only the
   last, denormalize raises KeyError [`finding_same_key`].
4. Aliases inside record (complex) fields are ignored by `denormalize` and are a KeyError in
   `Denormalize` [`c21_record_alias`].
5. `Denormalize` raises AssertionError on inline `Record` fields; `denormalize` on
   `Optional[TypeRef]`/`Sequence[TypeRef]` complex fields that `validate` accepts [`c21_named_list`].
6. A complex field requested twice under aliases with different selections shares one index slot [`finding_record_slot`].
7. `validate` raises KeyError for an unknown name below a record field queried as a node and does
   not terminate on recursive named types; bool is accepted as Integer, str as Sequence [`c26_*`].
8. `GraphValidator` lets a link require another link [`c27_requires_link`]; duplicated options are
   not detected.
9. `GroupQuery.visit_link` does not handle a complex field queried as a link in an ordered node
   [`c23_ordered_record`].
10. In ordered nodes the next step starts after the link ids are fetched, not after the nested
    selection is resolved (part of the statement of C12).
11. The field implied by `requires` bypasses `InitOptions` (options = None) [`finding_requires_options`].
12. `SubGraph.__call__` raises KeyError when no requested expression mentions `this`: the requirements of
    such an expression do not ask for it [`SubExpr.c56_no_this`].
13. `@skip` and `@include` on one selection: `@include` is ignored when `@skip` is present
    [`c34_both`]; unknown fragments (KeyError) and unknown operations (ValueError) escape the
    endpoint [`c45_unknown_fragment`, `c45_unknown_operation`]; `_StripQuery` hides a clash of an
    alias with `__typename`.
14. EDN: `\uXXXX` escapes are written but not decoded; `[#foo 5]` raises; inf/nan [`c28_*`].
15. simple/protobuf exports drop aliases and ordered nodes, option lists and dicts are read back as
    EDN values [`c29_*`, `c30_*`, `c31_*`].
16. Expression compiler: `Environ` captures variables [`c37_*`].
17. Telemetry wrappers are cached by function across nodes: wrong node label [`c47_counterexample`].
18. Introspection: options without type raise AttributeError, `__type` finds only nodes, a TypeRef to
    a data type which is not a record is mentioned but not listed, a node without public fields is a
    TypeError [`c44_*`].
19. kinko `TypeDoc.__getattr__` looks up `self.__type` (name-mangled, never set): infinite recursion
    for every attribute but the two it has (not reached from `dumps`, no theorem).
20. `InitOptions` keeps unknown options on plain fields without declared options but drops them on
    links [`finding_unknown_options`].
21. The queue loses a task which a callback submits to a task set completed in the same batch
    [`c17_counterexample`]; the engine never does this.
22. Callbacks added to an already finished future never run [`finding_late_callback`].
23. An empty query leaves its empty task set in the queue [`finding_empty_query`].
24. A non-optional single link which returns Nothing in the middle of a batch raises AssertionError
    after earlier rows were written [`finding_partial_write`].
25. A link selection named `__typename` is a KeyError [`c22_typename_selection`].
26. A recursive named sequence type with a string option value is a RecursionError
    [`c25_recursive_string`].
27. `_OptionTypeValidator` has no `visit_callable` [`c26_callable`]; options on links inside record
    selections are not checked.
28. `define(TypeRef[..])` argument types produce no requirements [`c38_typeref`]; a Record field of
    type Any requests a Field for a link [`SubExpr.c56_any_field`]; `check_type` ignores Callable arguments [`c39_callable`].
29. Passing a function symbol as an argument adds a bogus root field requirement
    [`SubExpr.c56_function_argument`].
30. `check_type` on recursive named types: RecursionError [`c39_recursive`].
31. `check_type` treats two alias TypeRefs as equal inside containers [`c39_alias`].
32. NULL in `to_column`: an optional link to the object None [`c41_null_target`].
33. Introspection omits nodes and data types present only in the mutation graph [`c44_mutation_nodes`].
34. Introspection on graphs with two Roots: GraphValidationError [`c50_two_roots`].
35. The name regexp of `ValidateGraph` accepts a trailing newline [`c50_newline`].
36. A node named "Query"/"Mutation" is shadowed in introspection [`c44_query_node`].
37. A record data type which mentions a node breaks `inputFields{type}` [`c44_record_node`].
38. Endpoint: a missing query and syntax errors escape; one escaping item loses the whole batch
    [`c45_no_query`, `c45_syntax`, `c45_batch_lost`].
39. Builder: handles are mutated in place: a shared or global Q changes, cycles, the alias of an
    aliased item is lost [`c48_changed_variable`, `c48_global`, `c48_cycle`, `c48_alias_twice`].
40. Console: a missing PATH_INFO (allowed by PEP 3333) is a KeyError, a malformed CONTENT_LENGTH a
    ValueError, an unserializable result a TypeError which escape; the docs answer has no
    Content-Type [`c49_no_path`, `c49_bad_length`, `c49_not_json`].
41. Executors: when a data function fails, the tasks already submitted to threads or to the event loop
    are left running (only CancelledError cancels them), and `gather` without `return_exceptions`
    after a cancellation raises the first exception of a task instead, without waiting for the rest
    [`c65_raises`, `c51_left_running`].
42. kinko `dumps` of a mapping from a container to a simple type appends the value to the last line of
    the key, giving an unreadable file [`Kinko.c53_garbled`, `c53_garbled_unreadable`]; function types are
    an AttributeError [`Kinko.c53_callable`]; an untyped field appears only if it has a description
    [`Kinko.c53_untyped`]; floats are written as Unknown [`Kinko.c53_float`].
43. `define('[...]')` ignores options in the annotation [`Expr.c57_options`]; of two links with the same name
    and different options only the last one is kept [`Expr.c57_options_lost`].
44. An annotation cannot go through a link to many or to an optional object [`Expr.c57_many`].
45. `edn.loads` ignores an unfinished element at the end: `nil [foo "bar` is `nil` [`EdnText.c60_truncated`].
46. The character which ends a tagged number, symbol or character is swallowed: in `[#a \b"c"]` the quote is lost
    [`EdnText.c60_swallowed`].
47. When one request of an asynchronous batch raises (no `query` key, an unknown fragment, ...), `gather` gives the
    exception to the client but the other requests go on, mutations too [`Gather.c62_goes_on`].
48. A field called `obj` cannot be used in expressions: `S.this.obj` is `S.this`. A field `obj` of a sub-graph is accepted
    but never requested; its value is the object itself [`SubExpr.c55_obj`].
49. `Callable[Sequence]` (also with `Optional` and `TypeRef`) never ends: a class with `TypingMeta` is iterable through
    `__getitem__`, and `Sequence[0]`, `Sequence[1]`, ... are types [`Types.c66_endless`].
50. `merge` does not notice two different fields with one alias: the merged query is executed without an error and
    returns one of them for both [`Parts.c67_conflict`].
51. Introspection refuses `includeDeprecated: null`, and `fields`, `interfaces`, `possibleTypes`, `enumValues`, `inputFields` of
    types which have none are empty lists, not null as GraphQL says [`MetaSchema.c68_null_argument`, `MetaSchema.Coherent`].
52. Symbols which start neither with a letter nor with `-` or `.`, as `+`, `*`, `_x`, are written by `edn.dumps` and cannot
    be read by `edn.loads` [`EdnSym.c28_symbols`, `EdnSym.c28_plus`].
