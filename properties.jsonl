{"id": "C01", "title": "merge removes duplicates and requests exactly the same data", "statement": "hiku.query.merge(nodes) returns a query in which, at every depth, no two fields and no two links share (name, options hash, alias), and a path of (name, options hash, alias) keys ending in a field or a link is requested by the merged query if and only if it is requested by one of the input queries.", "quantifier": "every finite list of query nodes, of any depth and width, and every option hash function", "why_tests_cant": "the claim ranges over all query trees and all ways duplicates can be nested; tests only sample shapes", "anchors": ["hiku/query.py:merge", "hiku/query.py:_merge"]}
{"id": "C02", "title": "merge is idempotent and independent of grouping", "statement": "Merging an already merged query changes nothing, and merging a list of queries in groups and then merging the groups gives the same query as merging the whole list at once.", "quantifier": "every list of query nodes and every way to split it into consecutive groups", "why_tests_cant": "an algebraic law over all trees", "anchors": ["hiku/query.py:merge"]}
{"id": "C03", "title": "an ordered (mutation) query keeps its field order when it is read", "statement": "The readers return merge([node]) for an ordered node; the relative order of the requested items of an ordered node is the document order, so mutations run in the order in which they were written.", "quantifier": "every ordered node", "why_tests_cant": "needs all interleavings of fields and links in a document (the code violates it for mixed documents; we prove what holds and a counterexample)", "anchors": ["hiku/query.py:_merge", "hiku/readers/graphql.py:GraphQLTransformer.visit_operation_definition"]}
{"id": "C04", "title": "the stored result of a field does not depend on the order in which options were written, and differs for different options", "statement": "Two fields with the same name and equal options mappings use the same slot of the result whatever the insertion order of the options; two fields with different names or different options use different slots.", "quantifier": "every field name, every options mapping, every permutation of it", "why_tests_cant": "a statement about a hash over all option values (the second half is false of the code: Python hash(-1) == hash(-2))", "anchors": ["hiku/query.py:_compute_hash", "hiku/query.py:FieldBase.index_key"]}
{"id": "C05", "title": "options reaching the data functions are exactly the declared ones, with defaults applied", "statement": "Engine.execute passes to every field or link declared with options exactly the declared option names, each with the value given in the query if given and the default otherwise; a missing required option raises TypeError before any data function is called; undeclared options of such a field are dropped; applying defaults twice equals applying them once.", "quantifier": "every graph, every query, every set of given options", "why_tests_cant": "ranges over all graphs and queries at any depth", "anchors": ["hiku/engine.py:InitOptions", "hiku/engine.py:_get_options"]}
{"id": "C06", "title": "the result of a query is the reference semantics, whatever the schedule", "statement": "If the data functions follow the documented loading protocol, then for every order and grouping in which the executor reports finished tasks, Engine.execute finishes without error and the (denormalized) result is the hierarchical value obtained by walking the query over the data: every field holds the value of that field for that object, every link the object(s) it points to, recursively, including fields computed through sub-graphs.", "quantifier": "every graph, every well-formed query, every protocol-conforming data source, every completion schedule", "why_tests_cant": "all completion orders of an unbounded number of tasks", "anchors": ["hiku/engine.py:Query", "hiku/executors/queue.py:Queue", "hiku/result.py:denormalize", "hiku/sources/graph.py:SubGraph"]}
{"id": "C07", "title": "query execution always terminates and never deadlocks", "statement": "For every schedule of task completions execution reaches the state with no outstanding task after a number of scheduling rounds bounded by a number computed from the query alone, and while it has not, there is at least one outstanding task to wait for.", "quantifier": "every graph, query, data source and schedule", "why_tests_cant": "termination under every schedule", "anchors": ["hiku/engine.py:Query.process_node", "hiku/executors/queue.py:Queue.progress"]}
{"id": "C08", "title": "the number of data function calls does not depend on the amount of data (no N+1)", "statement": "Whatever identifiers the links return, the total number of calls of field and link functions made by Engine.execute is at most the number of fields and links in the query plus the number of link requirements (with sub-graph requirement queries counted in).", "quantifier": "every graph, query, data source (any number of rows) and schedule", "why_tests_cant": "ranges over all data sizes", "anchors": ["hiku/engine.py:Query.process_node", "hiku/engine.py:SplitQuery"]}
{"id": "C09", "title": "a link function runs only after its required field was loaded, on exactly those values", "statement": "A link declared with requires=F is called with the list of the stored values of F for the current objects, in the order of the objects (or the single value on the root node), and only after those values have been loaded; a link without requires is called without such an argument.", "quantifier": "every graph, query, schedule", "why_tests_cant": "an ordering property over all interleavings", "anchors": ["hiku/engine.py:link_reqs", "hiku/engine.py:Query._schedule_link", "hiku/engine.py:SplitQuery.visit_link"]}
{"id": "C10", "title": "malformed data function results are rejected and store nothing", "statement": "If a field function does not return a sequence of the right length (of rows of the right length on non-root nodes), or a link function result has the wrong shape for its type, execution raises TypeError and no cell of the result is changed; a result of the right shape is stored so that the i-th row belongs to the i-th identifier and the j-th value to the j-th requested field.", "quantifier": "every Python value a function may return, every list of ids and fields", "why_tests_cant": "ranges over every possible return value", "anchors": ["hiku/engine.py:_check_store_fields", "hiku/engine.py:store_fields", "hiku/engine.py:_check_store_links", "hiku/engine.py:store_links"]}
{"id": "C11", "title": "Nothing is handled according to the link type", "statement": "Optional links turn Nothing into None in the result and never load the missing object; non-optional single links that return Nothing raise; sequence links load exactly the listed objects, in order.", "quantifier": "every link result", "why_tests_cant": "all results and all positions of Nothing in a batch", "anchors": ["hiku/engine.py:link_result_to_ids", "hiku/engine.py:store_links"]}
{"id": "C12", "title": "ordered nodes run their steps one after another", "statement": "On an ordered node the data function of step k+1 is submitted only after the data function of step k has completed, and the steps follow the order of the items of the query (adjacent fields with one function form one call).", "quantifier": "every ordered query and every schedule", "why_tests_cant": "an ordering property over all schedules", "anchors": ["hiku/engine.py:GroupQuery", "hiku/engine.py:Query._process_node_ordered"]}
{"id": "C13", "title": "context is passed exactly to the functions that ask for it", "statement": "A function marked with pass_context receives the query context as its first argument followed by its normal arguments, any other function receives only its normal arguments; looking up a missing context key raises KeyError.", "quantifier": "every call made during any execution", "why_tests_cant": "ranges over all calls of all executions", "anchors": ["hiku/engine.py:Query._submit", "hiku/engine.py:Context"]}
{"id": "C14", "title": "results do not depend on the executor", "statement": "SyncExecutor, ThreadsExecutor and AsyncIOExecutor give the same result for the same graph, query and protocol-conforming functions, and all finish.", "quantifier": "every graph, query, data source", "why_tests_cant": "the threads and asyncio executors have unboundedly many schedules", "anchors": ["hiku/executors/sync.py", "hiku/executors/threads.py", "hiku/executors/asyncio.py", "hiku/engine.py:Engine.execute"]}
{"id": "C15", "title": "results have no dangling references", "statement": "In the finished result every reference stored for a requested link with a non-empty selection points to an object that is present in the index and holds every field requested below that link.", "quantifier": "every finished execution", "why_tests_cant": "a global invariant over all executions", "anchors": ["hiku/result.py:Index", "hiku/result.py:Proxy", "hiku/engine.py:Query.process_link"]}
{"id": "C16", "title": "callbacks of a task run exactly once, in registration order, after the task finished", "statement": "Queue.progress(done) runs the callbacks registered for each finished task once and in registration order, and never runs a callback of a task that has not been reported as finished.", "quantifier": "every sequence of submit, fork, add_callback and progress calls, including those made from callbacks", "why_tests_cant": "every history of the queue", "anchors": ["hiku/executors/queue.py:Queue.progress", "hiku/executors/queue.py:Queue.add_callback"]}
{"id": "C17", "title": "a task set completes only after all its tasks and all its forks", "statement": "A callback registered on a task set runs exactly once and only when no task submitted to the set and no set forked from it (transitively) is outstanding.", "quantifier": "every queue history", "why_tests_cant": "every history of the queue", "anchors": ["hiku/executors/queue.py:Queue.fork", "hiku/executors/queue.py:Queue.progress"]}
{"id": "C18", "title": "the queue is empty when execution has finished", "statement": "When the executor loop ends no futures, forks or callbacks are left in the queue: nothing is forgotten and nothing leaks.", "quantifier": "every execution and schedule", "why_tests_cant": "all schedules", "anchors": ["hiku/executors/queue.py:Queue", "hiku/executors/sync.py:SyncExecutor.process"]}
{"id": "C19", "title": "a result gives access to exactly what was requested", "statement": "Reading a key from a result object succeeds for every result key (alias or name) of the query at that position and raises KeyError for every other key, even if the data was loaded for another part of the query.", "quantifier": "every result and key", "why_tests_cant": "all keys and queries", "anchors": ["hiku/result.py:Proxy.__getitem__"]}
{"id": "C20", "title": "denormalized results have exactly the shape of the query", "statement": "denormalize returns dictionaries whose keys are exactly the result keys of the query node at that position, in query order; sequence links become lists of the same length as the link result and missing optional links become None.", "quantifier": "every query and finished index", "why_tests_cant": "all query shapes", "anchors": ["hiku/result.py:denormalize", "hiku/result.py:_denormalize"]}
{"id": "C21", "title": "both denormalizers agree", "statement": "hiku.result.denormalize and hiku.denormalize.base.Denormalize return the same value, or raise the same exception, on the same result, for queries that select through links and, without aliases, inside fields whose type is a named record, a list of inline records or an optional inline record (the types both of them support).", "quantifier": "every graph, query and finished index", "why_tests_cant": "equivalence of two algorithms on all inputs", "anchors": ["hiku/denormalize/base.py:Denormalize", "hiku/result.py:denormalize"]}
{"id": "C22", "title": "__typename is the name of the type of the enclosing object", "statement": "DenormalizeGraphQL puts, for every __typename requested without a selection, under its result key, the name of the node the enclosing link points to (the root type name at the top) and leaves all other values as Denormalize does; it fails only where Denormalize fails.", "quantifier": "every query and result", "why_tests_cant": "all query shapes and positions", "anchors": ["hiku/denormalize/graphql.py:DenormalizeGraphQL", "hiku/endpoint/graphql.py:_StripQuery"]}
{"id": "C23", "title": "a query accepted by validate executes", "statement": "If validate(graph, query) returns no errors then execution raises neither lookup errors nor missing option errors: every field, link, node and option it looks up exists and every given option value has the declared type.", "quantifier": "every graph accepted by Graph() and every query", "why_tests_cant": "all graphs and queries", "anchors": ["hiku/validate/query.py:validate", "hiku/engine.py:InitOptions", "hiku/engine.py:SplitQuery"]}
{"id": "C24", "title": "validate reports every violation", "statement": "validate returns an empty list if and only if the query is valid: each unknown field or link, link queried as a field, simple field queried as a node, missing required option, unknown option, ill-typed option value and pair of distinct fields with one result name produces an error.", "quantifier": "every graph and query", "why_tests_cant": "all positions in all queries", "anchors": ["hiku/validate/query.py:QueryValidator"]}
{"id": "C25", "title": "option values are checked against the declared type exactly", "statement": "An option value is accepted for a declared type if and only if it is a value of that type, recursively through optional, sequence, mapping, record and named types.", "quantifier": "every type and every value", "why_tests_cant": "an inductive relation over all types and values", "anchors": ["hiku/validate/query.py:_OptionTypeValidator"]}
{"id": "C26", "title": "validate itself never raises", "statement": "For every graph accepted by Graph() and every query, validate returns a list of error messages and does not raise.", "quantifier": "every graph and query", "why_tests_cant": "totality over all inputs (violated by the code for unknown links inside record fields; counterexample proved)", "anchors": ["hiku/validate/query.py:_RecordFieldsValidator.visit_link"]}
{"id": "C27", "title": "Graph() accepts exactly the well-formed graphs", "statement": "Graph construction raises GraphValidationError if and only if some node contains duplicated names, two nodes share a name, a link points to a missing node or requires a name missing from its node.", "quantifier": "every list of graph items", "why_tests_cant": "all graphs", "anchors": ["hiku/validate/graph.py:GraphValidator"]}
{"id": "C28", "title": "EDN text round-trips", "statement": "edn.loads(edn.dumps(v)) == v for every EDN value the encoder accepts.", "quantifier": "every value: integers, strings, keywords, symbols, nested lists, tuples, maps, sets, tagged elements", "why_tests_cant": "all values and nestings (false for non-ASCII strings and for tagged scalars before a closing bracket; counterexamples proved)", "anchors": ["hiku/edn.py:dumps", "hiku/edn.py:loads", "hiku/edn.py:parser"]}
{"id": "C29", "title": "queries survive export to and reading from the simple (EDN) format", "statement": "readers.simple.read(edn.dumps(export.simple.export(q))) is merge([q]) for every query.", "quantifier": "every query", "why_tests_cant": "all queries (aliases are lost; proved for alias-free queries)", "anchors": ["hiku/export/simple.py:export", "hiku/readers/simple.py:read"]}
{"id": "C30", "title": "queries survive export to and reading from protobuf", "statement": "readers.protobuf.read(export.protobuf.export(q)) is merge([q]) for every query.", "quantifier": "every query", "why_tests_cant": "all queries (aliases are lost; proved for alias-free queries)", "anchors": ["hiku/export/protobuf.py:export", "hiku/readers/protobuf.py:transform"]}
{"id": "C31", "title": "queries survive export to and reading from GraphQL", "statement": "readers.graphql reading the document produced by export.graphql.export(q) gives merge([q]), aliases included.", "quantifier": "every query with JSON-like options", "why_tests_cant": "all queries", "anchors": ["hiku/export/graphql.py:export", "hiku/readers/graphql.py:GraphQLTransformer"]}
{"id": "C32", "title": "fragments mean their contents", "statement": "Reading a GraphQL document with fragment spreads and inline fragments gives the same query as reading the document with every spread replaced by the selections of its fragment.", "quantifier": "every document whose fragments are defined and acyclic", "why_tests_cant": "all nestings of fragments", "anchors": ["hiku/readers/graphql.py:FragmentsTransformer", "hiku/readers/graphql.py:SelectionSetVisitMixin"]}
{"id": "C33", "title": "cyclic fragments are rejected and reading always terminates", "statement": "Reading any GraphQL document terminates; if a fragment reachable from the operation spreads itself, directly or through others, a TypeError is raised.", "quantifier": "every document", "why_tests_cant": "termination over all documents", "anchors": ["hiku/readers/graphql.py:FragmentsTransformer.visit_fragment_definition"]}
{"id": "C34", "title": "@skip and @include select as GraphQL says", "statement": "A field, spread or inline fragment contributes to the query if and only if it has no @skip(if: true) and no @include(if: false); malformed directives raise TypeError.", "quantifier": "every selection and every value of the conditions", "why_tests_cant": "all placements (false when both directives are present; counterexample proved)", "anchors": ["hiku/readers/graphql.py:SelectionSetVisitMixin._should_skip"]}
{"id": "C35", "title": "variables resolve to the provided value, the default or null", "statement": "A variable takes the provided value if one is provided (also null), else its default, else null; a missing required variable or an undeclared variable used by a visited selection raises TypeError.", "quantifier": "every operation and variables mapping", "why_tests_cant": "all operations", "anchors": ["hiku/readers/graphql.py:GraphQLTransformer.visit_operation_definition", "hiku/readers/graphql.py:SelectionSetVisitMixin.lookup_variable"]}
{"id": "C36", "title": "the requested operation is the one that is read", "statement": "With an operation name the operation with that name is read, without one the only operation; ambiguous, duplicated, missing and unknown operations raise; only mutations are ordered.", "quantifier": "every document and operation name", "why_tests_cant": "all documents", "anchors": ["hiku/readers/graphql.py:OperationGetter", "hiku/readers/graphql.py:read_operation"]}
{"id": "C37", "title": "compiled expressions compute the lexically scoped meaning of the expression", "statement": "Evaluating the Python code generated for an expression gives the value of the expression under ordinary lexical scoping: each, if_some and if bind and select as documented.", "quantifier": "every expression, environment and data", "why_tests_cant": "all expressions and nestings of binders (false when binder names are reused or clash with generated names; counterexamples proved)", "anchors": ["hiku/expr/compiler.py:ExpressionCompiler", "hiku/expr/compiler.py:Environ"]}
{"id": "C38", "title": "requirements extracted from an expression cover everything it reads", "statement": "The query built from an expression by RequirementsExtractor contains every field the evaluation of the expression reads from the data.", "quantifier": "every checked expression and every data", "why_tests_cant": "all expressions", "anchors": ["hiku/expr/refs.py:RequirementsExtractor", "hiku/expr/refs.py:ref_to_req", "hiku/expr/refs.py:type_to_query"]}
{"id": "C39", "title": "the checker accepts exactly the expressions which touch existing fields only", "statement": "An expression is accepted by the checker iff it is well-typed: its variables are known, every get in it is applied to a record type that has the field, every each to a sequence type, every call has the declared number of arguments of compatible types, keys of dict literals are keywords. Evaluation of an accepted expression never fails on data of the declared types. (Acceptance needs a stack deep enough for the types compared; types which refer to themselves are never accepted as arguments.)", "quantifier": "every expression and type environment", "why_tests_cant": "all expressions", "anchors": ["hiku/expr/checker.py:Checker", "hiku/expr/checker.py:check_type"]}
{"id": "C40", "title": "database field rows are matched to identifiers", "statement": "sources.sqlalchemy.FieldsQuery returns for the i-th id the requested columns of the row with that primary key, in the order of the requested fields, and nulls when there is no such row, regardless of the order in which the database returns rows and of duplicated ids.", "quantifier": "every set of rows, ids, fields, row order", "why_tests_cant": "all row orders", "anchors": ["hiku/sources/sqlalchemy.py:FieldsQuery.select_expr"]}
{"id": "C41", "title": "database link rows are matched to identifiers", "statement": "LinkQuery returns for the i-th value the linked identifiers: all of them in row order for sequence links, the one or Nothing for optional links, the one or KeyError for single links; None values are never sent to the database and are linked to nothing.", "quantifier": "every set of pairs and values", "why_tests_cant": "all row sets", "anchors": ["hiku/sources/sqlalchemy.py:LinkQuery", "hiku/sources/sqlalchemy.py:_to_many_mapper", "hiku/sources/sqlalchemy.py:_to_one_mapper", "hiku/sources/sqlalchemy.py:_to_maybe_mapper"]}
{"id": "C42", "title": "chunked fetching loses nothing", "statement": "The asynchronous sources return the same rows as a single fetchall, whatever sizes the buckets have.", "quantifier": "every split of the rows into non-empty buckets", "why_tests_cant": "all splits", "anchors": ["hiku/sources/sqlalchemy_async.py", "hiku/sources/aiopg.py"]}
{"id": "C43", "title": "introspected types have correct nullability", "statement": "The GraphQL type reported for a field type is non-null exactly when the hiku type is not Optional/Any/mapping/record, lists follow Sequence, and a non-null type never wraps a non-null type.", "quantifier": "every hiku type", "why_tests_cant": "an inductive statement over all types", "anchors": ["hiku/introspection/graphql.py:TypeIdent"]}
{"id": "C44", "title": "introspection is closed and complete", "statement": "Every object or input type mentioned by a field or argument is listed in __schema.types, every listed object type reports exactly its public fields with their declared types and arguments.", "quantifier": "every graph", "why_tests_cant": "all graphs", "anchors": ["hiku/introspection/graphql.py:root_schema_types", "hiku/introspection/graphql.py:type_fields_link", "hiku/introspection/graphql.py:field_type_link"]}
{"id": "C45", "title": "the endpoint never executes an invalid query and reports data or errors", "statement": "GraphQLEndpoint.dispatch returns {'data': ...} or {'errors': ...}; a query with validation errors or an unsupported operation type reaches no data function; batch dispatch answers each item as if it were dispatched alone, in order.", "quantifier": "every request", "why_tests_cant": "all requests (unknown fragment and operation names escape as exceptions; counterexamples proved)", "anchors": ["hiku/endpoint/graphql.py:GraphQLEndpoint.dispatch", "hiku/endpoint/graphql.py:_switch_graph", "hiku/endpoint/graphql.py:BatchGraphQLEndpoint"]}
{"id": "C46", "title": "graph transformers compose and preserve the graph", "statement": "The base GraphTransformer returns an equal graph; apply(graph, a + b) equals apply(apply(graph, a), b).", "quantifier": "every graph and list of transformers", "why_tests_cant": "all graphs", "anchors": ["hiku/graph.py:GraphTransformer", "hiku/graph.py:apply"]}
{"id": "C47", "title": "metrics wrappers are transparent", "statement": "A graph wrapped by GraphMetrics calls the same functions with the same arguments and returns the same results, and each call observes each requested field name once, labelled with the node the field belongs to.", "quantifier": "every graph, function and call", "why_tests_cant": "all graphs and calls (the node label is wrong when one function serves several nodes; counterexample proved)", "anchors": ["hiku/telemetry/prometheus.py:GraphMetricsBase"]}
{"id": "C48", "title": "the query builder builds what is written", "statement": "build([...]) returns exactly the query which is written with Q: the items in order, with the written names, options, aliases and nesting; expressions which give options and items only to handles they create change nothing else, so the result does not depend on what was built before, and handles kept in variables can be reused. Everything else fails with AssertionError. Every unordered query can be written.", "quantifier": "every builder expression which gives options and items only to handles created by itself, in every state of the program (whatever was done to Q and to other handles before)", "why_tests_cant": "all nestings, all orders of calls, all previous mutations of shared handles", "anchors": ["hiku/builder.py:build", "hiku/builder.py:Handle"]}
{"id": "C49", "title": "console routing", "statement": "A request gets exactly one answer with the status, the content type and the content documented for its path and method (404 for other paths, 405 for other methods; queries: 200 with the value, 400 with validation errors or for more than 1 MB, 500 for any failure, with a traceback in the debug mode only) and with its exact length. Only valid queries are executed, once; at most the declared length and at most 1 MB is read. Exceptions escape only if the path or the method is missing, the declared length is not a number or the result is not JSON serializable, and nothing was started then.", "quantifier": "every request, every sequence of requests, every graph and engine", "why_tests_cant": "all paths, methods, bodies, lengths and results", "anchors": ["hiku/console/ui.py:ConsoleApplication"]}
{"id": "C50", "title": "adding introspection is conservative", "statement": "GraphQLIntrospection accepts exactly the graphs whose names are GraphQL names and do not clash with the introspection names (ValueError or GraphValidationError otherwise); on the resulting graph every query of the original graph gives the same result or exception and makes the same calls in the same order, and __typename of an object is the name of its node.", "quantifier": "every graph, query and schedule", "why_tests_cant": "all graphs, queries and schedules", "anchors": ["hiku/introspection/graphql.py:GraphQLIntrospection", "hiku/introspection/graphql.py:ValidateGraph"]}
{"id": "C51", "title": "a failing data function fails the query, and nothing else does", "statement": "If any data function call made while a query is executed raises (at submission, as with the synchronous executor, or later in its task), the query does not succeed: no failure is swallowed and no partial result is returned. If the data functions otherwise describe some data, the execution either returns exactly the reference result of C06, and then no call failed, or it raises the very exception of a call that failed, which is one of the calls the failure-free execution makes.", "quantifier": "every graph, query, data, schedule, executor and every set of failing calls", "why_tests_cant": "all sets of failing calls at all points of all schedules", "anchors": ["hiku/engine.py:Query", "hiku/executors/queue.py:Queue", "hiku/executors/sync.py:SyncExecutor", "hiku/executors/threads.py:ThreadsExecutor", "hiku/executors/asyncio.py:AsyncIOExecutor"]}
{"id": "C52", "title": "cancelling an asynchronous execution cancels exactly the unfinished tasks", "statement": "Whenever an executor waits, the tasks it waits for are exactly those which were submitted and not yet reported as finished, each once; hence if the asyncio execution is cancelled, at whatever moment, every unfinished task is cancelled once and no finished one is. Without cancellation the asyncio executor behaves as the others.", "quantifier": "every graph, query, data functions, schedule and moment of cancellation", "why_tests_cant": "all schedules and cancellation points", "anchors": ["hiku/executors/asyncio.py:AsyncIOExecutor.process", "hiku/executors/queue.py:Queue"]}
{"id": "C53", "title": "the Kinko type file of a graph says what the graph declares", "statement": "For a graph whose names are words given once, dumping it to the Kinko type format succeeds, and reading the file back (indentation, words on the line, comments after two spaces and a semicolon) gives exactly: the data types, each node as a record of its fields and links in order with their types and descriptions, and the root fields and links. Two graphs with the same file declare the same. Fields without a type and description are left out; floats and untyped described fields are Unknown; functions cannot be dumped; a mapping from a container to a simple type is excluded (the file is garbled).", "quantifier": "every graph with printable names, every nesting of types", "why_tests_cant": "all graphs and nested types", "anchors": ["hiku/typedef/kinko.py:dumps", "hiku/typedef/kinko.py:GraphTypesEx", "hiku/typedef/kinko.py:_IndentedPrinter"]}
{"id": "C54", "title": "a graph over a database answers the joined data of its tables", "statement": "In a graph whose nodes are loaded by FieldsQuery and whose links are loaded by LinkQuery, every valid query is executed successfully under every schedule, and what is read through the result are the cells of the tables: a field of an object is the cell of its column in the row with that primary key (None without such a row), a to-many link holds the linked identifiers in the order of the table, and a single link the one linked identifier or nothing. The asynchronous sources, which fetch rows in buckets, give the same. Assumed: the database returns all matching rows in the order of the table, the column asked for exists, primary keys are unique, single links have at most one target, linked objects exist, root links have no requirements.", "quantifier": "every contents of the database, graph over it, query and schedule", "why_tests_cant": "all tables, graphs, queries and schedules", "anchors": ["hiku/sources/sqlalchemy.py:FieldsQuery", "hiku/sources/sqlalchemy.py:LinkQuery", "hiku/sources/aiopg.py", "hiku/engine.py:Engine.execute"]}
{"id": "C55", "title": "fields defined by expressions over a sub-graph have the values of the expressions over the data", "statement": "When fields of a high-level graph are defined by expressions over a lower graph (SubGraph, S, Expr, define, each, if_some), every valid query is executed successfully under every schedule, and the value of such a field of an object is the value of the expression as it was written: S.this is the object with the same identifier in the lower graph, S.x is the option x or the field or link x of the lower root, reading a field or a link asks the data of the lower graph (which may be defined by expressions itself), functions are called with the values of their arguments. It does not matter which other fields of the sub-graph are loaded by the same sub-query. Assumed: the expressions mention S.this, the data of the lower graph and the options are of the declared types, functions do not fail on arguments of their declared types and do not depend on how objects are represented, results contain no objects, names do not clash with generated ones (see C37), no field which is read is called obj (S.x.obj is the attribute of the notation object, that is S.x).", "quantifier": "every stack of graphs, expression, data, function, query and schedule", "why_tests_cant": "all expressions, graphs, data and schedules, and all other fields loaded together with the field", "anchors": ["hiku/sources/graph.py:SubGraph.__call__", "hiku/sources/graph.py:BoundExpr.__postprocess__", "hiku/sources/graph.py:CheckedExpr", "hiku/expr/core.py:to_expr", "hiku/expr/checker.py:check", "hiku/expr/compiler.py:ExpressionCompiler", "hiku/expr/refs.py:RequirementsExtractor", "hiku/result.py:Proxy"]}
{"id": "C56", "title": "requirements of an accepted expression are a valid query which asks only for what is read", "statement": "When an expression over the types of a graph passes the checker, the requirements extracted from it are a valid query of these types: every field and link in it exists, links are requested from objects and fields from everything else. At the top the query asks exactly for the variables which the expression reads (not for bound variables and not for functions which are called). For a field defined over a node of a sub-graph: below `this` the requirements are a valid query of the node, the rest is a valid query of the root, options of the field are not asked for, and `this` is there when the expression reads it - which is what C55 needs. Assumed: named types are not aliases, inline records in the types of function arguments spell out their fields (no Any, no names), functions are not passed as values, fields of the sub-graph need no options.", "quantifier": "every set of types, graph, expression and declaration of functions", "why_tests_cant": "all expressions, types and graphs", "anchors": ["hiku/expr/refs.py:RequirementsExtractor", "hiku/expr/refs.py:ref_to_req", "hiku/expr/refs.py:type_to_query", "hiku/expr/checker.py:check", "hiku/sources/graph.py:BoundExpr.__postprocess__"]}
{"id": "C57", "title": "a function annotated by the text of a query is declared for what is written", "statement": "A text which edn reads as a list of annotations, each `nil` or a query without options, always declares a function with as many arguments. An argument annotated by `nil` accepts everything. An argument annotated by a query accepts exactly the types in which every path of the annotation leads through records to something (and every path which is written as a link leads to an object), and a call of the function requires, besides everything on the way to the argument, exactly the paths of the annotation below it.", "quantifier": "every text, set of types without aliases, type of the argument and accepted expression which calls the function", "why_tests_cant": "all annotations, types and expressions", "anchors": ["hiku/expr/core.py:define", "hiku/expr/core.py:_query_to_types", "hiku/expr/checker.py:check_type", "hiku/expr/refs.py:type_to_query"]}
{"id": "C58", "title": "requirements of an expression are exactly the paths which it uses", "statement": "The requirements extracted from an accepted expression ask for a path if and only if the expression uses it: it is on the way to a variable or a field which is mentioned (bound variables of `each` and `if_some` stand for what they iterate over), or it is read inside of an object by a function to which the object is passed, as declared by the type of the argument. Nothing is missing and nothing is fetched needlessly. For a field defined by an expression over a sub-graph the same holds except for the options of the field, which are not fetched.", "quantifier": "every set of types without aliases, declaration of functions, accepted expression and path", "why_tests_cant": "all expressions, types and paths", "anchors": ["hiku/expr/refs.py:RequirementsExtractor", "hiku/expr/refs.py:ref_to_req", "hiku/expr/refs.py:type_to_query", "hiku/expr/checker.py:check", "hiku/sources/graph.py:BoundExpr.__postprocess__"]}
{"id": "C59", "title": "the calls of data functions are exactly the plan of the query, whatever the schedule", "statement": "The calls of the data functions of a graph which one execution makes are determined by the query and the data alone: per node, one call for each group of requested fields with the same loading function (in an ordered node, for each run of neighbours), one call per requested link with the required values of all objects at once, then the calls below for all linked identifiers together, and for fields defined over a sub-graph the calls of one query against that sub-graph. For every order in which tasks finish, nothing is loaded twice, nothing is missing and nothing superfluous is loaded; at any moment of the execution the calls made so far are a part of the plan.", "quantifier": "all systems of graphs, data, queries, executors and orders in which tasks finish", "why_tests_cant": "a test observes the calls for one query and one schedule; the claim is about every query and every interleaving", "anchors": ["hiku/engine.py:Query.process_node", "hiku/engine.py:SplitQuery", "hiku/engine.py:GroupQuery", "hiku/engine.py:Query._schedule_fields", "hiku/engine.py:Query._schedule_link", "hiku/engine.py:Query.process_link", "hiku/sources/graph.py:SubGraph.__call__"]}
{"id": "C60", "title": "the EDN reader accepts exactly the EDN grammar, with the value of each text", "statement": "`edn.loads` returns a value for a text if and only if the text is a document of the EDN grammar with this value: one element, with space, commas and comments anywhere between elements; numbers with suffixes, keywords, symbols, nil and booleans, characters, strings with escape sequences, lists, vectors, maps (the last of equal keys wins), sets and tagged elements, nested without limit. Everything else is an error. Exceptions which a user may not expect are part of the grammar: an unfinished element at the end of the text is ignored, and the character after a tagged word is swallowed.", "quantifier": "all texts, all handlers of tags, all behaviours of `float` and of `isalpha`/`isdigit` outside of ASCII", "why_tests_cant": "the reader is a machine of nested coroutines which gets one character at a time; tests cover some texts, the claim is about every text, accepted or not, and every nesting", "anchors": ["hiku/edn.py:loads", "hiku/edn.py:parser", "hiku/edn.py:tag_handler", "hiku/edn.py:number_handler", "hiku/edn.py:symbol_handler", "hiku/edn.py:character_handler"]}
{"id": "C61", "title": "the EDN and protobuf query readers read exactly what is written", "statement": "readers.simple.read(text) returns a query if and only if the text is one EDN value of the query notation (vectors of names, names with options, and maps from names to vectors), and then it is the query written down, item by item, with duplicates merged and nothing added or lost; any other EDN value is a TypeError. readers.protobuf does the same for messages: every item must be a field or a link with a non-empty name.", "quantifier": "every text, every message, every hash, every conversion of options", "why_tests_cant": "infinitely many texts and messages, valid and invalid", "anchors": ["hiku/readers/simple.py:read", "hiku/readers/simple.py:transform", "hiku/readers/simple.py:_extract", "hiku/readers/simple.py:_get_options", "hiku/readers/protobuf.py:transform"]}
{"id": "C62", "title": "requests of an asynchronous batch do not interfere", "statement": "When AsyncBatchGraphQLEndpoint.dispatch is given a list, the requests are executed concurrently. Whatever the order in which the event loop runs them and in which their tasks are finished, and whatever the data functions return: every request which ends has the answer (or the exception) it has when it is dispatched alone with the same outcomes of its data functions; the batch always comes to an outcome, after at most one step per request and one per field, link and requirement of the queries, with no deadlock on the way; the answers are as many as the requests and in their order; if the batch raises, it is the exception of one of its requests; the outcome never changes afterwards. For valid requests over data which follow the loading protocol the answers do not depend on the order at all.", "quantifier": "all lists of requests, endpoints, outcomes of data functions and interleavings of the tasks", "why_tests_cant": "the interleavings of the rounds of several executions are unboundedly many, a test sees the one its event loop happens to choose", "anchors": ["hiku/endpoint/graphql.py:AsyncBatchGraphQLEndpoint.dispatch", "hiku/endpoint/graphql.py:AsyncGraphQLEndpoint.dispatch", "hiku/executors/asyncio.py:AsyncIOExecutor.process", "hiku/engine.py:Engine.execute"]}
{"id": "C63", "title": "the functions of an expression are found, and their order does not matter", "statement": "Compiling an expression (SubGraph.compile, the c helper) finds exactly the defined functions which are called anywhere in it - in arguments of other calls, in items of lists and in values of dicts - each once and with the types it was defined with. A name in the expression stands for `this`, else for an option of the field, else for a field or link of the root of the lower graph, else for one of these functions, and otherwise is unknown. The functions are collected in a Python set, whose order changes from run to run: the checked expression, its requirements, the compiled code, the exceptions and the value of the expression are the same for every order.", "quantifier": "every expression, graph, list of options and every order of the set of functions", "why_tests_cant": "expressions are nested without bound, and a test run sees one order of the set", "anchors": ["hiku/expr/core.py:_to_expr", "hiku/expr/core.py:to_expr", "hiku/expr/checker.py:fn_types", "hiku/expr/checker.py:Checker", "hiku/sources/graph.py:BoundExpr.__postprocess__"]}
{"id": "C64", "title": "a query takes no longer than its longest chain of calls", "statement": "Everything which does not need the result of something else goes on at the same time. If every call of a data function f finishes within wt(f) rounds of the executor, Engine.execute finishes within the time of the longest chain of calls in the query in which one needs the result of the previous one: a field after nothing, a link after the field it requires, the objects behind a link after the link, a step of an ordered node after the previous step, a field over a sub-graph for as long as the merged requirements of the fields take on the lower graph. The time is computed from the query and the graphs alone: it depends neither on the number of fields and links side by side nor on the amount of data. In a graph without sub-graphs, an executor which waits for everything outstanding answers a query without ordered nodes whose links are nested d deep in at most 2d+1 rounds.", "quantifier": "every graph, query, data source, schedule and every bound on the time of calls", "why_tests_cant": "a needless wait shows up only for particular shapes of queries and only as a slower answer", "anchors": ["hiku/engine.py:Query.process_node", "hiku/engine.py:Query.process_link", "hiku/engine.py:Query._schedule_fields", "hiku/engine.py:Query._schedule_link", "hiku/executors/queue.py:Queue.progress", "hiku/sources/graph.py:SubGraph.__call__"]}
{"id": "C65", "title": "cancelling an asynchronous batch cancels exactly the unfinished tasks of its requests", "statement": "If the task which awaits AsyncBatchGraphQLEndpoint.dispatch of a list is cancelled before the batch has come to its outcome, then from that moment on no request of the batch goes on: no request is started and no data function is called. Every request which had not ended is interrupted, once, in whatever order the event loop comes to them, within as many steps as there are requests; each calls cancel() once on every task of its own which was submitted and not yet reported as finished, and on no other task. Requests which had ended are not touched. An interrupted request raises CancelledError, except when one of its own tasks has already failed before another one is seen as cancelled: then it raises the exception of that task.", "quantifier": "all lists of requests, endpoints, data functions, interleavings of the tasks and moments of cancellation", "why_tests_cant": "the moment of cancellation falls anywhere between any two steps of any interleaving of the requests", "anchors": ["hiku/executors/asyncio.py:AsyncIOExecutor.process", "hiku/endpoint/graphql.py:AsyncBatchGraphQLEndpoint.dispatch"]}
{"id": "C66", "title": "the notation of types makes the types which are written, and types are compared by structure", "statement": "Optional[T], Sequence[T], Mapping[K, V], Record[{name: T, ...}] or Record[[(name, T), ...]], Callable[A, B, ...] and TypeRef['name'] make, to any depth, the type which is written; a name in quotes stands for TypeRef[name] in every place; a field written twice in a Record has the later type. Two types are == exactly when they are the same constructor applied to equal parameters, the fields of records in the same order; a type with parameters is not equal to the one without, and takes no more parameters: T[...][...] raises TypeError. Mapping takes exactly the objects with two items, Callable exactly the objects with items (a string is its characters), Record exactly the dicts and the collections of pairs; Optional, Sequence and TypeRef take anything.", "quantifier": "all type expressions to any depth, all objects given as parameters", "why_tests_cant": "types nest without bound, and any object may be given as a parameter", "anchors": ["hiku/types.py:TypingMeta.__getitem__", "hiku/types.py:GenericMeta.__eq__", "hiku/types.py:_maybe_typeref"]}
{"id": "C67", "title": "executing merged queries gives each query what it would get alone", "statement": "Take any non-empty list of queries, each valid on its own and selecting sub-fields on links only, whose merge asks for no two things under the same result key at the same place. Then engine.execute of merge(queries) succeeds, under every schedule, and its denormalized result is exactly the results of the single queries put together: at every level a dict has the keys which occur in one of them, lists have the same length and are put together position by position, and every other value is the one which each query that asks for it gets alone. In particular the result contains the result of each query executed alone, under any other schedule. Options are accepted for the merged query whenever they are accepted for the queries. (Assuming data functions which follow the loading protocol and no hash collisions among the options which occur.)", "quantifier": "all lists of queries of any depth, graphs with sub-graphs, data, schedules of both executions", "why_tests_cant": "queries, graphs and data are unbounded, and the two executions batch and schedule their calls differently", "anchors": ["hiku/query.py:merge", "hiku/engine.py:Engine.execute", "hiku/engine.py:InitOptions", "hiku/result.py:denormalize"]}
{"id": "C68", "title": "introspection conforms to the introspection schema of GraphQL", "statement": "Every selection of the introspection schema of the GraphQL specification (section 4.5: __schema, __type and the fields of __Schema, __Type, __Field, __InputValue, __EnumValue, __Directive, with their arguments), at any depth and with any aliases, is valid in a graph with introspection, also mixed with selections of the graph's own fields, and its execution gives an answer of the declared types: no null where the specification excludes it, kinds and directive locations of the specification, ofType exactly on LIST and NON_NULL, names on all other types, fields exactly on objects.", "quantifier": "every graph with introspection whose schema GraphQL can describe, every introspection query, every schedule", "why_tests_cant": "introspection queries are of any depth and combination, types nest without a bound", "anchors": ["hiku/introspection/graphql.py:GRAPH", "hiku/introspection/graphql.py:type_info", "hiku/introspection/graphql.py:GraphQLIntrospection.visit_graph"]}
{"id": "C69", "title": "a graph can grow without existing queries noticing", "statement": "When new nodes, new fields and links of existing nodes and of the root, new data types and new sub-graphs are added to the graphs of a program (with names which were not used in their places before, nothing removed or changed), every query which was valid before is valid, it gets the same option defaults, its execution gives the same result, denormalized too, and calls the data functions with the same arguments, whatever the orders in which tasks finish before and after.", "quantifier": "all pairs of systems of graphs of which the second extends the first (at every level, sub-graphs included), all queries which the first can answer, all data functions which follow the loading protocol, all schedules of both executions", "why_tests_cant": "a test compares one graph before and after one change; additions can be made anywhere, in any number of nodes and lower graphs at once, and queries and schedules are unbounded", "anchors": ["hiku/graph.py: Graph, Node.fields_map, Graph.nodes_map", "hiku/engine.py: Engine.execute, SplitQuery, InitOptions", "hiku/validate/query.py: QueryValidator", "hiku/expr/checker.py, hiku/sources/graph.py: SubGraph"]}
{"id": "C70", "title": "What an item evaluates to does not depend on its alias, its position and its company", "statement": "Let Q be a query which the engine's option initialisation accepts and q a query every item of which, at every depth, is also asked for by Q - under another alias, at another position, among other items. Then q is accepted as well, and the answer to q (what a program reads from the result by denormalizing it) can be read off the answer to Q item by item, whatever the schedules of the two executions: its keys are q's result keys in q's order, and each of them holds what Q's answer holds under the key of the corresponding item of Q. In particular a field asked for twice under two aliases has the same value twice, and removing, renaming or reordering items of a query changes nothing in what the remaining items evaluate to.", "quantifier": "for all systems of graphs and backend data (as in C20), all pairs of queries of any depth and width related in this way, and all schedules of both executions", "why_tests_cant": "A test compares a few pairs of queries on one schedule; independence has to hold for each of the exponentially many sub-queries, renamings and orders of a query and for each pair of schedules.", "anchors": ["hiku/engine.py: Query, Engine.execute, InitOptions, SplitQuery", "hiku/result.py: Proxy, Index", "hiku/denormalize/graphql.py: DenormalizeGraphQL", "hiku/query.py: Field, Link, Node.result_map"]}
{"id": "C71", "title": "Query objects with cached keys and shared parts behave as immutable trees", "statement": "Query objects (Field, Link, Node) are shared between queries - merge keeps the fields of its arguments, option initialisation keeps fields without options - and remember result_key, options_hash, index_key, fields_map and result_map once they were read. Whatever sequence of constructions, reads, copies with replaced parts, merges, transformations and comparisons a program has made, an object still stands for the tree it was built as; its keys and maps are those of that tree (never those of the object it was copied from); merging, copying, stripping and initialising options give objects which stand for the merged, copied, stripped and initialised trees (with the same errors); and == compares trees, whatever has been read and whatever is shared.", "quantifier": "for all histories of operations on any number of query objects, all sharing between them, all depths, all option values and hash functions", "why_tests_cant": "Staleness depends on the history: which property was read before which copy, on objects shared by which queries; tests look at fresh objects and a few orders of reads.", "anchors": ["hiku/utils.py: cached_property", "hiku/query.py: Base.copy, Base.__eq__, FieldBase, Field, Link, Node, merge, QueryTransformer", "hiku/engine.py: InitOptions", "hiku/endpoint/graphql.py: _StripQuery"]}
{"id": "C72", "title": "The nested index of default dicts behaves as one table of cells", "statement": "The result index is a defaultdict of defaultdicts of dicts: every look-up makes the missing parts, one of the dicts is remembered as `root`, and finish takes the factories away. Whatever a query stores and reads in it, in any order and with any failures in between, the outcomes - values and errors - are those of a plain table with one cell per (node, identity, key); after finish every read through a proxy gives the value or the error which that table gives, and changes nothing, so reads can be repeated in any order; and no two objects ever share a dict, so what is stored for one object is not seen in another. In particular every index of a running query - its own and those of the sub-graphs, in every round - is one which some history of stores without failures gives.", "quantifier": "for all sequences of store and requirement-reading operations with any results, valid or not, and for all objects and keys read afterwards; for all executions, rounds, executors and data functions", "why_tests_cant": "Look-ups have side effects here (they create objects), so what a read returns could depend on the reads and failures before it; tests read a few finished results.", "anchors": ["hiku/result.py: Index, Index.root, Index.finish, Proxy.__getitem__", "hiku/utils.py: cached_property", "hiku/engine.py: store_fields, link_reqs, store_links"]}
