{"claims": [
  {"property": "C01", "status": "proved", "theorems": ["Hiku.c01_merge_requests", "Hiku.c01_merge_nodup", "Hiku.c01_merge_kept"], "note": "merge requests exactly the same paths, no duplicates at any depth"},
  {"property": "C02", "status": "proved", "theorems": ["Hiku.c02_merge_grouping", "Hiku.c02_merge_idempotent"], "note": ""},
  {"property": "C03", "status": "partial", "theorems": ["Hiku.c03_merge_order_partial", "Hiku.c03_order_iff", "Hiku.c03_counterexample"], "note": "Order is kept among fields and among links. c03_order_iff: the order of the document is kept exactly when no field follows a link (and nothing is repeated); the full claim is false of the code (merge puts fields before links), counterexample proved"},
  {"property": "C04", "status": "partial", "theorems": ["Hiku.c04_same_options_same_slot", "Hiku.c04_distinct_slots_partial", "Hiku.c04_collision"], "note": "first half proved; second half only for an injective hash, and false for CPython's hash (-1 and -2 collide), counterexample proved"},
  {"property": "C05", "status": "proved", "theorems": ["Hiku.c05_options", "Hiku.c05_positions", "Hiku.c05_missing", "Hiku.c05_before_any_call", "Hiku.c05_idempotent"], "note": ""},
  {"property": "C06", "status": "proved", "theorems": ["Hiku.c06_result", "Hiku.c06_loop"], "note": "Every schedule, every protocol-conforming world (Spec/Semantics.lean: Conforms), sub-graphs included; the result is what can be read through Proxy. Hypotheses: no index key collisions among the used names and options (Faithful, see C04), no selections on complex fields in ordered nodes."},
  {"property": "C07", "status": "proved", "theorems": ["Hiku.c07_terminates", "Hiku.c07_deterministic"], "note": ""},
  {"property": "C08", "status": "proved", "theorems": ["Hiku.c08_calls", "Hiku.c08_total_calls"], "note": ""},
  {"property": "C09", "status": "proved", "theorems": ["Hiku.c09_calls", "Hiku.c09_call"], "note": "c09_calls: the whole log of an execution with protocol-conforming functions; c09_call: arguments of a single link call for arbitrary functions."},
  {"property": "C10", "status": "proved", "theorems": ["Hiku.c10_fields_reject", "Hiku.c10_fields_store", "Hiku.c10_links_reject", "Hiku.c10_links_store", "Hiku.asSeq_exact", "Hiku.link_kind", "Hiku.link_type"], "note": "store_fields/store_links modelled as in-place programs returning the index also on errors asSeq_exact: which Python values are sequences; link_kind/link_type: kinds of links by their types."},
  {"property": "C11", "status": "proved", "theorems": ["Hiku.c11_targets", "Hiku.c11_maybe", "Hiku.c11_many", "Hiku.c11_one_raises"], "note": ""},
  {"property": "C12", "status": "proved", "theorems": ["Hiku.c12_ordered", "Hiku.c12_ordered_all", "Hiku.c12_waits", "Hiku.c12_waits_sub"], "note": "For every ordered top query, all functions and schedules: the calls of the root node follow the plan of the query one by one; c12_waits covers the steps of ordered nodes below links. A step of fields over a sub-graph: c12_waits_sub with c17_engine."},
  {"property": "C13", "status": "proved", "theorems": ["Hiku.c13_context", "Hiku.c13_missing_key", "Hiku.c13_present_key"], "note": ""},
  {"property": "C14", "status": "proved", "theorems": ["Hiku.c14_executor_independent"], "note": "Two schedules and two conforming implementations of the data functions."},
  {"property": "C15", "status": "proved", "theorems": ["Hiku.c15_no_dangling"], "note": "For conforming data functions; with functions which return different links for equal arguments the claim is false (a later call overwrites the reference)."},
  {"property": "C16", "status": "proved", "theorems": ["Hiku.c16_order", "Hiku.c16_after_report", "Hiku.c16_run"], "note": ""},
  {"property": "C17", "status": "partial", "theorems": ["Hiku.c17_complete_partial", "Hiku.c17_fires", "Hiku.c17_engine", "Hiku.c17_counterexample"], "note": "proved for programs whose callbacks do not submit to task sets completed in the same batch; false without this, counterexample proved. For the engine itself the full claim is proved (c17_engine): in every execution of every query, when a callback of a task set starts, no task of the set and no task set forked from it is left in the queue"},
  {"property": "C18", "status": "proved", "theorems": ["Hiku.c18_queue_empty"], "note": ""},
  {"property": "C19", "status": "proved", "theorems": ["Hiku.c19_denied", "Hiku.c19_missing", "Hiku.c19_granted", "Hiku.c19_access"], "note": "Proxy access; examples beside the theorems"},
  {"property": "C20", "status": "proved", "theorems": ["Hiku.c20_shape", "Hiku.c20_denormalize", "Hiku.c20_value", "Hiku.Tight.c20_dict"], "note": "shape for every stored result, and for every finished execution; equals the reference semantics for queries selecting on links c20_dict: a dict where a list of records is declared is an error, not the list of its values."},
  {"property": "C21", "status": "proved", "theorems": ["Hiku.c21_agree", "Hiku.c21_named_list", "Hiku.c21_record_alias"], "note": "exact agreement, including exceptions, for every index; two counterexamples show that the restriction to the selections of PlainSel is needed"},
  {"property": "C22", "status": "proved", "theorems": ["Hiku.c22_typename", "Hiku.c22_error", "Hiku.c22_typename_selection"], "note": "also the negative witness for a selection on __typename"},
  {"property": "C23", "status": "partial", "theorems": ["Hiku.c23_partial", "Hiku.c23_options", "Hiku.c23_ordered_record"], "note": "Accepted queries execute without error on protocol-following functions, for every schedule; all looked-up names exist and every option value has its declared type (no condition on functions). Missing: selections inside record fields of ordered nodes, where the claim is false (c23_ordered_record)"},
  {"property": "C24", "status": "proved", "theorems": ["Hiku.c24_exact", "Hiku.c24_valid", "Hiku.c24_accepts"], "note": "Exactly the violations are reported whenever validate returns; it returns [] iff the query is valid on graphs with well-formed types"},
  {"property": "C25", "status": "proved", "theorems": ["Hiku.c25_option_types", "Hiku.c25_decided", "Hiku.c25_recursive_string", "Hiku.asSeq_exact"], "note": "Option values are accepted iff they have the declared type (HasType), for arbitrary named types; recursion limit as a parameter; recursion on a recursive named sequence type is a proved finding "},
  {"property": "C26", "status": "partial", "theorems": ["Hiku.c26_partial", "Hiku.c26_no_records", "Hiku.c26_unknown_link", "Hiku.c26_dangling_type", "Hiku.c26_recursive_type", "Hiku.c26_callable", "Hiku.c26_exact"], "note": "validate returns for every query that selects inside existing record fields, on graphs with well-formed types. The full claim is false: four proved counterexamples On graphs with well-formed types c26_exact says exactly when validate raises (a selection inside an unknown field of a record) and what (KeyError)."},
  {"property": "C27", "status": "proved", "theorems": ["Hiku.c27_graph", "Hiku.c27_duplicates", "Hiku.c27_links", "Hiku.c27_lookups", "Hiku.c27_requires_link"], "note": "A graph is constructed iff it is well-formed"},
  {"property": "C28", "status": "partial", "theorems": ["Hiku.c28_partial", "Hiku.c28_injective", "Hiku.c28_control", "Hiku.c28_inf", "Hiku.c28_tagged", "Hiku.c28_dash", "Hiku.c28_list", "Hiku.EdnText.c28_strings", "Hiku.EdnText.c28_strings_iff", "Hiku.EdnLast.c28_exact", "Hiku.EdnSym.c28_symbols", "Hiku.EdnSym.c28_keywords", "Hiku.EdnSym.c28_second", "Hiku.EdnSym.c28_plus"], "note": "Round trip proved for every value built from the EDN types to any depth; the exclusions of EdnVal (characters written as \\uXXXX, inf/nan, tagged atoms without delimiter, unreadable symbols) are necessary: the c28_* witnesses show the code does not round-trip there. for strings the characterisation is exact (iff) c28_exact: a value of readable atoms is read back iff no collection in it ends with a tagged value without delimiter, otherwise loads raises ValueError; c28_symbols and c28_keywords are exact (iff) as well."},
  {"property": "C29", "status": "partial", "theorems": ["Hiku.c29_partial", "Hiku.c29_view", "Hiku.c29_alias", "Hiku.c29_ordered", "Hiku.c29_list", "Hiku.c29_dict", "Hiku.c29_name", "Hiku.c29_unsupported", "Hiku.RoundTrip.c29_iff", "Hiku.RoundTrip.c29_kept_value", "Hiku.Tight.c29_keywords"], "note": "Proved for every query without aliases and ordered nodes whose options are scalars; c29_view says what is read back for all exportable queries (aliases and ordered lost, option lists/dicts as EDN values), and the c29_* witnesses show the full statement is false there. c29_iff: a merged query survives exactly when it has no aliases, no ordered nodes and its option values are kept by EDN (c29_kept_value: scalars, EDN sets of such, empty EDN dicts). c29_keywords: the keys of every exported dict are keywords, whatever they were."},
  {"property": "C30", "status": "partial", "theorems": ["Hiku.c30_partial", "Hiku.c30_view", "Hiku.c30_malformed", "Hiku.c30_alias", "Hiku.c30_ordered", "Hiku.c30_empty_name", "Hiku.RoundTrip.c30_iff"], "note": "Proved for queries without aliases/ordered nodes, with non-empty names and options which survive the Struct conversion (a parameter; nothing is assumed about it); c30_view says what is read back in general; c30_malformed characterises the readable messages. Binary encoding not modelled. c30_iff: for merged queries the condition of c30_partial is also necessary."},
  {"property": "C31", "status": "partial", "theorems": ["Hiku.c31_partial", "Hiku.c31_view", "Hiku.c31_empty", "Hiku.c31_ordered", "Hiku.c31_unsupported", "Hiku.RoundTrip.c31_iff"], "note": "Proved for every query with JSON options, aliases included, without ordered nodes and without {} options; c31_view says what is read back in general. Printing and parsing of the document text are library functions, not modelled. c31_iff: for merged queries the condition of c31_partial is also necessary."},
  {"property": "C32", "status": "proved", "theorems": ["Hiku.c32_inlining", "Hiku.c32_possible"], "note": "Reading an operation gives the same outcome (query or exception) as reading the fully inlined operation in a document without fragments, cache and pending set included; inlining is possible for every document whose fragments are defined and acyclic."},
  {"property": "C33", "status": "proved", "theorems": ["Hiku.c33_terminates", "Hiku.c33_cyclic"], "note": "The recursion bound of the model is never reached and a larger one changes nothing; a reachable self-spreading fragment is never accepted, and is a TypeError in documents whose fragments are defined."},
  {"property": "C34", "status": "partial", "theorems": ["Hiku.c34_c35_meaning_partial", "Hiku.c34_prune_partial", "Hiku.c34_exact", "Hiku.c34_left_out", "Hiku.c34_deviation", "Hiku.c34_malformed", "Hiku.c34_single", "Hiku.c34_both"], "note": "The rule of GraphQL is proved for every document except selections which carry both @skip(if: false) and @include(if: false) (c34_both proves that the code ignores the @include then, so the full statement is false) or repeated conditions. For all documents without condition the rule of the code is proved (c34_exact: first @skip, else first @include), and c34_deviation says exactly where it differs from GraphQL."},
  {"property": "C35", "status": "proved", "theorems": ["Hiku.c34_exact", "Hiku.c35_missing", "Hiku.c35_undeclared", "Hiku.c35_value_unique"], "note": "The partial suffix of the meaning theorem concerns C34 only (a selection with both false conditions)."},
  {"property": "C36", "status": "proved", "theorems": ["Hiku.c36_chosen", "Hiku.c36_errors", "Hiku.c36_ordered", "Hiku.c36_read"], "note": "Choice of the operation, error kinds (unknown name: ValueError), ordered flag at the root only for mutations."},
  {"property": "C37", "status": "partial", "theorems": ["Hiku.Expr.c37_compiled_meaning_partial", "Hiku.Expr.clean_of_simple", "Hiku.Expr.exBody_value", "Hiku.Expr.c37_closed_scope", "Hiku.Expr.c37_if_some_self", "Hiku.Expr.c37_if_some_else", "Hiku.Expr.c37_capture", "Hiku.Expr.c37_reserved"], "note": "Proved for every expression whose variables obey the naming conditions Hygienic (simple names are enough, no reuse of a global's name, if_some variable not used in its own expression or else-branch); the unrestricted statement is false, five counterexamples are proved."},
  {"property": "C38", "status": "proved", "theorems": ["Hiku.Expr.c38_requirements_cover", "Hiku.Expr.c38_compiled_partial", "Hiku.Expr.merge_covers", "Hiku.Expr.exExpr_checked", "Hiku.Expr.exExpr_globals", "Hiku.Expr.c38_typeref"], "note": "Evaluation succeeds on any data that supplies only the extracted query; functions may read what their declared inline types spell out (a TypeRef argument yields no requirement: c38_typeref). c38_compiled_partial adds the compiled procedure under the naming conditions of C37."},
  {"property": "C39", "status": "proved", "theorems": ["Hiku.Expr.c39_checked_typed", "Hiku.Expr.c39_checked_safe", "Hiku.Expr.exTypes_good", "Hiku.Expr.c39_alias", "Hiku.Expr.c39_callable", "Hiku.Expr.c39_recursive", "Hiku.Expr.c39_accepts", "Hiku.Expr.c39_decides", "Hiku.Expr.exTyped"], "note": "Typing derivation and semantic safety. Assumes that named types are not aliases of other names (c39_alias shows why) and, for safety, no callable types inside data types. Both directions are proved: c39_accepts (accepted for some depth of the stack iff well-typed), c39_decides (accepted for every depth above some one; never accepted when not well-typed)."},
  {"property": "C40", "status": "proved", "theorems": ["Hiku.Sources.c40_fields", "Hiku.Sources.c40_order_irrelevant", "Hiku.Sources.c40_unknown_column", "Hiku.Sources.c40_types", "Hiku.Sources.c40_primary_key"], "note": "FieldsQuery of the SQL source: every requested cell in request order, None for missing rows, row order irrelevant, unknown column error, column types, the primary key must be a single column."},
  {"property": "C41", "status": "proved", "theorems": ["Hiku.Sources.c41_maybe", "Hiku.Sources.c41_one", "Hiku.Sources.c41_one_missing", "Hiku.Sources.c41_many", "Hiku.Sources.c41_many_row_order", "Hiku.Sources.c41_none_not_sent", "Hiku.Sources.c41_null_target", "Hiku.Sources.c41_one_table"], "note": "LinkQuery: exact mapping for the three link kinds; both columns must be of one table; c41_null_target is the finding about NULL target columns."},
  {"property": "C42", "status": "proved", "theorems": ["Hiku.Sources.c42_chunks", "Hiku.Sources.c42_async_same", "Hiku.Sources.c42_bucket_size"], "note": "Chunking of large id lists does not change the result."},
  {"property": "C43", "status": "proved", "theorems": ["Hiku.Intro.c43", "Hiku.Intro.c43_reported", "Hiku.Intro.c43_total", "Hiku.Intro.c43_refused", "Hiku.Intro.c43_nonNull_iff", "Hiku.Intro.c43_wellFormed"], "note": "TypeIdent for every type, in both modes; Describes is the independent specification; callable types and unknown input types are refused"},
  {"property": "C44", "status": "partial", "theorems": ["Hiku.Intro.c44_result_partial", "Hiku.Intro.c44_loop_partial", "Hiku.Intro.c44_leaf_listed_partial", "Hiku.Intro.c44_listed_iff", "Hiku.Intro.c44_schema", "Hiku.Intro.c44_types", "Hiku.Intro.c44_type", "Hiku.Intro.c44_typeField", "Hiku.Intro.c44_fields", "Hiku.Intro.c44_fieldType", "Hiku.Intro.c44_mutation_nodes", "Hiku.Intro.c44_untyped_option", "Hiku.Intro.c44_alias_type", "Hiku.Intro.c44_private_node", "Hiku.Intro.c44_query_node", "Hiku.Intro.c44_record_node", "Hiku.Intro.c44_listed_twice", "Hiku.Intro.c44_type_record", "Hiku.Intro.c44_args", "Hiku.Intro.c44_argType", "Hiku.Intro.c44_argField", "Hiku.Intro.c44_inputFields", "Hiku.Intro.c44_ofType"], "note": "End to end through the engine: every query with introspection gives what the schema prescribes, for every schema of GoodSchema (no mutation-only nodes mentioned, typed options, record data types, a public field in every node). For all graphs the claim is false: the counterexamples are proved. "},
  {"property": "C45", "status": "partial", "theorems": ["Hiku.Endpoint.c45_only_valid", "Hiku.Endpoint.c45_no_typename", "Hiku.Endpoint.c45_strip_same", "Hiku.Endpoint.c45_invalid", "Hiku.Endpoint.c45_unsupported", "Hiku.Endpoint.c45_unreadable", "Hiku.Endpoint.c45_executed", "Hiku.Endpoint.c45_data_executed", "Hiku.Endpoint.c45_answers_partial", "Hiku.Endpoint.c45_data_partial", "Hiku.Endpoint.c45_endpoint_partial", "Hiku.Endpoint.c45_batch", "Hiku.Endpoint.c45_batch_one", "Hiku.Endpoint.c45_batch_alone", "Hiku.Endpoint.c45_batch_only_valid", "Hiku.Endpoint.c45_batch_escapes", "Hiku.Endpoint.c45_unknown_fragment", "Hiku.Endpoint.c45_unknown_operation", "Hiku.Endpoint.c45_no_query", "Hiku.Endpoint.c45_syntax", "Hiku.Endpoint.c45_batch_lost", "Hiku.Endpoint.c45_escapes"], "note": "Only valid queries are executed, once, without __typename; answers are data (reference semantics with type names, also for graphs with introspection) or all validation errors; batches in order. Not total in the code: unknown fragments/operations, a missing query and syntax errors escape as exceptions (proved), one such item loses a whole batch. c45_escapes says exactly when and with which exception a request is not answered."},
  {"property": "C46", "status": "proved", "theorems": ["Hiku.Transform.c46_identity", "Hiku.Transform.c46_only_functions", "Hiku.Transform.c46_apply_append", "Hiku.Transform.c46_apply_cons", "Hiku.Transform.c46_apply_identity"], "note": "Base transformer is the identity on constructed graphs; transformers which only replace functions preserve everything else; apply is left-to-right composition."},
  {"property": "C47", "status": "partial", "theorems": ["Hiku.Telemetry.c47_graph", "Hiku.Telemetry.c47_execute", "Hiku.Telemetry.c47_calls", "Hiku.Telemetry.c47_observations_partial", "Hiku.Telemetry.c47_reported", "Hiku.Telemetry.c47_subqueries", "Hiku.Telemetry.c47_subquery_outcome", "Hiku.Telemetry.c47_counterexample"], "note": "Transparency proved for every valid query, program and schedule. Labels proved when no function loads fields of two nodes (c47_observations_partial); false otherwise: c47_counterexample. c47_reported says exactly what is reported for all graphs: fields carry the label of the first node loaded by the same function."},
  {"property": "C48", "status": "proved", "theorems": ["Hiku.Builder.c48_written", "Hiku.Builder.c48_exact", "Hiku.Builder.c48_unchanged", "Hiku.Builder.c48_assertion", "Hiku.Builder.c48_stateless", "Hiku.Builder.c48_every", "Hiku.Builder.c48_build", "Hiku.Builder.c48_reachable"], "note": "Handles live in a heap and are mutated in place as in the code. Impure uses are defects: c48_changed_variable, c48_global, c48_cycle, c48_alias_twice."},
  {"property": "C49", "status": "proved", "theorems": ["Hiku.Console.c49_once", "Hiku.Console.c49_index", "Hiku.Console.c49_script_name", "Hiku.Console.c49_docs", "Hiku.Console.c49_script", "Hiku.Console.c49_not_allowed", "Hiku.Console.c49_not_found", "Hiku.Console.c49_too_big", "Hiku.Console.c49_invalid", "Hiku.Console.c49_data", "Hiku.Console.c49_failure", "Hiku.Console.c49_no_leak", "Hiku.Console.c49_reads", "Hiku.Console.c49_only_valid", "Hiku.Console.c49_serve", "Hiku.Console.c49_answers", "Hiku.Console.c49_escapes", "Hiku.Console.c49_value"], "note": "Page template, script, docs text, json.dumps, int() and traceback formatting are parameters. Exceptions which escape: c49_no_path, c49_bad_length, c49_not_json."},
  {"property": "C50", "status": "proved", "theorems": ["Hiku.Intro.c50_constructed", "Hiku.Intro.c50_transparent", "Hiku.Intro.c50_calls", "Hiku.Intro.c50_typename", "Hiku.Intro.c50_two_roots", "Hiku.Intro.c50_newline", "Hiku.Intro.type_lookup", "Hiku.Intro.type_lookup_noname"], "note": "the refused and the accepted graphs are characterised; the newline at the end of a name is a defect which is part of the statement (AcceptedName); a graph with two Root() items is refused "},
  {"property": "C51", "status": "proved", "theorems": ["Hiku.c51_no_swallow", "Hiku.c51_outcome", "Hiku.c51_fails_iff", "Hiku.c51_left_running"], "note": "executors which raise at submission are Env.atOnce c51_left_running is a finding: other tasks are left running after a failure."},
  {"property": "C52", "status": "proved", "theorems": ["Hiku.c52_accounted", "Hiku.c52_cancel", "Hiku.c52_not_cancelled"], "note": "the event loop's treatment of cancelled tasks and a CancelledError raised by a data function itself are not modelled"},
  {"property": "C53", "status": "proved", "theorems": ["Hiku.Kinko.c53_dumps", "Hiku.Kinko.c53_injective", "Hiku.Kinko.c53_garbled", "Hiku.Kinko.c53_garbled_unreadable", "Hiku.Kinko.c53_callable", "Hiku.Kinko.c53_untyped", "Hiku.Kinko.c53_float"], "note": "the restrictions are part of the statement; what happens outside them is proved too"},
  {"property": "C54", "status": "proved", "theorems": ["Hiku.Sources.c54_result", "Hiku.Sources.c54_async", "Hiku.Sources.conforms", "Hiku.Sources.fields_call", "Hiku.Sources.link_call", "Hiku.Sources.db_result"], "note": "End-to-end: the tables' data is what the engine answers. Sources are the modelled FieldsQuery/LinkQuery of C40-C42; c54_async shows the bucketed fetch satisfies InOrder; db_result is a concrete database and query."},
  {"property": "C55", "status": "proved", "theorems": ["Hiku.SubExpr.c55_result", "Hiku.SubExpr.c55_procedure", "Hiku.SubExpr.c55_declared", "Hiku.SubExpr.c55_truth", "Hiku.SubExpr.c55_stored", "Hiku.SubExpr.c55_written", "Hiku.SubExpr.c55_field", "Hiku.SubExpr.c55_obj"], "note": "Expressions are modelled from the notation (to_expr) through check, requirements extraction and compilation to the run of the compiled lambda on results of the sub-query. The meaning (Spec/SubExpr, meaning and exprSub) asks the data directly. c55_declared: for graphs built over layers of declared subgraphs the assumption ReqsOk of GoodSys is derived (by C56). c55_truth and c55_stored pin the truth of values in conditions and the value stored for a computed one. Example: Props/SubExprExample, SubExprDeclared. c55_written says which Python notation makes the expressions; c55_obj is the finding about fields called obj."},
  {"property": "C56", "status": "proved", "theorems": ["Hiku.Expr.c56_fits", "Hiku.Expr.c56_exists", "Hiku.SubExpr.c56_requirements_valid", "Hiku.SubExpr.xReqs_valid"], "note": "For every accepted expression; the assumptions are needed: c56_any_field, c56_function_argument and c56_no_this are accepted expressions whose requirements are not valid queries. c56_exists drops the assumption on types of arguments: everything asked for exists. xReqs_valid is a concrete case."},
  {"property": "C57", "status": "proved", "theorems": ["Hiku.Expr.c57_define", "Hiku.Expr.c57_call", "Hiku.Expr.c57_exact"], "note": "Concrete case: dCall. c57_options, c57_options_lost, c57_many show what annotations cannot say. c57_exact: which texts are accepted, and TypeError for the others"},
  {"property": "C58", "status": "proved", "theorems": ["Hiku.Expr.c58_exact", "Hiku.SubExpr.c58_field"], "note": "Concrete cases: SubExpr.xPaths, Expr.dCall."},
  {"property": "C59", "status": "proved", "theorems": ["Hiku.c59_calls", "Hiku.c59_so_far", "Hiku.c59_schedule_independent"], "note": "The multiset of calls equals planQuery, a recursive specification over the query and the data which knows nothing of queues or stores; every schedule."},
  {"property": "C60", "status": "proved", "theorems": ["Hiku.EdnText.c60_exact", "Hiku.EdnText.c60_text", "Hiku.EdnText.c60_unique", "Hiku.EdnText.c60_space", "Hiku.EdnText.c60_truncated", "Hiku.EdnText.c60_swallowed", "Hiku.EdnText.c60_rejected", "Hiku.EdnText.c60_same_key", "Hiku.EdnText.c60_hashable", "Hiku.EdnText.c60_unhashable"], "note": "loads = ok v iff the text is a document of an inductive grammar (Spec/EdnText) with the value v; c60_truncated and c60_swallowed are findings. equality of keys is a parameter, any equivalence: c60_same_key shows equal keys which are written differently "},
  {"property": "C61", "status": "proved", "theorems": ["Hiku.QueryText.c61_simple", "Hiku.QueryText.c61_simple_rejects", "Hiku.QueryText.c61_simple_requests", "Hiku.QueryText.c61_protobuf"], "note": "the grammar of queries is Spec/QueryText over the EDN grammar of C60"},
  {"property": "C62", "status": "proved", "theorems": ["Hiku.Gather.c62_alone", "Hiku.Gather.c62_answers", "Hiku.Gather.c62_raises", "Hiku.Gather.c62_progress", "Hiku.Gather.c62_terminates", "Hiku.Gather.c62_completes", "Hiku.Gather.c62_decided", "Hiku.Gather.c62_stable", "Hiku.Gather.c62_reference", "Hiku.Gather.c62_deterministic"], "note": "interleavings of the tasks of gather; c62_goes_on: the other requests are not stopped by a failure. c62_reference covers the selections of C45 (links and __typename). Cancellation of the batch is not modelled"},
  {"property": "C63", "status": "proved", "theorems": ["Hiku.SubExpr.c63_functions", "Hiku.SubExpr.c63_scope", "Hiku.SubExpr.c63_order", "Hiku.SubExpr.c63_meaning"], "note": "Calls (Spec/Registry.lean) says where a function is called; Lists says that a set may be listed in any order. Functions are known by their names (different functions have different names)."},
  {"property": "C64", "status": "proved", "theorems": ["Hiku.Lat.c64_rounds", "Hiku.Lat.c64_latency", "Hiku.Lat.c64_all", "Hiku.Lat.c64_depth"], "note": "Punctual states the bound on calls; Lat.punctual_all shows that it is met by an executor which waits for everything with wt = 1. The specification (Spec/Latency.lean) computes the time recursively over the query; c64_depth is the bound without it."},
  {"property": "C65", "status": "proved", "theorems": ["Hiku.Gather.c65_exact", "Hiku.Gather.c65_all", "Hiku.Gather.c65_frozen", "Hiku.Gather.c65_raises", "Hiku.Gather.exCancelled"], "note": "How asyncio delivers cancellation (gather cancels all unfinished children at once, CancelledError is thrown at their await) is part of the model. exCancelled is a concrete cancelled batch."},
  {"property": "C66", "status": "proved", "theorems": ["Hiku.Types.c66_written", "Hiku.Types.c66_equal", "Hiku.Types.c66_same", "Hiku.Types.c66_final", "Hiku.Types.c66_bare", "Hiku.Types.c66_single", "Hiku.Types.c66_mapping", "Hiku.Types.c66_callable", "Hiku.Types.c66_record", "Hiku.Types.c66_endless", "Hiku.Types.c66_two_chars", "Hiku.Types.c66_chars", "Hiku.Types.c66_one_argument", "Hiku.Types.c66_single_equal", "Hiku.Types.c66_mapping_equal", "Hiku.Types.c66_callable_equal", "Hiku.Types.c66_dicts"], "note": "Classes are modelled with metaclass and __dict__; c66_endless: Callable[Sequence], Callable[Optional] and Callable[TypeRef] never end (finding 49), the only such cases c66_*_equal: equality for arbitrary parameters."},
  {"property": "C67", "status": "proved", "theorems": ["Hiku.Parts.c67_union", "Hiku.Parts.c67_parts", "Hiku.Parts.init_merge", "Hiku.Parts.union_merge", "Hiku.Parts.c67_conflict"], "note": "c67_union: the result of the merged query is the union of the results of the single queries (Spec/Parts: Union), c67_parts: it contains each of them (Extends); init_merge: acceptance of options; union_merge: the same for the reference semantics at any node, also with selections on complex fields; c67_conflict: without distinct result keys merge silently drops one of two fields (finding 50). Example: exUnion."},
  {"property": "C68", "status": "proved", "theorems": ["Hiku.MetaSchema.c68_valid", "Hiku.MetaSchema.c68_mixed", "Hiku.MetaSchema.c68_served", "Hiku.MetaSchema.c68_null_argument"], "note": "the introspection schema is written down from the specification in Spec/MetaSchema. Deviations: `includeDeprecated: null` is refused (c68_null_argument), `fields`, `interfaces`, `possibleTypes`, `enumValues` and `inputFields` are empty lists where the specification has null (Coherent)."},
  {"property": "C69", "status": "proved", "theorems": ["Hiku.Grow.c69_extends", "Hiku.Grow.c69_append", "Hiku.Grow.c69_valid", "Hiku.Grow.c69_accepted", "Hiku.Grow.c69_options", "Hiku.Grow.c69_value", "Hiku.Grow.c69_plan", "Hiku.Grow.c69_result", "Hiku.Grow.c69_denormalize", "Hiku.Grow.c69_calls"], "note": "Spec/Grow.lean says what may be done with the nodes of a graph (NodesGrow) and what it means for lookups (GraphExtends, SysExtends); c69_extends and c69_append connect them. Validity assumes that the named data types of the graph exist and are not recursive (GraphTypesOk, as in C26). c69_result and c69_calls assume the loading protocol (Conforms) of the larger system only; that it holds for the smaller one is proved."},
  {"property": "C70", "status": "proved", "theorems": ["Hiku.Company.c70_company", "Hiku.Company.c70_twice", "Hiku.Company.readOff_sem", "Hiku.Company.init_within", "Hiku.Company.linksOnly_within"], "note": "Within (Spec/Company.lean) relates the query as the user wrote it, not the one with initialised options; ReadOff is an item by item relation between the two Python values. Hypotheses on the system are those of C20: good system, faithful hashing, data the backend really returns. Example: aliases, another order, the same link and field twice."},
  {"property": "C71", "status": "proved", "theorems": ["Hiku.QObj.c71_immutable", "Hiku.QObj.c71_keys", "Hiku.QObj.c71_maps", "Hiku.QObj.c71_merge", "Hiku.QObj.c71_transform", "Hiku.QObj.c71_strip", "Hiku.QObj.c71_init", "Hiku.QObj.c71_eq"], "note": "A heap of objects with __attrs__ and __dict__ caches (Model/QueryObjects); IsItem/IsNode (Spec/QueryObjects.lean) say which tree an object stands for. Refinement: justifies the trees (QItem, QNode) which the rest of the model uses. Attributes are not assigned and the dicts and lists in them are not changed in place (no code of the package does). The recursion limit is a parameter, larger than the depth."},
  {"property": "C72", "status": "proved", "theorems": ["Hiku.NIdx.c72_outcomes", "Hiku.NIdx.c72_proxy", "Hiku.NIdx.c72_separate", "Hiku.NIdx.c72_rounds", "Hiku.NIdx.c72_execute"], "note": "For all histories of store_fields, store_links and link_reqs calls with any results, the nested index gives the outcomes of the flat index used in the rest of the model; after finish every proxy read gives the value or error of the flat index and leaves the index as it is; different objects have different dicts. The texts of errors are not modelled. c72_rounds and c72_execute: in every round of every execution, and at its end, the index of each workflow is one which such a history gives."}
]}
