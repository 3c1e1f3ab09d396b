{
 "C01": {
  "note": "All histories of insert/remove/clear/save-load."
 },
 "C02": {
  "note": "All histories of the in-memory storage; values, existence, per-item listings and removal results."
 },
 "C03": {
  "note": "Exact and regex search, candidate names, iterator keys and name lookup, for all histories."
 },
 "C04": {
  "note": "Proved for histories without clear and namespaces below char::MAX; both restrictions are necessary (counterexamples proved)."
 },
 "C05": {
  "note": "In-memory storage. The on-disk storage sorts ascending, see C06."
 },
 "C06": {
  "status": "partial",
  "note": "Fails as stated: C06_search_fails_after_overwrite (stale value index after overwrite), C06_annotation_lost_fails (key symbol freed while in use after an evicted removal). Proved under explicit restrictions: no evicted removal (Clean; two sufficient classes proved), no overwrite with a different value, values without NUL and not above char::MAX. Completeness needs no overwrite restriction."
 },
 "C07": {
  "status": "partial",
  "note": "Unsigned keys, edge keys and container keys fully proved. Signed order, NUL-containing values and values above char::MAX have counterexamples; the remaining domain is proved."
 },
 "C08": {
  "status": "proved",
  "note": "Refinement of an ordered map for every eviction limit and operation history."
 },
 "C09": {
  "status": "partial",
  "note": "Fails in general (tombstones in the evicted table); proved: never a false negative, exact for histories without removal, exact after reload."
 },
 "C10": {
  "note": "All finite graphs, start nodes and distance ranges; termination, exact set of reported (node, distance) pairs, one report per simple path, cycle flag."
 },
 "C100": {
  "note": "Capi. C100_protocol for all functions with one result, C100_error_list: content of the error list, C100_iterator and C100_outgoing for the two functions that give several results, C100_pointers: a call returns iff its pointers are valid, C100_frame: no call changes objects of the client, C100_str_free. C100_stale_fails: success does not reset the variable; C100_free_fails: annis_free is undefined behaviour for all objects that are not strings.",
  "status": "partial"
 },
 "C101": {
  "note": "Composition of the parser (C92, C93), the translation (C69, C70), node searches and operators (C98) and plans (C61). Restricted to texts without parentheses (their normal form is made by the external crate boolean_expression), names that are not repeated (C69), operators that are modelled (no value comparison), operators on segmentations with a distance of at least 1 on segmentations whose nodes are not first or last tokens of a node (C45_segmentation_fails), and rows with different matches for different nodes (C61_fails: others depend on the plan); exact if no answer has the same match for two nodes. A negated part-of operator on a corpus without the component, or a negated operator on a segmentation that the corpus does not have, gives no results although answers exist (C101_part_of_fails, C101_segmentation_fails). A pattern that does not compile makes a query without operators fail (C101_refused_partial), but with an operator the query silently has no results (C101_pattern_fails). The change of node searches by operators (C67) is part of the plan; where it happens, the operand must not be a token or metadata search and components must not share source nodes (C101_replaceable; necessary, see C98_replaced_fails).",
  "status": "partial"
 },
 "C102": {
  "note": "Exact last values of all settings and the resulting requests for every sequence of lines. Partial because the commands behind quit are executed with -c and set-order does not trim its argument (negation witnesses).",
  "status": "partial"
 },
 "C103": {
  "note": "A selected corpus exists unless a line deleted it while it was selected. Negation witnesses: deleted corpora stay selected, names with white space cannot be selected.",
  "status": "partial"
 },
 "C104": {
  "note": "The storage stays open if it can always be opened; exact condition for a closed storage otherwise; the shown value of the parallel search is the one of the last opening. Negation witness for a storage that cannot be opened again.",
  "status": "partial"
 },
 "C105": {
  "note": "Exact for the cursor at the end of the line and for the set of commands; the exact condition of the overflow. Negation witness for a cursor inside of the line.",
  "status": "partial"
 },
 "C106": {
  "note": "The formats agree exactly for the extensions zip, graphml and xml. Negations: directories, other extensions, missing paths, the check for a single corpus.",
  "status": "partial"
 },
 "C107": {
  "note": "False for path storages (C107_path_fails): after the first load they are not written again and are lost at the second save with a backup (C107_lost, C107_second hold for every graph). Proved for all other storages and any number of rounds (C107_cycles_partial), for one component (C107_save_partial), for a whole graph with storages that were not loaded from current (C107_graph_partial), for sequences of saves into one directory (C107_last), and for the names in impl.cfg (C107_names). Also false with files of older versions (C107_stale, C107_stale_fails, C107_old_stats_fails, C107_roots_fails) and in place (C107_in_place, C107_in_place_fails). Missing: the serialised form of the fields.",
  "status": "partial"
 },
 "C108": {
  "note": "The text of a query is connected with the output of find and count by composing the parser, planning and join theorems (C101) with sorting (C34, C74), paging (C35) and identifiers (C39, C70). Restricted to texts without parentheses, no repeated names, one alternative if some node search is optional, queries without two node searches that can have the same match, corpora in which the order of results is consistent (C34 shows where it is not), no quirks mode and no time out.",
  "status": "partial"
 },
 "C109": {
  "note": "Sub-corpus graphs and corpus graphs are proved completely (for correct storages). Graphs for query texts have the restrictions of C101; with an optional node search before another one the node of the default match is added, so the claim fails there (C109_optional_fails) and C109_query_exact_partial says exactly what the graph contains. C109_errors: one failing result makes the whole call fail.",
  "status": "partial"
 },
 "C11": {
  "note": "All histories of edge operations and all ranges except Excluded(0), which underflows (C11_excluded_zero_fails)."
 },
 "C110": {
  "note": "In-memory node and edge annotations and components after every safe history (the restrictions of C51: at most one update that is not written back for a corpus that must be loaded); with one pending update the listed components are those before or after it. For storages on disk with the restrictions of C06, and with the rarest instead of the most frequent value. Errors are swallowed: corpora that do not exist or can not be loaded have empty lists. C110_opened: the lists of a corpus that has just been opened.",
  "status": "partial"
 },
 "C111": {
  "note": "Outside of quirks mode, for texts without parentheses in which no name is used twice; fragments for searches that C94 can read back. Columns with the conditions of C108 on optional nodes. In quirks mode nodes that are not shown or not written are described; without corpora every text is valid.",
  "status": "partial"
 },
 "C112": {
  "note": "For plans of node searches, filters, nested loops and index joins. The parallel nested loop violates the property: it never returns once the limit is exceeded (C112_parallel_hangs, C112_parallel_never, C112_parallel_fails). The parallel index join is not modelled with time. Limited is the common form of the claims about queries; it includes that the call returns.",
  "status": "partial"
 },
 "C113": {
  "note": "Composition of C22, C23, C50, C93, C101 and C108. Restricted to histories for which C50 proves that the index is exact (deletions of nodes only last in an update, no broken orders, see UpdateOk), to components that are stored as adjacency lists (C98 is about changes of the storage), to texts without parentheses, to the operators and segmentations of C101, and to rows without equal matches for different searches (there the kind of join decides, C42). For overlap the index has to be continuous.",
  "status": "partial"
 },
 "C114": {
  "note": "Composition of the import (C79 to C85), the index (C50) and queries after updates (C113). Partial: tables in which a token dominates or covers something, or edges cross texts, are excluded (witnesses C114_dominating_token_fails and C114_two_texts_fails), as are the query constructs excluded by C101. C114_rows_partial and C114_index_partial express the relations of the text operators and the index with the rows; C114_results_partial, C114_count_partial and C114_find_partial the answers.",
  "status": "partial"
 },
 "C115": {
  "note": "C115_document is complete for every graph with a history: the exported document presents the graph without its generated components. The other theorems are partial: names, keys and components must be readable again (C58: keys with a colon and characters that XML can not contain are lost), components without edges are not exported and have to be absent, and the queries are those of C113. Optional nodes are compared for equal default matches. A node whose label annis::node_type was deleted is not exported (C115_untyped_fails).",
  "status": "partial"
 },
 "C116": {
  "note": "After any operations, info and list describe what is in memory (C116_info, C116_list), and exactly when they succeed (C116_info_succeeds, C116_list_succeeds); they change nothing (C116_reads_only); preload, queries, unload, delete and what stays in memory (C116_preload, C116_preload_succeeds, C116_query, C116_files, C116_stays, C116_unload). Two stronger claims are refuted: that list describes the readable corpora if one configuration is broken (C116_list_fails), and that info is an error for a corpus that does not exist (C116_unknown_fails). Model: one thread, directories that change only by delete, no global statistics.",
  "status": "proved"
 },
 "C117": {
  "note": "Proved: for every request and state, one equivalence per status (C117_unauthorized, C117_forbidden, C117_bad_request, C117_not_found, C117_timeout, C117_gateway, C117_internal, C117_jobs, C117_known), and that a request without rights reveals nothing by its status (C117_hidden). Violated, so partial: corpora that do not exist give 500 or 200 where 400 and 404 are documented (C117_unknown_fails); mistakes in requests give 502 and 500 (C117_put_fails); an error of an export is reported as one of the database (C117_export_fails). Not covered: bodies, answers of the framework.",
  "status": "partial"
 },
 "C118": {
  "note": "Two processes never have the lock of the same file (C118_same_file, all interleavings). The lock file is removed by name after it was unlocked, so two processes can have a storage for the same directory (C118_exclusive_fails) and the lock file of a storage in use can disappear (C118_removed_fails); this needs a third process that already ended (C118_third). Without a process between opening and locking while another one is between unlocking and removing, there is at most one storage (C118_exclusive_partial), everybody else is refused (C118_refused_partial), and closing leaves neither file nor lock (C118_close_partial). If nobody has a storage the next attempt succeeds, in all executions and also after crashes (C118_free).",
  "status": "partial"
 },
 "C119": {
  "note": "A file is accepted exactly if it stands for settings, and these are in effect (C119_in_effect, C119_no_file); unknown keys do not matter (C119_unknown_keys); the address determines host and port (C119_bind). With a configured secret, groups and roles come only from tokens verified with it (C119_rights). Every accepted file without a secret and without public keys uses the published default secret (C119_secret_fails), so a token signed with it is refused nothing (C119_forged_fails); ports from 32768 on can not be configured and negative ones are accepted (C119_port_fails).",
  "status": "partial"
 },
 "C12": {
  "note": "Fails as stated (C12_distance_fails: not the shortest path in a DAG). Proved: None iff unreachable, otherwise the length of a simple path; shortest if every node has at most one ingoing edge."
 },
 "C120": {
  "note": "All operators with a Display text and identifiers as names; the requirement on names is needed (C120_names_needed) and is met by the operators of every text of a query (C120_query).",
  "status": "proved"
 },
 "C121": {
  "note": "Holds if no description has the end of a line in it: the text tells the tree (C121_plan_partial) and every part of each description (C121_whole_partial); fails for arbitrary descriptions (C121_plan_fails). The fragments of queries on one line have no line breaks (C121_search_fragment, C121_operator_fragment); the fragment of an operator tells the operator and its operands. Plans with an alternative without description are left out: there is only the plan of a query without results.",
  "status": "partial"
 },
 "C13": {
  "note": "All histories of edge operations."
 },
 "C14": {
  "note": "All chain components copied from any source; neighbours, sources, roots, annotations, find_connected, distance and is_connected for all bounds. find_connected_inverse fails for exclusive upper bounds and empty ranges (C14_inverse_*_fails), proved for the remaining ranges."
 },
 "C15": {
  "note": "Proved for every forest; everything except is_connected even for every acyclic graph with several orders per node. Assumes that copy did not overflow and levels fit (C19). The bound Excluded(0) panics exactly as in the adjacency list (C11_excluded_zero_fails) and is excluded.",
  "status": "proved"
 },
 "C16": {
  "note": "Fails as stated (C16_is_connected_fails: the first nested pair of orders decides). Proved on all acyclic graphs: soundness, agreement when all paths between the nodes have the same length (in particular forests), agreement without upper bound."
 },
 "C17": {
  "note": "Dense storage: exact copy when every node has at most one successor and no source is larger than the largest annotated node (both needed, see the failing witnesses). Path storage: exact except that the ingoing edges miss a source with ID u64::MAX, and copying twice keeps old annotations."
 },
 "C18": {
  "note": "Fails for a component with a root and a cycle that no root reaches: C18_unreachable_cycle_fails. C18_partial proves preservation of edges and annotations for all other components, for arbitrary float comparisons.",
  "status": "partial"
 },
 "C19": {
  "note": "Covers every number type choice of the heuristic, not only 16/8 bit. The hypothesis on the visit count excludes only components with 2^63 visits; components with a cycle no root reaches are excluded (C18 finding)."
 },
 "C20": {
  "note": "All finite lists of containers; error behaviour in C20_errors."
 },
 "C21": {
  "note": "The update log returns the events in the order they were added, with consecutive numbers, through any interleaving of adding, iterating and saving/loading."
 },
 "C22": {
  "note": "apply_update on any graph reachable from the empty one refines an abstract graph of names; a hook error stops after a prefix of the events. Excludes events that set or delete the label annis:node_name (C24_rename_fails)."
 },
 "C23": {
  "note": "Holds when a node is deleted only in an update that does not also create a component; C23_fails gives the counterexample in which the deleted node keeps its edges."
 },
 "C24": {
  "note": "Unique names and no id reuse for histories without events on the label annis:node_name; C24_rename_fails shows two nodes with one name otherwise.",
  "status": "partial"
 },
 "C25": {
  "note": "Splitting an update into batches gives the same graph under the same restrictions as C23 and C24; both restrictions have counterexamples."
 },
 "C26": {
  "note": "A failed update leaves memory and disk unchanged after every history with at most one pending update; counterexamples for several pending updates and for graphs without a location."
 },
 "C27": {
  "note": "Every successful update survives a crash at any point of a write-back, after every history with at most one pending update; C27_fails: the log only keeps the latest update."
 },
 "C28": {
  "note": "A crash at any step of the write-back and any number of crashes during recovery keep the graph loadable; C28_fails: a completed recovery writes to current/current and drops the backup, so the second open reads the damaged folder."
 },
 "C29": {
  "note": "Proved for layers and names without '/' that are not the default_layer alias (see C29_component_dirs_partial). Witnesses: C29_default_layer_fails (layer 'default_layer' and '' share a directory), C29_slash_fails (a '/' in a layer or name is lost).",
  "status": "partial"
 },
 "C30": {
  "note": "C30_component_text characterises the round trip exactly: it holds iff the layer contains no '/'. C30_fails is the counterexample to the unrestricted claim.",
  "status": "partial"
 },
 "C31": {
  "note": "Exact for every set of components and every filter.",
  "status": "proved"
 },
 "C32": {
  "note": "The split never percent-decodes: it returns the encoded namespace and name (C32_qname_partial, for all strings), which equals the original iff nothing had to be encoded (C32_plain_partial). Joining is injective on all strings (C32_injective). C32_fails is the counterexample.",
  "status": "partial"
 },
 "C33": {
  "note": "Correct for every finished run; C33_can_terminate shows that pivots with a finished run exist, C33_diverges that the sort of 21 items never ends when the smallest item is always the pivot (the pivot is included in the right part).",
  "status": "proved"
 },
 "C34": {
  "note": "Holds when all nodes have names, the token order is acyclic and all nodes of a document are in one token chain (or none is in any). C34_fails: 0<1<2<0 with a node without token or with a second text in the document.",
  "status": "partial"
 },
 "C35": {
  "note": "Two searches with independent random numbers and plan orders. C35_error_skipped: errors in the skipped part are not reported.",
  "status": "proved"
 },
 "C36": {
  "note": "count counts error items of the plan as matches (C36_fails). count_extra is exact (C36_count_extra).",
  "status": "partial"
 },
 "C37": {
  "note": "For every hash map order and all plans.",
  "status": "proved"
 },
 "C38": {
  "note": "Holds for all names except '', '.' and '..', which are mapped to the data directory itself or its parent (C38_fails).",
  "status": "partial"
 },
 "C39": {
  "note": "Holds when node names contain no white space and no '::' (C39_fails otherwise).",
  "status": "partial"
 },
 "C40": {
  "note": "Line and column identify the byte position for every query (C40_positions, C40_injective). The displayed text of an error with a location determines its start, effective end and description (C40_text), so two errors of one query with equal texts cover the same bytes (C40_text_token). Error extraction on an empty query underflows (C40_empty_fails); an error without a location can show the same text as one with a location (C40_text_fails).",
  "status": "partial"
 },
 "C41": {
  "note": "check_components_connected accepts exactly the conjunctions whose mandatory nodes are connected by binding operators.",
  "status": "proved"
 },
 "C42": {
  "note": "Nested loop join returns exactly the pairs (in order) that satisfy the operator and the distinctness rule; the claim that both operand orders and the index join give the same rows holds for operators without a global distinctness rule (C42_nested_loop_partial, C42_swap_partial, C42_index_eq_nested). JoinEx.C42_fails: the first outer row is not checked for global distinctness. JoinEx.C42_error_loops: an error while fetching the first candidates is returned forever.",
  "status": "partial"
 },
 "C43": {
  "note": "The parallel joins return a permutation of the sequential rows when no distinctness rule is involved and no error occurs; JoinEx.C43_fails shows different results otherwise, C43_error_lost a lost error and C43_cond_error a candidate accepted after an error.",
  "status": "partial"
 },
 "C44": {
  "note": "Columns are moved to the query order for every column mapping a plan can have; several alternatives give the union without duplicates, one alternative is passed through.",
  "status": "proved"
 },
 "C45": {
  "note": "Precedence, inverse precedence and near proved for every well-formed token index and every range the ordering storage handles; with segmentation exact for distances of at least 1 if no node of the segmentation is the first or last token of a node (C45_spans_partial, C45_spans_inverse_partial, C45_spans_near_partial). Fails: segmentation over tokens retrieves aligned spans the filter rejects; linear orderings retrieve nodes for empty ranges.",
  "status": "partial"
 },
 "C46": {
  "note": "Alignment and identical coverage proved fully; inclusion for orderings that are chains; overlap for spans without gaps. Fails: spans with gaps, single-token texts in a linear ordering, reflexive overlap with different annotation keys.",
  "status": "partial"
 },
 "C47": {
  "note": "Precedence, near, overlap, alignment, identical coverage and edge operators proved. Fails for == and !=: the inverse operator does not exchange the operands.",
  "status": "partial"
 },
 "C48": {
  "note": "Proved for all families of graph storages that answer correctly (instances: adjacency lists, linear, pre/post order of forests, dense lists). Fails for pre/post order of a DAG and for empty ranges of linear storages.",
  "status": "partial"
 },
 "C49": {
  "note": "C49_token_search_partial: every successful search returns each token exactly once if the order links only tokens in chains, the storage of the order knows all tokens without predecessor, and the statistic all_token_in_order_component is not wrongly true; C49_statistic_meaning gives the exact meaning of the computed statistic (operator precedence error in model.rs 650-652); C49_all_ordered needs no assumption on the statistic if all tokens are in the order; C49_statistic_fails and C49_linear_fails show lost single-token texts.",
  "status": "partial"
 },
 "C50": {
  "note": "Proved for histories of updates that meet UpdateOk: no node name changes by labels, token labels only on new nodes, no re-adding of a deleted node in the same update, named dominance edges have an unnamed or coverage copy, nodes with token label and outgoing edges have coverage edges, tokens covered by one node are ordered, old tokens keep their relative order. Each condition is needed: C50_order_fails, C50_label_fails, C50_named_fails, C50_readd_fails, C50_segmentation_fails are counterexamples of the code.",
  "status": "partial"
 },
 "C51": {
  "note": "C51_eviction determines exactly which cache entries are removed, for all measurements. C51_loaded_partial: for sequential clients and all memory measurements the results of all operations are those of a storage without cache, also with several updates before the background writers run. Excluded, because the claim is false there: loading or a failing update while two or more updates are not written back (C51_fails, C51_failed_update_fails), updates while a writer for an evicted entry is left (C51_stale_writer_fails), creation/import while a writer of a deleted corpus is left (C51_recreated_fails). C51_invisible_partial and C51_independent_partial: conditions on the history alone, for all measurements."
 },
 "C52": {
  "note": "C52_partial: create/delete/list answer exactly by existence after all histories (including pending writers and failed updates) that ask only for existing corpora. C52_fails: a failed request for an unknown corpus leaves a cache entry; create then returns false, delete true, import CorpusExists."
 },
 "C53": {
  "note": "C53_partial: in all interleavings of clients, background writers, evictions and unload every query returns the content with all updates up to a moment after it began; restricted to executions where a corpus is loaded (or an update fails) only when at most one update is not written back, and an update is made only when no other loaded entry of the corpus exists. C53_fails: two clients load the same corpus at the same time, an acknowledged update is not seen by a later query (no eviction needed). C53_evicted_fails: eviction between getting the entry and updating."
 },
 "C54": {
  "note": "C54_waits and C54_sound: in all executions (with failures and spurious wake-ups) a returned drop implies that all background writers have finished, and the counter mutex is never poisoned. C54_returns_partial: bounded number of steps and no deadlock, so the drop returns, if no writer is lost. C54_lost/C54_fails: a writer that returns early because the entry lock is poisoned (or panics) never decrements the counter and drop waits forever."
 },
 "C55": {
  "note": "The context of a match is the induced subgraph of the match nodes, the tokens of their windows, the covering nodes and the parents (C55_nodes, C55_seg_nodes, C55_extract), with one gap edge per gap (C55_subgraph_partial, C55_disjoint_partial, C55_segmentation_partial). Assumed: the covered tokens of a match node are in one text, the storages and the token index answer correctly (C14, C45, C50), every selected node has a label, no self loops, the sorts end, context sizes within the range of the storage. The gap edges need ids that increase in each text and are not interleaved, or equal or disjoint windows in one text. Fails: overlapping regions with other ids (C55_overlap_fails), a node that covers two texts (C55_two_texts_fails), interleaved ids (C55_interleaved_fails), coverage components with a name in the layer annis (C55_layer_fails).",
  "status": "partial"
 },
 "C56": {
  "note": "",
  "status": "proved"
 },
 "C57": {
  "note": "Whole-value matching proved for every pattern the model's parser accepts (C57_full_match), negative witness for unbalanced patterns (C57_unbalanced_fails). Exact-value shortcut proved for patterns without assertions or empty classes (C57_regex_condition_partial), counterexamples C57_assertion_fails, C57_empty_class_fails. Regex syntax is a fragment, see DESIGN.md.",
  "status": "partial"
 },
 "C58": {
  "note": "For names, keys and components without XML meta characters; annotation values and node types are arbitrary strings. C58_fails: attribute values are escaped on export but never unescaped on import, and keys stay percent-encoded. C115_document proves which events the export of a graph writes, and C115 composes export, import and queries.",
  "status": "partial"
 },
 "C59": {
  "note": "Dense storage exact. Path storage exact except for a node and itself at distance 0 (distance, is_connected), an empty range, and a storage that was never filled."
 },
 "C60": {
  "note": "Edges whose node number is u64::MAX are not found by the range scans (C60_largest_node_fails), so the theorems are restricted to smaller numbers.",
  "status": "partial"
 },
 "C61": {
  "note": "C61_between: for every order and plan the result is between the answers with pairwise distinct matches and all answers, whatever the operators say about reflexivity; exact if all answers are distinct (C61_distinct_partial) or if no operator is non-reflexive with the global rule (C61_join_order_partial). Without the global rule C61_exact gives the exact result for every order (operands of a non-reflexive operator differ unless operators before it connect them), and C61_tree shows that it does not depend on the order if the operators form a tree. Missing: with cycles or the global rule the order of the operators does change the result (C98_order_fails, C61_fails). Node searches and operators are assumed to agree between index and filter (OpOk), which C45-C48 are about.",
  "status": "partial"
 },
 "C62": {
  "note": "",
  "status": "proved"
 },
 "C63": {
  "note": "Programs with scoped guards for all public functions, every branch, loop count, entry and early exit possible. The condition variable of drop is part of C54. C63_callback_fails: a progress callback of export_to_zip that calls the storage can deadlock with a deletion.",
  "status": "proved"
 },
 "C64": {
  "note": "Proved for all failure patterns: other corpora are untouched, refused imports change nothing, Ok implies configuration and files are stored. Errors of save_to are only logged (C64_save_fails) and the old corpus is removed before the new one is complete (C64_overwrite_fails, C64_retry_fails).",
  "status": "partial"
 },
 "C65": {
  "note": "Proved for relative node names without empty, . and .. segments. C65_escape_fails, C65_absolute_fails, C65_source_fails, C65_collision_fails show the other names.",
  "status": "partial"
 },
 "C66": {
  "note": "Exactness of all ten search kinds and error cases are proved for all histories. Uniqueness and the agreement with index joins hold except for metadata searches without namespace (C66_meta_fails). The search for all tokens is taken from C49 (C66_any_token_partial, C66_any_token_no_order).",
  "status": "partial"
 },
 "C67": {
  "note": "Proved if left operands are source nodes of the components, no node is a source in two of them and the constant output is the key that is looked for; the first condition is proved for edge operators. The code applies the replacement without these conditions: C67_negated_fails, C67_near_fails, C67_duplicate_fails, C67_output_fails. C98_replaced and C101 show that with these conditions the results of whole plans are the same as without the replacement.",
  "status": "partial"
 },
 "C68": {
  "note": "Proved for all variants with valid patterns; negation and identity satisfy the operator conditions of C61. Invalid patterns and the match itself as partner: C68_regex_fails, C68_self_fails.",
  "status": "partial"
 },
 "C69": {
  "note": "Proved for queries without repeated names: translation, acceptance, uniqueness, quirks mode and metadata. Counterexamples: a repeated name relates the wrong node; a named node has no number; numbers of distributed disjunctions and of alternatives after artificial nodes are shifted; meta:: applies to all alternatives, to optional first nodes, and not at all without a node search. The step to disjunctive normal form is in another crate and not modelled.",
  "status": "partial"
 },
 "C70": {
  "note": "Numbering is proved for all queries. Columns are proved for one alternative and for queries without optional nodes. Counterexamples: with optional nodes the columns of later alternatives follow the first alternative; frequency definitions use the number in the whole query as the column of every row.",
  "status": "partial"
 },
 "C71": {
  "note": "Proved in full: C71_check, C71_list, C71_readonly, C71_administration, C71_token, C71_put, C71_groups, C71_answered. Partial: noninterference needs permitted corpora whose name is harmless as a relative path (C71_path_fails: a corpus x/../../../secret/files), deletion of groups needs foreign keys, which SQLite checks only if built or told so (C71_delete_fails). Token verification is an arbitrary function.",
  "status": "partial"
 },
 "C72": {
  "note": "Partial: corpus names other than empty, '.' and '..' (C72_escape_fails); files whose name has '..', '%' or surrounding blanks are listed but not sent (C72_listed_fails, C72_decoded_fails); corpora with one of : | * \\ have their files elsewhere (C72_same_directory says exactly when, C72_colon_fails); without a node the raw corpus name is searched, but node names are percent-encoded (C72_corpus_node_fails).",
  "status": "partial"
 },
 "C73": {
  "note": "Proved for all interleavings. A job whose thread panics stays running forever: C73_running covers it, since there is no end event.",
  "status": "proved"
 },
 "C74": {
  "note": "Proved for corpora in which every document has one text: ascending order, equality of every page with the sorted one, and inversion, with adjacency lists and linear storages as order. False in general (witnesses): documents with several texts, an order that crosses documents, and missing components for the left- and right-most tokens.",
  "status": "partial"
 },
 "C75": {
  "note": "Proved for all operators, node searches and purposes, any earlier loading state, other threads and hash orders, with planning and execution as an arbitrary function of the storages taken out of the graph. Missing: subgraph_for_query with a component type, which uses the token order and the token helper without loading them (C75_subgraph_filter_fails).",
  "status": "partial"
 },
 "C76": {
  "note": "Proved over all sequences of operations. Missing: an update that fails and then cannot read the corpus again (C76_reload_fails); for the content, updates that do not wait for the background thread before them (C76_two_updates_fails). Optimisation is complete.",
  "status": "partial"
 },
 "C77": {
  "note": "Proved for all tables, except that the value NULL as a string (C77_null_fails, C77_null_token_fails) and empty values in a table with one column (C77_empty_line_fails) cannot be written.",
  "status": "partial"
 },
 "C78": {
  "note": "Proved for all trees and row orders. Missing: the path of the root itself starts with a slash (C78_top_path_fails); names of renamed documents are only distinct if no document has such a name from the start (C78_documents_distinct_fails).",
  "status": "partial"
 },
 "C79": {
  "note": "Proved for both formats if corpus and file names have no '#', the root needs no encoding, no text has the name of a node of its document and no annotation is called annis:node_name or annis:node_type; each condition but the last on files has a witness (C79_hash_fails, C79_text_fails, C79_reserved_fails, C80_encoded_top_fails). That the events give the described graph is complete (C79_applied).",
  "status": "partial"
 },
 "C80": {
  "note": "Proved for both formats if the root has pre-order 0 and a name without characters that are encoded. False otherwise: C80_encoded_top_fails, C80_root_order_fails.",
  "status": "partial"
 },
 "C81": {
  "note": "Proved for all tables with unique identifiers and positions.",
  "status": "proved"
 },
 "C82": {
  "note": "Proved for all tables with unique identifiers and edges between different nodes. False for edges from a node to itself, which are lost (C82_self_fails); rows with unknown parents or components are ignored (C82_unknown_fails).",
  "status": "partial"
 },
 "C83": {
  "note": "Proved if the tokens are numbered without gaps in the order of their positions and a node has rank rows without parent in at most one coverage component. False for spans which end between tokens (C83_unaligned_fails; the theorems state what these spans cover) and for gaps (C83_gap_fails).",
  "status": "partial"
 },
 "C84": {
  "note": "Proved for tokens which do not overlap and nodes with their own names: labels after tokens and the whole text. False before the first token, where the last character is lost (C84_before_fails; the theorem states the label which is set), and for overlapping tokens (C84_overlap_fails).",
  "status": "partial"
 },
 "C85": {
  "note": "Proved for all nodes and keys where the tables give one value, under the conditions of C79 for names and one value per metadata name. The annotation annis:tok is ignored (C85_tok_fails).",
  "status": "partial"
 },
 "C86": {
  "note": "Partial: a segmentation name with NUL is read back wrongly and sorts wrongly (C86_nul_fails). Without NUL the keys of token positions are an order embedding with an inverse; keys of texts and of nodes by text are so for all numbers.",
  "status": "partial"
 },
 "C87": {
  "note": "Partial: context-steps=0 panics in step_by (C87_step_fails); a line for a layer removes all default rules of the layer (C87_layer_fails). Visualizers, all other properties and examples are exactly as specified.",
  "status": "partial"
 },
 "C88": {
  "note": "Upper bound only for one key with 2 to 251 annotations; C88_upper_bound_fails (301 values), C88_single_fails (one annotation gives guess 0), C88_keys_fails (names without namespace share buckets), C88_not_value_fails (total - guess underflows for a namespace of U+10FFFF and above). The sampling by reservoir is an arbitrary sorted sub-list; floating-point rounding is any monotone rounding that is exact on naturals below 2^53.",
  "status": "partial"
 },
 "C89": {
  "note": "nodes, root_nodes and cyclic are right only without deletions (C89_nodes_fails, C89_cyclic_fails) and cycles must be reachable from a root if there is one; the percentile is the first instead of the 99th for 100 or more source nodes (C89_percentile_fails).",
  "status": "partial"
 },
 "C90": {
  "note": "Underflow for ^ and inverse . with ranges that no text satisfies, for edge operators whose range begins with 0, and overflow of output*output for large intermediate results (C90_near_fails, C90_edge_fails, C90_plan_fails); selectivity may exceed one (C90_output_bound_fails).",
  "status": "partial"
 },
 "C91": {
  "note": "LALRPOP's generated tokenizer is trusted to implement the longest-match rule with the precedences of the match block; regular expressions of the terminals are modelled with Unicode characters. C91_arrow_fails and C91_name_fails show texts without blanks that a reader may expect to be read differently (pos->dep tok, tok.tok); they are consequences of the rule, not part of the claim.",
  "status": "proved"
 },
 "C92": {
  "note": "LALRPOP's table construction is trusted to accept exactly the rules of the grammar; the parser of the model is an independent recursive descent parser proved sound and complete for the rules (C92_parse, C92_syntax). C92_alternatives and C92_no_parens describe disjunctions and queries without parentheses. Normalization by the crate boolean_expression after parsing is not modelled.",
  "status": "proved"
 },
 "C93": {
  "note": "C93_translated_partial connects the text to C69 for queries without parentheses.",
  "status": "proved"
 },
 "C94": {
  "note": "Fails for: references with numbers of more than 64 bits (panic), distances of more than 64 bits (become 0), Display of names that start with arity after a namespace. Values with quotation marks cannot be written at all (C94_quote_fails).",
  "status": "partial"
 },
 "C95": {
  "note": "Partial only for C95_answers_partial, which inherits the hypothesis of C61 on non-reflexive operators (C95_between is the statement without it); the order itself, its cost and the end of the search are proved for all costs and all random numbers. An order without plan makes the query fail; that is not excluded here.",
  "status": "partial"
 },
 "C96": {
  "note": "Partial: names of corpora must be file names, linked files must exist, be linked with the name of their node and not look like a corpus; each restriction has a witness of what the code does otherwise. That the crate zip returns the written names and contents, and enclosed_name as documented, is trusted.",
  "status": "partial"
 },
 "C97": {
  "note": "Partial: segmentations must have edges, a unique name and no deleted edges; no order of tokens gives the size 0; a unit without statistics is lost; the result does not say whether something was changed. Tokens are counted correctly whenever there is an order of tokens.",
  "status": "partial"
 },
 "C98": {
  "note": "Proved from annotation changes and graph storages to rows of all plans: rows are described combinations without repetition and include all distinct ones, exact for reflexive operators and for distinct combinations. Without the global rule the results are known exactly for every order (C98_exact) and do not depend on it if the operators form a tree (C98_tree). Exactness in general fails since non-reflexive operators only demand different operands in joins, so that the same query with its operators in another order has other results (C98_order_fails), and the comparison of values loses the annotation key in index joins (C98_equal_value_fails). C98_replaced: the same with node searches replaced by optimize_node_search_by_operator, if the conditions of C67 hold where a search is replaced; C98_replaced_fails shows the wrong key for tokens otherwise.",
  "status": "partial"
 },
 "C99": {
  "note": "Capi. C99_to_c: a client reads every text without NUL as it is; C99_to_c_iff: only texts with NUL change. C99_vector, C99_find, C99_list, C99_node_annotations, C99_edge_annotations, C99_frequency: what the client reads from results. C99_update: an update built by calls has exactly their events. C99_definition_partial: definitions of frequency tables without comma and colon in the names. C99_nul_fails, C99_definition_fails: texts with NUL become empty, names with separators are read differently.",
  "status": "partial"
 }
}
