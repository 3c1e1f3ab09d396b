{"claims": [
 {"property": "C01", "status": "proved", "theorems": ["SymbolTable.C01_bijection", "SymbolTable.C01_injective", "SymbolTable.C01_insert_returns_id", "SymbolTable.C01_insert_stable", "SymbolTable.C01_remove", "SymbolTable.C01_save_load", "SymbolTable.C01_live"], "note": "All histories of insert/remove/clear/save-load."},
 {"property": "C02", "status": "proved", "theorems": ["AnnoStore.C02_get_value", "AnnoStore.C02_has_value", "AnnoStore.C02_annotations_for_item", "AnnoStore.C02_keys_for_item", "AnnoStore.C02_removal_results"], "note": "All histories of the in-memory storage; values, existence, per-item listings and removal results."},
 {"property": "C03", "status": "proved", "theorems": ["AnnoStore.C03_exact_search", "AnnoStore.C03_regex_search", "AnnoStore.C03_qnames", "AnnoStore.C03_keys_for_iterator", "AnnoStore.C03_node_id_from_name"], "note": "Exact and regex search, candidate names, iterator keys and name lookup, for all histories."},
 {"property": "C04", "status": "partial", "theorems": ["AnnoStore.C04_number_of_annotations_partial", "AnnoStore.C04_number_of_annotations_fails_after_clear", "AnnoStore.C04_no_underflow", "AnnoStore.C04_annotation_keys", "AnnoStore.C04_number_by_qname", "AnnoStore.C04_number_by_name_partial", "AnnoStore.C04_number_by_name_fails_at_bound", "AnnoStore.C04_largest_item"], "note": "Proved for histories without clear and namespaces below char::MAX; both restrictions are necessary (counterexamples proved)."},
 {"property": "C05", "status": "partial", "theorems": ["AnnoStore.C05_all_values", "AnnoStore.C05_most_frequent_first", "DiskAnno.C05_disk_most_frequent_first_fails"], "note": "In-memory storage. The on-disk storage sorts ascending, see C06."},
 {"property": "C06", "status": "partial", "theorems": ["DiskAnno.C06_lookup_partial", "DiskAnno.C06_exact_search_partial", "DiskAnno.C06_same_as_in_memory_partial", "DiskAnno.C06_search_complete_partial", "DiskAnno.C06_regex_search_partial", "DiskAnno.C06_search_fails_after_overwrite", "DiskAnno.C06_annotation_lost_fails"], "note": "Fails as stated: C06_search_fails_after_overwrite (stale value index after overwrite), C06_annotation_lost_fails (key symbol freed while in use after an evicted removal). Proved under explicit restrictions: no evicted removal (Clean; two sufficient classes proved), no overwrite with a different value, values without NUL and not above char::MAX. Completeness needs no overwrite restriction."},
 {"property": "C07", "status": "partial", "theorems": ["Keys.C07_unsigned_order", "Keys.C07_unsigned_round_trip", "Keys.C07_signed_order_fails", "Keys.C07_signed_order_partial", "Keys.C07_signed_injective", "Keys.C07_edge", "Keys.C07_by_container", "Keys.C07_by_container_range", "Keys.C07_by_qname", "Keys.C07_by_qname_order_partial", "Keys.C07_by_qname_order_fails", "Keys.C07_value_range_partial", "Keys.C07_value_range_fails", "Keys.C07_any_range_partial", "Keys.C07_any_range_fails"], "note": "Unsigned keys, edge keys and container keys fully proved. Signed order, NUL-containing values and values above char::MAX have counterexamples; the remaining domain is proved."},
 {"property": "C08", "status": "proved", "theorems": ["DiskMap.C08_get", "DiskMap.C08_remove_result", "DiskMap.C08_iter", "DiskMap.C08_range", "DiskMap.C08_is_empty", "DiskMap.C08_eviction_invisible"], "note": "Refinement of an ordered map for every eviction limit and operation history."},
 {"property": "C09", "status": "partial", "theorems": ["DiskMap.C09_contains_key_fails", "DiskMap.C09_no_false_negative", "DiskMap.C09_contains_key_partial", "DiskMap.C09_contains_key_after_reload"], "note": "Fails in general (tombstones in the evicted table); proved: never a false negative, exact for histories without removal, exact after reload."},
 {"property": "C10", "status": "proved", "theorems": ["Dfs.C10_terminates", "Dfs.C10_steps", "Dfs.C10_each_path_once", "Dfs.C10_cycle_flag"], "note": "All finite graphs, start nodes and distance ranges; termination, exact set of reported (node, distance) pairs, one report per simple path, cycle flag."},
 {"property": "C11", "status": "partial", "theorems": ["Adj.C11_find_connected", "Adj.C11_find_connected_inverse", "Adj.C11_is_connected", "Adj.C11_unbounded_is_reachability", "Adj.C11_excluded_zero_fails"], "note": "All histories of edge operations and all ranges except Excluded(0), which underflows (C11_excluded_zero_fails)."},
 {"property": "C12", "status": "partial", "theorems": ["Adj.C12_distance_partial", "Adj.C12_distance_shortest_partial", "Adj.C12_distance_fails"], "note": "Fails as stated (C12_distance_fails: not the shortest path in a DAG). Proved: None iff unreachable, otherwise the length of a simple path; shortest if every node has at most one ingoing edge."},
 {"property": "C13", "status": "proved", "theorems": ["Adj.C13_copy", "Adj.C13_edges_in_sync", "Adj.C13_annotations"], "note": "All histories of edge operations."},
 {"property": "C14", "status": "partial", "theorems": ["Linear.C14_neighbours", "Linear.C14_nodes", "Linear.C14_annotations", "Linear.C14_find_connected", "Linear.C14_find_connected_inverse_partial", "Linear.C14_distance", "Linear.C14_is_connected", "Linear.C14_inverse_excluded_fails", "Linear.C14_inverse_empty_range_fails", "Linear.C14_inverse_failures_are_wrong"], "note": "All chain components copied from any source; neighbours, sources, roots, annotations, find_connected, distance and is_connected for all bounds. find_connected_inverse fails for exclusive upper bounds and empty ranges (C14_inverse_*_fails), proved for the remaining ranges."},
 {"property": "C15", "status": "proved", "theorems": ["PrePostGs.C15_find_connected", "PrePostGs.C15_find_connected_inverse", "PrePostGs.C15_distance", "PrePostGs.C15_neighbours", "PrePostGs.C15_annotations", "PrePostGs.C15_is_connected"], "note": "Proved for every forest; everything except is_connected even for every acyclic graph with several orders per node. Assumes that copy did not overflow and levels fit (C19). The bound Excluded(0) panics exactly as in the adjacency list (C11_excluded_zero_fails) and is excluded."},
 {"property": "C16", "status": "partial", "theorems": ["PrePostGs.C16_agree_partial", "PrePostGs.C16_sound_partial", "PrePostGs.C16_unbounded_partial", "PrePostGs.C16_is_connected_fails"], "note": "Fails as stated (C16_is_connected_fails: the first nested pair of orders decides). Proved on all acyclic graphs: soundness, agreement when all paths between the nodes have the same length (in particular forests), agreement without upper bound."},
 {"property": "C17", "status": "partial", "theorems": ["Dense.C17_dense", "Dense.C17_dense_two_successors_fails", "Dense.C17_dense_unannotated_source_fails", "DiskPath.C17_path_partial", "DiskPath.C17_path_largest_source_fails", "DiskPath.C17_path_second_copy_fails"], "note": "Dense storage: exact copy when every node has at most one successor and no source is larger than the largest annotated node (both needed, see the failing witnesses). Path storage: exact except that the ingoing edges miss a source with ID u64::MAX, and copying twice keeps old annotations."},
 {"property": "C18", "status": "partial", "theorems": ["C18_partial", "C18_unreachable_cycle_fails", "C18_nonvacuous"], "note": "Fails for a component with a root and a cycle that no root reaches: C18_unreachable_cycle_fails. C18_partial proves preservation of edges and annotations for all other components, for arbitrary float comparisons."},
 {"property": "C19", "status": "proved", "theorems": ["C19_types_fit"], "note": "Covers every number type choice of the heuristic, not only 16/8 bit. The hypothesis on the visit count excludes only components with 2^63 visits; components with a cycle no root reaches are excluded (C18 finding)."},
 {"property": "C20", "status": "proved", "theorems": ["UnionContainer.C20_union", "UnionContainer.C20_errors", "UnionContainer.C20_traversal", "UnionContainer.C20_nonvacuous"], "note": "All finite lists of containers; error behaviour in C20_errors."},
 {"property": "C21", "status": "proved", "theorems": ["GraphUpdate.C21_update_log", "GraphUpdate.C21_nonvacuous"], "note": "The update log returns the events in the order they were added, with consecutive numbers, through any interleaving of adding, iterating and saving/loading."},
 {"property": "C22", "status": "proved", "theorems": ["Graph.C22_apply_update", "Graph.C22_aborted", "Graph.C22_succeeds", "Graph.C22_nonvacuous"], "note": "apply_update on any graph reachable from the empty one refines an abstract graph of names; a hook error stops after a prefix of the events. Excludes events that set or delete the label annis:node_name (C24_rename_fails)."},
 {"property": "C23", "status": "partial", "theorems": ["Graph.C23_no_dangling_edges_partial", "Graph.C23_fails", "Graph.C23_nonvacuous"], "note": "Holds when a node is deleted only in an update that does not also create a component; C23_fails gives the counterexample in which the deleted node keeps its edges."},
 {"property": "C24", "status": "partial", "theorems": ["Graph.C24_unique_names", "Graph.C24_ids_not_reused", "Graph.C24_rename_fails", "Graph.C24_nonvacuous"], "note": "Unique names and no id reuse for histories without events on the label annis:node_name; C24_rename_fails shows two nodes with one name otherwise."},
 {"property": "C25", "status": "partial", "theorems": ["Graph.C25_batches_partial", "Graph.C25_dangling_fails", "Graph.C25_rename_fails", "Graph.C25_nonvacuous"], "note": "Splitting an update into batches gives the same graph under the same restrictions as C23 and C24; both restrictions have counterexamples."},
 {"property": "C26", "status": "partial", "theorems": ["C26_failed_update_partial", "PersistEx.C26_pending_fails", "PersistEx.C26_in_memory_fails"], "note": "A failed update leaves memory and disk unchanged after every history with at most one pending update; counterexamples for several pending updates and for graphs without a location."},
 {"property": "C27", "status": "partial", "theorems": ["C27_durability_partial", "PersistEx.C27_fails", "PersistEx.C27_nonvacuous"], "note": "Every successful update survives a crash at any point of a write-back, after every history with at most one pending update; C27_fails: the log only keeps the latest update."},
 {"property": "C28", "status": "partial", "theorems": ["C28_backup_partial", "C28_completed", "PersistEx.C28_fails", "PersistEx.C28_second_open_fails"], "note": "A crash at any step of the write-back and any number of crashes during recovery keep the graph loadable; C28_fails: a completed recovery writes to current/current and drops the backup, so the second open reads the damaged folder."},
 {"property": "C29", "status": "partial", "theorems": ["C29_component_dirs_partial", "C29_default_layer_fails", "C29_slash_fails", "C29_nonvacuous"], "note": "Proved for layers and names without '/' that are not the default_layer alias (see C29_component_dirs_partial). Witnesses: C29_default_layer_fails (layer 'default_layer' and '' share a directory), C29_slash_fails (a '/' in a layer or name is lost)."},
 {"property": "C30", "status": "partial", "theorems": ["C30_component_text", "C30_annotation_component_partial", "C30_fails", "C30_nonvacuous"], "note": "C30_component_text characterises the round trip exactly: it holds iff the layer contains no '/'. C30_fails is the counterexample to the unrestricted claim."},
 {"property": "C31", "status": "proved", "theorems": ["C31_get_all_components", "C31_nonvacuous"], "note": "Exact for every set of components and every filter."},
 {"property": "C32", "status": "partial", "theorems": ["C32_qname_partial", "C32_plain_partial", "C32_injective", "C32_fails", "C32_nonvacuous"], "note": "The split never percent-decodes: it returns the encoded namespace and name (C32_qname_partial, for all strings), which equals the original iff nothing had to be encoded (C32_plain_partial). Joining is injective on all strings (C32_injective). C32_fails is the counterexample."},
 {"property": "C33", "status": "proved", "theorems": ["C33_sort_first_n_on", "C33_sort_on", "C33_keeps_all", "C33_sort_first_n", "C33_sort", "C33_can_terminate", "SortEx.C33_diverges", "SortEx.C33_nonvacuous"], "note": "Correct for every finished run; C33_can_terminate shows that pivots with a finished run exist, C33_diverges that the sort of 21 items never ends when the smallest item is always the pivot (the pivot is included in the right part)."},
 {"property": "C34", "status": "partial", "theorems": ["C34_total_order_partial", "C34_deterministic_partial", "CompareEx.C34_fails", "CompareEx.C34_nonvacuous"], "note": "Holds when all nodes have names, the token order is acyclic and all nodes of a document are in one token chain (or none is in any). C34_fails: 0<1<2<0 with a node without token or with a second text in the document."},
 {"property": "C35", "status": "proved", "theorems": ["C35_pages", "C35_consecutive", "FindEx.C35_nonvacuous", "FindEx.C35_error_skipped"], "note": "Two searches with independent random numbers and plan orders. C35_error_skipped: errors in the skipped part are not reported."},
 {"property": "C36", "status": "partial", "theorems": ["C36_count_partial", "C36_count_extra", "FindEx.C36_fails", "FindEx.C36_nonvacuous"], "note": "count counts error items of the plan as matches (C36_fails). count_extra is exact (C36_count_extra)."},
 {"property": "C37", "status": "proved", "theorems": ["C37_frequency", "C37_value", "FindEx.C37_nonvacuous"], "note": "For every hash map order and all plans."},
 {"property": "C38", "status": "partial", "theorems": ["C38_corpus_dirs_partial", "C38_fails", "C38_nonvacuous"], "note": "Holds for all names except '', '.' and '..', which are mapped to the data directory itself or its parent (C38_fails)."},
 {"property": "C39", "status": "partial", "theorems": ["C39_match_ids_partial", "C39_match_ids_injective_partial", "C39_fails", "C39_nonvacuous"], "note": "Holds when node names contain no white space and no '::' (C39_fails otherwise)."},
 {"property": "C40", "status": "partial", "theorems": ["C40_text", "C40_text_token", "C40_text_token_nonvacuous", "C40_text_nonvacuous", "C40_text_fails", "C40_positions", "C40_injective", "C40_extract_location_partial", "C40_empty_fails", "C40_nonvacuous"], "note": "Line and column identify the byte position for every query (C40_positions, C40_injective). The displayed text of an error with a location determines its start, effective end and description (C40_text), so two errors of one query with equal texts cover the same bytes (C40_text_token). Error extraction on an empty query underflows (C40_empty_fails); an error without a location can show the same text as one with a location (C40_text_fails)."},
 {"property": "C41", "status": "proved", "theorems": ["C41_connected", "ConnEx.C41_nonvacuous"], "note": "check_components_connected accepts exactly the conjunctions whose mandatory nodes are connected by binding operators."},
 {"property": "C42", "status": "partial", "theorems": ["C42_index_join", "C42_index_eq_nested", "JoinEx.C42_index_nonvacuous", "JoinEx.C42_error_loops", "C42_nested_loop", "C42_nested_loop_partial", "C42_swap_partial", "C42_nodup", "JoinEx.C42_fails", "JoinEx.C42_nonvacuous"], "note": "Nested loop join returns exactly the pairs (in order) that satisfy the operator and the distinctness rule; the claim that both operand orders and the index join give the same rows holds for operators without a global distinctness rule (C42_nested_loop_partial, C42_swap_partial, C42_index_eq_nested). JoinEx.C42_fails: the first outer row is not checked for global distinctness. JoinEx.C42_error_loops: an error while fetching the first candidates is returned forever."},
 {"property": "C43", "status": "partial", "theorems": ["C43_nested_loop", "C43_nested_loop_eq_partial", "C43_index_join_partial", "JoinEx.C43_fails", "JoinEx.C43_error_lost", "JoinEx.C43_cond_error", "JoinEx.C43_nonvacuous"], "note": "The parallel joins return a permutation of the sequential rows when no distinctness rule is involved and no error occurs; JoinEx.C43_fails shows different results otherwise, C43_error_lost a lost error and C43_cond_error a candidate accepted after an error."},
 {"property": "C44", "status": "proved", "theorems": ["C44_reorder", "C44_disjunction", "C44_single", "C44_nonvacuous"], "note": "Columns are moved to the query order for every column mapping a plan can have; several alternatives give the union without duplicates, one alternative is passed through."},
 {"property": "C45", "status": "partial", "theorems": ["TextOp.C45_spans_nonvacuous", "TextOp.C45_segmentation_fails", "TextOp.C45_empty_range_fails", "TextOp.C45_precedence", "TextOp.C45_inverse_precedence", "TextOp.C45_near", "TextOp.C45_segmentation_partial", "TextOp.C45_spans_partial", "TextOp.C45_spans_inverse_partial", "TextOp.C45_spans_near_partial"], "note": "Precedence, inverse precedence and near proved for every well-formed token index and every range the ordering storage handles; with segmentation exact for distances of at least 1 if no node of the segmentation is the first or last token of a node (C45_spans_partial, C45_spans_inverse_partial, C45_spans_near_partial). Fails: segmentation over tokens retrieves aligned spans the filter rejects; linear orderings retrieve nodes for empty ranges."},
 {"property": "C46", "status": "partial", "theorems": ["TextOp.C46_overlap_retrieval", "TextOp.C46_overlap_partial", "TextOp.C46_single_token_fails", "TextOp.C46_overlap_gap_fails", "TextOp.C46_overlap_reflexive_fails", "TextOp.C46_left_alignment", "TextOp.C46_right_alignment", "TextOp.C46_identical_coverage", "TextOp.C46_inclusion_partial"], "note": "Alignment and identical coverage proved fully; inclusion for orderings that are chains; overlap for spans without gaps. Fails: spans with gaps, single-token texts in a linear ordering, reflexive overlap with different annotation keys."},
 {"property": "C47", "status": "partial", "theorems": ["EdgeOp.C47_edge", "EdgeOp.C47_edge_retrieval_partial", "EqualValue.C47_equal_value_partial", "EqualValue.C47_equal_value_fails", "EqualValue.C47_equal_value_names_fails", "TextOp.C47_alignment", "TextOp.C47_near", "TextOp.C47_overlap", "TextOp.C47_precedence_retrieval", "TextOp.C47_precedence"], "note": "Precedence, near, overlap, alignment, identical coverage and edge operators proved. Fails for == and !=: the inverse operator does not exchange the operands."},
 {"property": "C48", "status": "partial", "theorems": ["EdgeOp.C48_edge_operators_partial", "EdgeOp.C48_dag_fails", "EdgeOp.C48_empty_range_fails"], "note": "Proved for all families of graph storages that answer correctly (instances: adjacency lists, linear, pre/post order of forests, dense lists). Fails for pre/post order of a DAG and for empty ranges of linear storages."},
 {"property": "C49", "status": "partial", "theorems": ["TokenSearch.C49_token_search_partial", "TokenSearch.C49_no_order", "TokenSearch.C49_statistic_meaning", "TokenSearch.C49_all_ordered", "TokenSearch.C49_statistic_fails", "TokenSearch.C49_linear_fails", "TokenSearch.C49_nonvacuous"], "note": "C49_token_search_partial: every successful search returns each token exactly once if the order links only tokens in chains, the storage of the order knows all tokens without predecessor, and the statistic all_token_in_order_component is not wrongly true; C49_statistic_meaning gives the exact meaning of the computed statistic (operator precedence error in model.rs 650-652); C49_all_ordered needs no assumption on the statistic if all tokens are in the order; C49_statistic_fails and C49_linear_fails show lost single-token texts."},
 {"property": "C50", "status": "partial", "theorems": ["Graph.Index.Demo.C50_order_fails", "Graph.Index.Demo.C50_label_fails", "Graph.Index.Demo.C50_named_fails", "Graph.Index.Demo.C50_readd_fails", "Graph.Index.Demo.C50_segmentation_fails", "Graph.Index.Demo.C50_unknown_fails", "Graph.Index.Demo.C50_nonvacuous", "Graph.Index.C50_update_partial", "Graph.Index.C50_history_partial"], "note": "Proved for histories of updates that meet UpdateOk: no node name changes by labels, token labels only on new nodes, no re-adding of a deleted node in the same update, named dominance edges have an unnamed or coverage copy, nodes with token label and outgoing edges have coverage edges, tokens covered by one node are ordered, old tokens keep their relative order. Each condition is needed: C50_order_fails, C50_label_fails, C50_named_fails, C50_readd_fails, C50_segmentation_fails are counterexamples of the code."},
 {"property": "C51", "status": "partial", "theorems": ["C51_eviction", "C51_loaded_partial", "C51_invisible_partial", "C51_independent_partial", "StorageEx.C51_fails", "StorageEx.C51_failed_update_fails", "StorageEx.C51_stale_writer_fails", "StorageEx.C51_recreated_fails", "StorageEx.C51_nonvacuous", "StorageEx.C51_loaded_nonvacuous"], "note": "C51_eviction determines exactly which cache entries are removed, for all measurements. C51_loaded_partial: for sequential clients and all memory measurements the results of all operations are those of a storage without cache, also with several updates before the background writers run. Excluded, because the claim is false there: loading or a failing update while two or more updates are not written back (C51_fails, C51_failed_update_fails), updates while a writer for an evicted entry is left (C51_stale_writer_fails), creation/import while a writer of a deleted corpus is left (C51_recreated_fails). C51_invisible_partial and C51_independent_partial: conditions on the history alone, for all measurements."},
 {"property": "C52", "status": "partial", "theorems": ["C52_partial", "StorageEx.C52_fails", "StorageEx.C52_nonvacuous"], "note": "C52_partial: create/delete/list answer exactly by existence after all histories (including pending writers and failed updates) that ask only for existing corpora. C52_fails: a failed request for an unknown corpus leaves a cache entry; create then returns false, delete true, import CorpusExists."},
 {"property": "C53", "status": "partial", "theorems": ["C53_partial", "StorageEx.C53_fails", "StorageEx.C53_evicted_fails", "StorageEx.C53_nonvacuous"], "note": "C53_partial: in all interleavings of clients, background writers, evictions and unload every query returns the content with all updates up to a moment after it began; restricted to executions where a corpus is loaded (or an update fails) only when at most one update is not written back, and an update is made only when no other loaded entry of the corpus exists. C53_fails: two clients load the same corpus at the same time, an acknowledged update is not seen by a later query (no eviction needed). C53_evicted_fails: eviction between getting the entry and updating."},
 {"property": "C54", "status": "partial", "theorems": ["C54_waits", "C54_sound", "C54_returns_partial", "C54_lost", "ClosingEx.C54_nonvacuous", "ClosingEx.C54_fails"], "note": "C54_waits and C54_sound: in all executions (with failures and spurious wake-ups) a returned drop implies that all background writers have finished, and the counter mutex is never poisoned. C54_returns_partial: bounded number of steps and no deadlock, so the drop returns, if no writer is lost. C54_lost/C54_fails: a writer that returns early because the entry lock is poisoned (or panics) never decrements the counter and drop waits forever."},
 {"property": "C55", "status": "partial", "theorems": ["SubgraphEx.C55_nonvacuous", "SubgraphEx.C55_overlap_fails", "SubgraphEx.C55_two_texts_fails", "SubgraphEx.C55_interleaved_fails", "SubgraphEx.C55_layer_fails", "Subgraph.C55_extract", "Subgraph.C55_subgraph_partial", "Subgraph.C55_disjoint_partial", "Subgraph.C55_segmentation_partial", "Subgraph.C55_seg_region", "Subgraph.C55_seg_nodes", "Subgraph.C55_region", "Subgraph.C55_nodes"], "note": "The context of a match is the induced subgraph of the match nodes, the tokens of their windows, the covering nodes and the parents (C55_nodes, C55_seg_nodes, C55_extract), with one gap edge per gap (C55_subgraph_partial, C55_disjoint_partial, C55_segmentation_partial). Assumed: the covered tokens of a match node are in one text, the storages and the token index answer correctly (C14, C45, C50), every selected node has a label, no self loops, the sorts end, context sizes within the range of the storage. The gap edges need ids that increase in each text and are not interleaved, or equal or disjoint windows in one text. Fails: overlapping regions with other ids (C55_overlap_fails), a node that covers two texts (C55_two_texts_fails), interleaved ids (C55_interleaved_fails), coverage components with a name in the layer annis (C55_layer_fails)."},
 {"property": "C56", "status": "proved", "theorems": ["C56_arity"], "note": ""},
 {"property": "C57", "status": "partial", "theorems": ["C57_full_match", "C57_unbalanced_fails", "C57_regex_condition_partial", "C57_assertion_fails", "C57_empty_class_fails", "C57_nonvacuous"], "note": "Whole-value matching proved for every pattern the model's parser accepts (C57_full_match), negative witness for unbalanced patterns (C57_unbalanced_fails). Exact-value shortcut proved for patterns without assertions or empty classes (C57_regex_condition_partial), counterexamples C57_assertion_fails, C57_empty_class_fails. Regex syntax is a fragment, see DESIGN.md."},
 {"property": "C58", "status": "partial", "theorems": ["C58_graphml_partial", "C58_imported_graph_partial", "GraphMLEx.C58_fails", "GraphMLEx.C58_nonvacuous"], "note": "For names, keys and components without XML meta characters; annotation values and node types are arbitrary strings. C58_fails: attribute values are escaped on export but never unescaped on import, and keys stay percent-encoded. C115_document proves which events the export of a graph writes, and C115 composes export, import and queries."},
 {"property": "C59", "status": "partial", "theorems": ["Dense.C59_dense_find_connected", "Dense.C59_dense_distance", "DiskPath.C59_path_find_connected", "DiskPath.C59_path_find_connected_inverse", "DiskPath.C59_path_distance_partial", "DiskPath.C59_path_is_connected_partial", "DiskPath.C59_path_self_distance_fails", "DiskPath.C59_path_self_connected_fails", "DiskPath.C59_path_empty_range_fails", "DiskPath.C59_path_empty_storage_fails"], "note": "Dense storage exact. Path storage exact except for a node and itself at distance 0 (distance, is_connected), an empty range, and a storage that was never filled."},
 {"property": "C60", "status": "partial", "theorems": ["DiskAdj.C60_edges_in_sync_partial", "DiskAdj.C60_queries_partial", "DiskAdj.C60_copy_partial", "DiskAdj.C60_largest_node_fails"], "note": "Edges whose node number is u64::MAX are not found by the range scans (C60_largest_node_fails), so the theorems are restricted to smaller numbers."},
 {"property": "C61", "status": "partial", "theorems": ["C61_between", "C61_distinct_partial", "C61_join_order_partial", "C61_nodup", "OrderEx.C61_nonvacuous", "OrderEx.C61_fails", "C61_exact", "C61_tree"], "note": "C61_between: for every order and plan the result is between the answers with pairwise distinct matches and all answers, whatever the operators say about reflexivity; exact if all answers are distinct (C61_distinct_partial) or if no operator is non-reflexive with the global rule (C61_join_order_partial). Without the global rule C61_exact gives the exact result for every order (operands of a non-reflexive operator differ unless operators before it connect them), and C61_tree shows that it does not depend on the order if the operators form a tree. Missing: with cycles or the global rule the order of the operators does change the result (C98_order_fails, C61_fails). Node searches and operators are assumed to agree between index and filter (OpOk), which C45-C48 are about."},
 {"property": "C62", "status": "proved", "theorems": ["EqualValue.C62_equal_value"], "note": ""},
 {"property": "C63", "status": "proved", "theorems": ["LocksEx.C63_nonvacuous", "LocksEx.C63_blocked_nonvacuous", "LocksEx.C63_callback_fails", "Locks.C63_no_deadlock", "Locks.C63_finish", "Locks.C63_decreases", "Locks.C63_exclusive"], "note": "Programs with scoped guards for all public functions, every branch, loop count, entry and early exit possible. The condition variable of drop is part of C54. C63_callback_fails: a progress callback of export_to_zip that calls the storage can deadlock with a deletion."},
 {"property": "C64", "status": "partial", "theorems": ["Import.C64_others", "Import.C64_exists", "Import.C64_success_partial", "Import.C64_ok_config", "Import.C64_nonvacuous", "Import.C64_save_fails", "Import.C64_overwrite_fails", "Import.C64_retry_fails"], "note": "Proved for all failure patterns: other corpora are untouched, refused imports change nothing, Ok implies configuration and files are stored. Errors of save_to are only logged (C64_save_fails) and the old corpus is removed before the new one is complete (C64_overwrite_fails, C64_retry_fails)."},
 {"property": "C65", "status": "partial", "theorems": ["Links.C65_inside_partial", "Links.C65_all_partial", "Links.C65_nonvacuous", "Links.C65_escape_fails", "Links.C65_absolute_fails", "Links.C65_source_fails", "Links.C65_collision_fails"], "note": "Proved for relative node names without empty, . and .. segments. C65_escape_fails, C65_absolute_fails, C65_source_fails, C65_collision_fails show the other names."},
 {"property": "C66", "status": "partial", "theorems": ["NodeSearch.Ex.C66_nonvacuous", "NodeSearch.Ex.C66_meta_fails", "NodeSearch.C66_search", "NodeSearch.C66_nodup_partial", "NodeSearch.C66_unique", "NodeSearch.C66_errors", "NodeSearch.C66_index_partial", "NodeSearch.C66_any_token_partial", "NodeSearch.C66_any_token_no_order"], "note": "Exactness of all ten search kinds and error cases are proved for all histories. Uniqueness and the agreement with index joins hold except for metadata searches without namespace (C66_meta_fails). The search for all tokens is taken from C49 (C66_any_token_partial, C66_any_token_no_order)."},
 {"property": "C67", "status": "partial", "theorems": ["NodeSearch.Ex.C67_nonvacuous", "NodeSearch.Ex.C67_negated_fails", "NodeSearch.Ex.C67_duplicate_fails", "NodeSearch.Ex.C67_near_fails", "NodeSearch.Ex.C67_output_fails", "NodeSearch.C67_part_of_partial", "NodeSearch.C67_edge_sources"], "note": "Proved if left operands are source nodes of the components, no node is a source in two of them and the constant output is the key that is looked for; the first condition is proved for edge operators. The code applies the replacement without these conditions: C67_negated_fails, C67_near_fails, C67_duplicate_fails, C67_output_fails. C98_replaced and C101 show that with these conditions the results of whole plans are the same as without the replacement."},
 {"property": "C68", "status": "partial", "theorems": ["NodeSearch.Ex.C68_nonvacuous", "NodeSearch.Ex.C68_regex_fails", "NodeSearch.Ex.C68_self_fails", "NodeSearch.C68_optional_partial", "NodeSearch.C68_negated", "NodeSearch.C68_identity"], "note": "Proved for all variants with valid patterns; negation and identity satisfy the operator conditions of C61. Invalid patterns and the match itself as partner: C68_regex_fails, C68_self_fails."},
 {"property": "C69", "status": "partial", "theorems": ["Aql.Ex.C69_nonvacuous", "Aql.Ex.C69_quirks_nonvacuous", "Aql.Ex.C69_not_dnf_fails", "Aql.Ex.C69_same_name_fails", "Aql.Ex.C69_named_number_fails", "Aql.Ex.C69_distributed_fails", "Aql.Ex.C69_quirks_numbers_fails", "Aql.Ex.C69_meta_scope_fails", "Aql.Ex.C69_meta_only_fails", "Aql.Ex.C69_meta_optional_fails", "Aql.Ex.C69_meta_nonvacuous", "Aql.Ex.C69_query_nonvacuous", "Aql.C69_alternatives_partial", "Aql.C69_literals_partial", "Aql.C69_node_list", "Aql.C69_translation_partial", "Aql.C69_accepted_partial", "Aql.C69_quirks_partial", "Aql.C69_unique", "Aql.C69_meta_partial", "Aql.C69_query_partial", "Aql.C69_query_quirks_partial"], "note": "Proved for queries without repeated names: translation, acceptance, uniqueness, quirks mode and metadata. Counterexamples: a repeated name relates the wrong node; a named node has no number; numbers of distributed disjunctions and of alternatives after artificial nodes are shifted; meta:: applies to all alternatives, to optional first nodes, and not at all without a node search. The step to disjunctive normal form is in another crate and not modelled."},
 {"property": "C70", "status": "partial", "theorems": ["Aql.Ex.C70_nonvacuous", "Aql.Ex.C70_alternatives_fails", "Aql.Ex.C70_frequency_fails", "Aql.C70_numbering", "Aql.C70_numbers_unique", "Aql.C70_columns_partial", "Aql.C70_complete_partial", "Aql.C70_frequency_partial", "Aql.C70_frequency_column_partial"], "note": "Numbering is proved for all queries. Columns are proved for one alternative and for queries without optional nodes. Counterexamples: with optional nodes the columns of later alternatives follow the first alternative; frequency definitions use the number in the whole query as the column of every row."},
 {"property": "C71", "status": "partial", "theorems": ["Web.Ex.C71_nonvacuous", "Web.Ex.C71_list_nonvacuous", "Web.Ex.C71_rights_nonvacuous", "Web.Ex.C71_noninterference_nonvacuous", "Web.Ex.C71_delete_fails", "Web.Ex.C71_path_fails", "Web.C71_noninterference_partial", "Web.C71_answered", "Web.C71_check", "Web.C71_list", "Web.C71_readonly", "Web.C71_administration", "Web.C71_token", "Web.C71_rights", "Web.C71_valid_token", "Web.C71_put", "Web.C71_delete_partial", "Web.C71_groups"], "note": "Proved in full: C71_check, C71_list, C71_readonly, C71_administration, C71_token, C71_put, C71_groups, C71_answered. Partial: noninterference needs permitted corpora whose name is harmless as a relative path (C71_path_fails: a corpus x/../../../secret/files), deletion of groups needs foreign keys, which SQLite checks only if built or told so (C71_delete_fails). Token verification is an arbitrary function."},
 {"property": "C72", "status": "partial", "theorems": ["Web.Ex.C72_nonvacuous", "Web.Ex.C72_escape_fails", "Web.Ex.C72_colon_fails", "Web.Ex.C72_listed_fails", "Web.Ex.C72_decoded_fails", "Web.Ex.C72_corpus_node_fails", "Web.C72_content_partial", "Web.C72_disjoint", "Web.C72_list_partial", "Web.C72_list_complete_partial", "Web.C72_fetch_partial", "Web.C72_same_directory"], "note": "Partial: corpus names other than empty, '.' and '..' (C72_escape_fails); files whose name has '..', '%' or surrounding blanks are listed but not sent (C72_listed_fails, C72_decoded_fails); corpora with one of : | * \\ have their files elsewhere (C72_same_directory says exactly when, C72_colon_fails); without a node the raw corpus name is searched, but node names are percent-encoded (C72_corpus_node_fails)."},
 {"property": "C73", "status": "proved", "theorems": ["Web.Ex.C73_nonvacuous", "Web.C73_before", "Web.C73_running", "Web.C73_delivered", "Web.C73_once"], "note": "Proved for all interleavings. A job whose thread panics stays running forever: C73_running covers it, since there is no end event."},
 {"property": "C74", "status": "partial", "theorems": ["TokenSearch.C74_ascending_partial", "TokenSearch.C74_same_as_sorted_partial", "TokenSearch.C74_inverted_partial", "TokenSearch.C74_nonvacuous", "TokenSearch.C74_ascending_nonvacuous", "TokenSearch.C74_texts_fails", "TokenSearch.C74_crossing_fails", "TokenSearch.C74_no_helper_fails"], "note": "Proved for corpora in which every document has one text: ascending order, equality of every page with the sorted one, and inversion, with adjacency lists and linear storages as order. False in general (witnesses): documents with several texts, an order that crosses documents, and missing components for the left- and right-most tokens."},
 {"property": "C75", "status": "partial", "theorems": ["Load.Ex.C75_nonvacuous", "Load.Ex.C75_on_graph_nonvacuous", "Load.Ex.C75_subgraph_filter_fails", "Load.C75_load_all", "Load.C75_like_complete_partial", "Load.C75_loads", "Load.C75_on_graph"], "note": "Proved for all operators, node searches and purposes, any earlier loading state, other threads and hash orders, with planning and execution as an arbitrary function of the storages taken out of the graph. Missing: subgraph_for_query with a component type, which uses the token order and the token helper without loading them (C75_subgraph_filter_fails)."},
 {"property": "C76", "status": "partial", "theorems": ["Load.Ex.C76_nonvacuous", "Load.Ex.C76_optimized_nonvacuous", "Load.Ex.C76_reload_fails", "Load.Ex.C76_two_updates_fails", "Load.C76_kept_partial", "Load.C76_saved_partial", "Load.C76_optimized", "Load.C76_content_partial"], "note": "Proved over all sequences of operations. Missing: an update that fails and then cannot read the corpus again (C76_reload_fails); for the content, updates that do not wait for the background thread before them (C76_two_updates_fails). Optimisation is complete."},
 {"property": "C77", "status": "partial", "theorems": ["Rel.C77_corpus_row", "Rel.C77_text_row", "Rel.C77_node_row", "Rel.C77_node_row_old", "Rel.C77_node_row_seg", "Rel.C77_anno_row", "Rel.C77_component_row", "Rel.C77_rank_row", "Rel.C77_null_token_fails", "Rel.C77_rows_nonvacuous", "Rel.C77_round_trip_partial", "Rel.C77_plain", "Rel.C77_field", "Rel.C77_null_fails", "Rel.C77_empty_line_fails", "Rel.C77_nonvacuous"], "note": "Proved for all tables, except that the value NULL as a string (C77_null_fails, C77_null_token_fails) and empty values in a table with one column (C77_empty_line_fails) cannot be written."},
 {"property": "C78", "status": "partial", "theorems": ["Rel.C78_parent_path", "Rel.C78_corpus_path_partial", "Rel.C78_path_injective", "Rel.C78_distinct_paths", "Rel.C78_documents_distinct_partial", "Rel.C78_documents_distinct_fails", "Rel.C78_top_path_fails", "Rel.C78_nonvacuous"], "note": "Proved for all trees and row orders. Missing: the path of the root itself starts with a slash (C78_top_path_fails); names of renamed documents are only distinct if no document has such a name from the start (C78_documents_distinct_fails)."},
 {"property": "C79", "status": "partial", "theorems": ["Rel.C79_nonvacuous", "Rel.C79_hash_fails", "Rel.C79_text_fails", "Rel.C79_reserved_fails", "Rel.C79_names_partial", "Rel.C79_nodes_partial", "Rel.C79_types_partial", "Rel.C79_applied"], "note": "Proved for both formats if corpus and file names have no '#', the root needs no encoding, no text has the name of a node of its document and no annotation is called annis:node_name or annis:node_type; each condition but the last on files has a witness (C79_hash_fails, C79_text_fails, C79_reserved_fails, C80_encoded_top_fails). That the events give the described graph is complete (C79_applied)."},
 {"property": "C80", "status": "partial", "theorems": ["Rel.C80_nonvacuous", "Rel.C80_encoded_top_fails", "Rel.C80_root_order_fails", "Rel.C80_part_of_partial", "Rel.C80_corpora_partial"], "note": "Proved for both formats if the root has pre-order 0 and a name without characters that are encoded. False otherwise: C80_encoded_top_fails, C80_root_order_fails."},
 {"property": "C81", "status": "proved", "theorems": ["Rel.C81_nonvacuous", "Rel.C81_order"], "note": "Proved for all tables with unique identifiers and positions."},
 {"property": "C82", "status": "partial", "theorems": ["Rel.C82_nonvacuous", "Rel.C82_self_fails", "Rel.C82_unknown_fails", "Rel.C82_edges_partial", "Rel.C82_labels_partial"], "note": "Proved for all tables with unique identifiers and edges between different nodes. False for edges from a node to itself, which are lost (C82_self_fails); rows with unknown parents or components are ignored (C82_unknown_fails)."},
 {"property": "C83", "status": "partial", "theorems": ["Rel.C83_coverage_partial", "Rel.C83_covered_partial", "Rel.C83_nonvacuous", "Rel.C83_unaligned_fails", "Rel.C83_gap_fails"], "note": "Proved if the tokens are numbered without gaps in the order of their positions and a node has rank rows without parent in at most one coverage component. False for spans which end between tokens (C83_unaligned_fails; the theorems state what these spans cover) and for gaps (C83_gap_fails)."},
 {"property": "C84", "status": "partial", "theorems": ["Rel.C84_nonvacuous", "Rel.C84_before_fails", "Rel.C84_overlap_fails", "Rel.C84_after_partial", "Rel.C84_before_partial", "Rel.C84_text_partial"], "note": "Proved for tokens which do not overlap and nodes with their own names: labels after tokens and the whole text. False before the first token, where the last character is lost (C84_before_fails; the theorem states the label which is set), and for overlapping tokens (C84_overlap_fails)."},
 {"property": "C85", "status": "partial", "theorems": ["Rel.C85_nonvacuous", "Rel.C85_tok_fails", "Rel.C85_labels_partial", "Rel.C85_row_partial"], "note": "Proved for all nodes and keys where the tables give one value, under the conditions of C79 for names and one value per metadata name. The annotation annis:tok is ignored (C85_tok_fails)."},
 {"property": "C86", "status": "partial", "theorems": ["Rel.C86_text_property_partial", "Rel.C86_nul_fails", "Rel.C86_text_key", "Rel.C86_node_by_text", "Rel.C86_text_range", "Rel.C86_nonvacuous"], "note": "Partial: a segmentation name with NUL is read back wrongly and sorts wrongly (C86_nul_fails). Without NUL the keys of token positions are an order embedding with an inverse; keys of texts and of nodes by text are so for all numbers."},
 {"property": "C87", "status": "partial", "theorems": ["Rel.C87_visualizers", "Rel.C87_lines", "Rel.C87_lines_last", "Rel.C87_properties_partial", "Rel.C87_steps", "Rel.C87_line", "Rel.C87_step_fails", "Rel.C87_examples", "Rel.C87_layer_fails", "Rel.C87_nonvacuous", "Rel.C87_trim", "Rel.C87_mappings", "Rel.C87_row", "Rel.C87_row_old", "Rel.C87_row_nonvacuous"], "note": "Partial: context-steps=0 panics in step_by (C87_step_fails); a line for a layer removes all default rules of the layer (C87_layer_fails). Visualizers, all other properties and examples are exactly as specified."},
 {"property": "C88", "status": "partial", "theorems": ["Est.C88_nonvacuous", "Est.C88_upper_bound_fails", "Est.C88_single_fails", "Est.C88_keys_fails", "Est.C88_guess_le_total", "Est.C88_regex_le_total", "Est.C88_monotone", "Est.C88_full_range", "Est.C88_bounds", "Est.C88_upper_bound_partial", "Est.C88_lower_error", "Est.C88_upper_error", "Est.C88_zero_is_certain", "Est.C88_most_frequent", "Est.C88_guess_le_number", "Est.C88_not_value_partial", "Est.C88_not_value_fails", "Est.C88_store_nonvacuous"], "note": "Upper bound only for one key with 2 to 251 annotations; C88_upper_bound_fails (301 values), C88_single_fails (one annotation gives guess 0), C88_keys_fails (names without namespace share buckets), C88_not_value_fails (total - guess underflows for a namespace of U+10FFFF and above). The sampling by reservoir is an arbitrary sorted sub-list; floating-point rounding is any monotone rounding that is exact on naturals below 2^53."},
 {"property": "C89", "status": "partial", "theorems": ["Adj.C89_nodes_partial", "Adj.C89_nodes_lower", "Adj.C89_root_nodes_partial", "Adj.C89_root_nodes_le", "Adj.C89_nodes_fails", "Adj.C89_max_fan_out", "Adj.C89_percentile_large", "Adj.C89_percentile_partial", "Adj.C89_percentile_fails", "Adj.C89_max_depth", "Adj.C89_cyclic_sound", "Adj.C89_cyclic_partial", "Adj.C89_cyclic_fails", "Adj.C89_rooted_tree", "Adj.C89_nonvacuous"], "note": "nodes, root_nodes and cyclic are right only without deletions (C89_nodes_fails, C89_cyclic_fails) and cycles must be reachable from a root if there is one; the percentile is the first instead of the 99th for 100 or more source nodes (C89_percentile_fails)."},
 {"property": "C90", "status": "partial", "theorems": ["Est.C90_precedence", "Est.C90_inverse_iff", "Est.C90_near_partial", "Est.C90_near_fails", "Est.C90_edge_partial", "Est.C90_edge_fails", "Est.C90_output_positive", "Est.C90_plan_partial", "Est.C90_plan_fails", "Est.C90_output_bound_fails", "Est.C90_nonvacuous"], "note": "Underflow for ^ and inverse . with ranges that no text satisfies, for edge operators whose range begins with 0, and overflow of output*output for large intermediate results (C90_near_fails, C90_edge_fails, C90_plan_fails); selectivity may exceed one (C90_output_bound_fails)."},
 {"property": "C91", "status": "proved", "theorems": ["Parse.C91_next", "Parse.C91_lex", "Parse.C91_unique", "Parse.C91_error", "Parse.C91_written", "Parse.C91_valid", "Parse.C91_texts", "Parse.C91_spaced", "Parse.C91_opens", "Parse.C91_single", "Parse.C91_overlap", "Parse.C91_arrow_fails", "Parse.C91_name_fails", "Parse.C91_nonvacuous"], "note": "LALRPOP's generated tokenizer is trusted to implement the longest-match rule with the precedences of the match block; regular expressions of the terminals are modelled with Unicode characters. C91_arrow_fails and C91_name_fails show texts without blanks that a reader may expect to be read differently (pos->dep tok, tok.tok); they are consequences of the rule, not part of the claim."},
 {"property": "C92", "status": "proved", "theorems": ["Parse.C92_alternatives", "Parse.C92_no_parens", "Parse.C92_operator", "Parse.C92_operator_unique", "Parse.C92_operator_nonvacuous", "Parse.C92_parse", "Parse.C92_unambiguous", "Parse.C92_syntax", "Parse.C92_meaning", "Parse.C92_flat", "Parse.C92_blanks", "Parse.C92_spaced", "Parse.C92_nonvacuous"], "note": "LALRPOP's table construction is trusted to accept exactly the rules of the grammar; the parser of the model is an independent recursive descent parser proved sound and complete for the rules (C92_parse, C92_syntax). C92_alternatives and C92_no_parens describe disjunctions and queries without parentheses. Normalization by the crate boolean_expression after parsing is not modelled."},
 {"property": "C93", "status": "proved", "theorems": ["Parse.C93_searches", "Parse.C93_consistent", "Parse.C93_alternatives", "Parse.C93_names", "Parse.C93_translated_partial", "Parse.C93_nonvacuous"], "note": "C93_translated_partial connects the text to C69 for queries without parentheses."},
 {"property": "C94", "status": "partial", "theorems": ["Parse.C94_search", "Parse.C94_meta", "Parse.C94_ref", "Parse.C94_search_unique", "Parse.C94_values", "Parse.C94_expressible", "Parse.C94_display_partial", "Parse.C94_digits", "Parse.C94_panic", "Parse.C94_accepted_partial", "Parse.C94_range_partial", "Parse.C94_arity_fails", "Parse.C94_quote_fails", "Parse.C94_reference_fails", "Parse.C94_range_fails", "Parse.C94_nonvacuous"], "note": "Fails for: references with numbers of more than 64 bits (panic), distances of more than 64 bits (become 0), Display of names that start with arity after a namespace. Values with quotation marks cannot be written at all (C94_quote_fails)."},
 {"property": "C95", "status": "partial", "theorems": ["JoinOrder.C95_order", "JoinOrder.C95_terminates", "JoinOrder.C95_small", "JoinOrder.C95_answers_partial", "JoinOrder.C95_between", "JoinOrder.C95_nonvacuous"], "note": "Partial only for C95_answers_partial, which inherits the hypothesis of C61 on non-reflexive operators (C95_between is the statement without it); the order itself, its cost and the end of the search are proved for all costs and all random numbers. An order without plan makes the query fail; that is not excluded here."},
 {"property": "C96", "status": "partial", "theorems": ["Zip.C96_inside", "Zip.C96_cleared", "Zip.C96_skipped", "Zip.C96_round_trip_partial", "Zip.C96_directory_partial", "Zip.Ex.C96_nonvacuous", "Zip.Ex.C96_dots_fails", "Zip.Ex.C96_slash_fails", "Zip.Ex.C96_graphml_fails", "Zip.Ex.C96_table_fails", "Zip.Ex.C96_missing_fails", "Zip.Ex.C96_skipped_example", "Zip.Ex.C96_link_fails", "Zip.Ex.C96_directory_entry_fails", "Zip.Ex.C96_directory_escape_fails"], "note": "Partial: names of corpora must be file names, linked files must exist, be linked with the name of their node and not look like a corpus; each restriction has a witness of what the code does otherwise. That the crate zip returns the written names and contents, and enclosed_name as documented, is trusted."},
 {"property": "C97", "status": "partial", "theorems": ["SizeInfo.C97_token_count", "SizeInfo.C97_tokens", "SizeInfo.C97_segmentation_partial", "SizeInfo.C97_unit", "SizeInfo.C97_again_partial", "SizeInfo.C97_no_statistics", "SizeInfo.C97_no_order_fails", "SizeInfo.C97_again_fails", "SizeInfo.C97_single_fails", "SizeInfo.C97_same_name_fails", "SizeInfo.C97_changed_fails", "SizeInfo.C97_nonvacuous"], "note": "Partial: segmentations must have edges, a unique name and no deleted edges; no order of tokens gives the size 0; a unit without statistics is lost; the result does not say whether something was changed. Tokens are counted correctly whenever there is an order of tokens."},
 {"property": "C98", "status": "partial", "theorems": ["Whole.Ex.C98_nonvacuous", "Whole.Ex.C98_example", "Whole.Ex.C98_equal_value_fails", "Whole.C98_conjunction", "Whole.C98_reflexive_partial", "Whole.C98_distinct_partial", "Whole.C98_searches", "Whole.C98_replaced", "Whole.Ex.C98_replaced_nonvacuous", "Whole.Ex.C98_replaced_fails", "Whole.C98_exact", "Whole.C98_tree", "Whole.Ex.C98_order_fails", "Whole.Ex.C98_tree_nonvacuous"], "note": "Proved from annotation changes and graph storages to rows of all plans: rows are described combinations without repetition and include all distinct ones, exact for reflexive operators and for distinct combinations. Without the global rule the results are known exactly for every order (C98_exact) and do not depend on it if the operators form a tree (C98_tree). Exactness in general fails since non-reflexive operators only demand different operands in joins, so that the same query with its operators in another order has other results (C98_order_fails), and the comparison of values loses the annotation key in index joins (C98_equal_value_fails). C98_replaced: the same with node searches replaced by optimize_node_search_by_operator, if the conditions of C67 hold where a search is replaced; C98_replaced_fails shows the wrong key for tokens otherwise."},
 {"property": "C99", "status": "partial", "theorems": ["Capi.Ex.C99_nul_fails", "Capi.Ex.C99_nonvacuous", "Capi.C99_to_c", "Capi.C99_to_c_iff", "Capi.C99_vector", "Capi.C99_find", "Capi.C99_list", "Capi.C99_node_annotations", "Capi.C99_edge_annotations", "Capi.C99_frequency", "Capi.C99_definition_partial", "Capi.C99_definition_fails", "Capi.C99_update"], "note": "Capi. C99_to_c: a client reads every text without NUL as it is; C99_to_c_iff: only texts with NUL change. C99_vector, C99_find, C99_list, C99_node_annotations, C99_edge_annotations, C99_frequency: what the client reads from results. C99_update: an update built by calls has exactly their events. C99_definition_partial: definitions of frequency tables without comma and colon in the names. C99_nul_fails, C99_definition_fails: texts with NUL become empty, names with separators are read differently."},
 {"property": "C100", "status": "partial", "theorems": ["Capi.C100_protocol", "Capi.C100_error_list", "Capi.C100_iterator", "Capi.C100_outgoing", "Capi.C100_pointers", "Capi.C100_frame", "Capi.C100_str_free", "Capi.C100_free_fails", "Capi.Ex.C100_nonvacuous", "Capi.Ex.C100_stale_fails"], "note": "Capi. C100_protocol for all functions with one result, C100_error_list: content of the error list, C100_iterator and C100_outgoing for the two functions that give several results, C100_pointers: a call returns iff its pointers are valid, C100_frame: no call changes objects of the client, C100_str_free. C100_stale_fails: success does not reset the variable; C100_free_fails: annis_free is undefined behaviour for all objects that are not strings."},
 {"property": "C101", "status": "partial", "theorems": ["Answer.Ex.C101_nonvacuous", "Answer.Ex.C101_part_of_fails", "Answer.Ex.C101_pattern_fails", "Answer.C101_alternative", "Answer.C101_query_partial", "Answer.C101_exact_partial", "Answer.C101_refused_partial", "Answer.C101_replaceable", "Answer.C101_ident_replaceable", "Answer.SegEx.C101_segmentation_nonvacuous", "Answer.SegEx.C101_segmentation_fails", "Answer.C101_unary"], "note": "Composition of the parser (C92, C93), the translation (C69, C70), node searches and operators (C98) and plans (C61). Restricted to texts without parentheses (their normal form is made by the external crate boolean_expression), names that are not repeated (C69), operators that are modelled (no value comparison), operators on segmentations with a distance of at least 1 on segmentations whose nodes are not first or last tokens of a node (C45_segmentation_fails), and rows with different matches for different nodes (C61_fails: others depend on the plan); exact if no answer has the same match for two nodes. A negated part-of operator on a corpus without the component, or a negated operator on a segmentation that the corpus does not have, gives no results although answers exist (C101_part_of_fails, C101_segmentation_fails). A pattern that does not compile makes a query without operators fail (C101_refused_partial), but with an operator the query silently has no results (C101_pattern_fails). The change of node searches by operators (C67) is part of the plan; where it happens, the operand must not be a token or metadata search and components must not share source nodes (C101_replaceable; necessary, see C98_replaced_fails)."},
 {"property": "C102", "status": "partial", "theorems": ["Cli.C102_nonvacuous", "Cli.C102_quit_fails", "Cli.C102_order_space_fails", "Cli.C102_offset", "Cli.C102_limit", "Cli.C102_timeout", "Cli.C102_order", "Cli.C102_disk", "Cli.C102_quirks", "Cli.C102_find", "Cli.C102_count", "Cli.C102_loop"], "note": "Exact last values of all settings and the resulting requests for every sequence of lines. Partial because the commands behind quit are executed with -c and set-order does not trim its argument (negation witnesses)."},
 {"property": "C103", "status": "partial", "theorems": ["Cli.C103_deleted_fails", "Cli.C103_space_fails", "Cli.C103_nonvacuous", "Cli.C103_corpus", "Cli.C103_select", "Cli.C103_words", "Cli.C103_exists_partial", "Cli.C103_no_delete_partial"], "note": "A selected corpus exists unless a line deleted it while it was selected. Negation witnesses: deleted corpora stay selected, names with white space cannot be selected."},
 {"property": "C104", "status": "partial", "theorems": ["Cli.C104_lost_fails", "Cli.C104_nonvacuous", "Cli.C104_open_partial", "Cli.C104_closed", "Cli.C104_stays_closed", "Cli.C104_parallel"], "note": "The storage stays open if it can always be opened; exact condition for a closed storage otherwise; the shown value of the parallel search is the one of the last opening. Negation witness for a storage that cannot be opened again."},
 {"property": "C105", "status": "partial", "theorems": ["Cli.C105_commands", "Cli.C105_plain", "Cli.C105_corpus_partial", "Cli.C105_overflow", "Cli.C105_cursor_fails", "Cli.C105_nonvacuous"], "note": "Exact for the cursor at the end of the line and for the set of commands; the exact condition of the overflow. Negation witness for a cursor inside of the line."},
 {"property": "C106", "status": "partial", "theorems": ["Cli.C106_check_fails", "Cli.C106_round_partial", "Cli.C106_directory_fails", "Cli.C106_missing_fails", "Cli.C106_nonvacuous", "Cli.C106_txt_fails"], "note": "The formats agree exactly for the extensions zip, graphml and xml. Negations: directories, other extensions, missing paths, the check for a single corpus."},
 {"property": "C107", "status": "partial", "theorems": ["GsFiles.Ex.C107_nonvacuous", "GsFiles.Ex.C107_changed_example", "GsFiles.Ex.C107_path_fails", "GsFiles.Ex.C107_second_nonvacuous", "GsFiles.Ex.C107_stale_fails", "GsFiles.Ex.C107_stale_nonvacuous", "GsFiles.Ex.C107_roots_fails", "GsFiles.Ex.C107_in_place_fails", "GsFiles.Ex.C107_old_stats_fails", "GsFiles.Ex.C107_last_nonvacuous", "GsFiles.C107_save_partial", "GsFiles.C107_last", "GsFiles.C107_legacy", "GsFiles.C107_stale", "GsFiles.C107_graph_partial", "GsFiles.C107_cycles_partial", "GsFiles.C107_lost", "GsFiles.C107_second", "GsFiles.C107_in_place", "GsFiles.C107_names"], "note": "False for path storages (C107_path_fails): after the first load they are not written again and are lost at the second save with a backup (C107_lost, C107_second hold for every graph). Proved for all other storages and any number of rounds (C107_cycles_partial), for one component (C107_save_partial), for a whole graph with storages that were not loaded from current (C107_graph_partial), for sequences of saves into one directory (C107_last), and for the names in impl.cfg (C107_names). Also false with files of older versions (C107_stale, C107_stale_fails, C107_old_stats_fails, C107_roots_fails) and in place (C107_in_place, C107_in_place_fails). Missing: the serialised form of the fields."},
 {"property": "C108", "status": "partial", "theorems": ["Answer.Ex.C108_nonvacuous", "Answer.Ex.C108_ids_nonvacuous", "Answer.C108_listing_unique", "Answer.C108_listing_partial", "Answer.C108_find_partial", "Answer.C108_any_order_partial", "Answer.C108_count_partial", "Answer.C108_inverted_partial", "Answer.C108_no_error_partial", "Answer.C108_ids_partial"], "note": "The text of a query is connected with the output of find and count by composing the parser, planning and join theorems (C101) with sorting (C34, C74), paging (C35) and identifiers (C39, C70). Restricted to texts without parentheses, no repeated names, one alternative if some node search is optional, queries without two node searches that can have the same match, corpora in which the order of results is consistent (C34 shows where it is not), no quirks mode and no time out."},
 {"property": "C109", "status": "partial", "theorems": ["Answer.Gx.C109_subcorpus_nonvacuous", "Answer.Gx.C109_corpus_nonvacuous", "Answer.Gx.C109_optional_fails", "Answer.Gx.C109_matched_nonvacuous", "Answer.C109_errors", "Answer.C109_query_partial", "Answer.C109_query_exact_partial", "Answer.C109_matched_partial", "Answer.C109_subcorpus", "Answer.C109_corpus"], "note": "Sub-corpus graphs and corpus graphs are proved completely (for correct storages). Graphs for query texts have the restrictions of C101; with an optional node search before another one the node of the default match is added, so the claim fails there (C109_optional_fails) and C109_query_exact_partial says exactly what the graph contains. C109_errors: one failing result makes the whole call fail."},
 {"property": "C110", "status": "partial", "theorems": ["Listing.Ex.C110_nodes_nonvacuous", "Listing.Ex.C110_most_frequent_nonvacuous", "Listing.Ex.C110_edges_nonvacuous", "Listing.Ex.C110_components_nonvacuous", "Listing.Ex.C110_opened_nonvacuous", "Listing.Ex.C110_components_fails", "Listing.Ex.C110_unreadable_fails", "Listing.Ex.C110_unknown_fails", "Listing.Ex.C110_disk_fails", "Listing.Ex.C110_disk_nonvacuous", "Listing.C110_disk_partial", "Listing.C110_nodes_partial", "Listing.C110_edges_partial", "Listing.C110_opened", "Listing.C110_components_partial", "Listing.C110_unchanged"], "note": "In-memory node and edge annotations and components after every safe history (the restrictions of C51: at most one update that is not written back for a corpus that must be loaded); with one pending update the listed components are those before or after it. For storages on disk with the restrictions of C06, and with the rarest instead of the most frequent value. Errors are swallowed: corpora that do not exist or can not be loaded have empty lists. C110_opened: the lists of a corpus that has just been opened."},
 {"property": "C111", "status": "partial", "theorems": ["Answer.C111_descriptions_partial", "Answer.C111_errors", "Answer.C111_columns_partial", "Answer.C111_valid_iff_count", "Answer.C111_refused", "Answer.C111_valid_partial", "Answer.Ex.C111_nonvacuous", "Answer.Ex.C111_columns_nonvacuous", "Answer.Ex.C111_valid_nonvacuous", "Answer.Ex.C111_pattern_fails", "Answer.Ex.C111_no_corpus_fails", "Answer.Ex.C111_quirks_fails", "Answer.Ex.C111_copies_fails", "Answer.Ex.C111_anno_name_fails", "Answer.Ex.C111_fragment_fails", "Answer.Ex.C111_optional_fails"], "note": "Outside of quirks mode, for texts without parentheses in which no name is used twice; fragments for searches that C94 can read back. Columns with the conditions of C108 on optional nodes. In quirks mode nodes that are not shown or not written are described; without corpora every text is valid."},
 {"property": "C112", "status": "partial", "theorems": ["Timed.Ex.C112_items_nonvacuous", "Timed.Ex.C112_count_nonvacuous", "Timed.Ex.C112_frequency_nonvacuous", "Timed.Ex.C112_count_extra_nonvacuous", "Timed.Ex.C112_find_nonvacuous", "Timed.Ex.C112_parallel_fails", "Timed.Ex.C112_parallel_nonvacuous", "Timed.C112_items", "Timed.C112_count", "Timed.C112_count_extra", "Timed.C112_frequency", "Timed.C112_find", "Timed.C112_parallel_hangs", "Timed.C112_parallel_never"], "note": "For plans of node searches, filters, nested loops and index joins. The parallel nested loop violates the property: it never returns once the limit is exceeded (C112_parallel_hangs, C112_parallel_never, C112_parallel_fails). The parallel index join is not modelled with time. Limited is the common form of the claims about queries; it includes that the call returns."},
 {"property": "C113", "status": "partial", "theorems": ["Answer.UpdatedEx.C113_nonvacuous", "Answer.C113_results_partial", "Answer.C113_count_partial", "Answer.C113_find_partial"], "note": "Composition of C22, C23, C50, C93, C101 and C108. Restricted to histories for which C50 proves that the index is exact (deletions of nodes only last in an update, no broken orders, see UpdateOk), to components that are stored as adjacency lists (C98 is about changes of the storage), to texts without parentheses, to the operators and segmentations of C101, and to rows without equal matches for different searches (there the kind of join decides, C42). For overlap the index has to be continuous."},
 {"property": "C114", "status": "partial", "theorems": ["Rel.QueriedEx.C114_nonvacuous", "Rel.QueriedEx.C114_index_nonvacuous", "Rel.QueriedEx.C114_dominating_token_fails", "Rel.QueriedEx.C114_two_texts_fails", "Rel.C114_history_partial", "Rel.C114_rows_partial", "Rel.C114_index_partial", "Rel.C114_results_partial", "Rel.C114_count_partial", "Rel.C114_find_partial"], "note": "Composition of the import (C79 to C85), the index (C50) and queries after updates (C113). Partial: tables in which a token dominates or covers something, or edges cross texts, are excluded (witnesses C114_dominating_token_fails and C114_two_texts_fails), as are the query constructs excluded by C101. C114_rows_partial and C114_index_partial express the relations of the text operators and the index with the rows; C114_results_partial, C114_count_partial and C114_find_partial the answers."},
 {"property": "C115", "status": "partial", "theorems": ["Graph.C115_document", "Exported.Ex.C115_document_nonvacuous", "Exported.Ex.C115_identifiers_nonvacuous", "Exported.Ex.C115_nonvacuous", "Exported.Ex.C115_default_nonvacuous", "Exported.Ex.C115_untyped_fails", "Exported.C115_events_partial", "Exported.C115_history_partial", "Exported.C115_components_partial", "Exported.C115_answers_partial", "Exported.C115_results_partial", "Exported.C115_count_partial", "Exported.C115_find_partial"], "note": "C115_document is complete for every graph with a history: the exported document presents the graph without its generated components. The other theorems are partial: names, keys and components must be readable again (C58: keys with a colon and characters that XML can not contain are lost), components without edges are not exported and have to be absent, and the queries are those of C113. Optional nodes are compared for equal default matches. A node whose label annis::node_type was deleted is not exported (C115_untyped_fails)."},
 {"property": "C116", "status": "proved", "theorems": ["Info.Ex.C116_info_nonvacuous", "Info.Ex.C116_broken_nonvacuous", "Info.Ex.C116_preload_nonvacuous", "Info.Ex.C116_list_nonvacuous", "Info.Ex.C116_unload_nonvacuous", "Info.Ex.C116_list_fails", "Info.Ex.C116_unknown_fails", "Info.C116_info", "Info.C116_info_succeeds", "Info.C116_reads_only", "Info.C116_list", "Info.C116_list_succeeds", "Info.C116_files", "Info.C116_preload_succeeds", "Info.C116_preload", "Info.C116_query", "Info.C116_stays", "Info.C116_unload"], "note": "After any operations, info and list describe what is in memory (C116_info, C116_list), and exactly when they succeed (C116_info_succeeds, C116_list_succeeds); they change nothing (C116_reads_only); preload, queries, unload, delete and what stays in memory (C116_preload, C116_preload_succeeds, C116_query, C116_files, C116_stays, C116_unload). Two stronger claims are refuted: that list describes the readable corpora if one configuration is broken (C116_list_fails), and that info is an error for a corpus that does not exist (C116_unknown_fails). Model: one thread, directories that change only by delete, no global statistics."},
 {"property": "C117", "status": "partial", "theorems": ["Web.C117_unauthorized", "Web.C117_forbidden", "Web.C117_bad_request", "Web.C117_not_found", "Web.C117_timeout", "Web.C117_gateway", "Web.C117_internal", "Web.C117_jobs", "Web.C117_known", "Web.C117_hidden", "Web.Ex.C117_nonvacuous", "Web.Ex.C117_unknown_fails", "Web.Ex.C117_put_fails", "Web.Ex.C117_export_fails"], "note": "Proved: for every request and state, one equivalence per status (C117_unauthorized, C117_forbidden, C117_bad_request, C117_not_found, C117_timeout, C117_gateway, C117_internal, C117_jobs, C117_known), and that a request without rights reveals nothing by its status (C117_hidden). Violated, so partial: corpora that do not exist give 500 or 200 where 400 and 404 are documented (C117_unknown_fails); mistakes in requests give 502 and 500 (C117_put_fails); an error of an export is reported as one of the database (C117_export_fails). Not covered: bodies, answers of the framework."},
 {"property": "C118", "status": "partial", "theorems": ["LockFile.C118_exclusive_fails", "LockFile.C118_removed_fails", "LockFile.C118_nonvacuous", "LockFile.C118_same_file", "LockFile.C118_exclusive_partial", "LockFile.C118_third", "LockFile.C118_refused_partial", "LockFile.C118_free", "LockFile.C118_close_partial"], "note": "Two processes never have the lock of the same file (C118_same_file, all interleavings). The lock file is removed by name after it was unlocked, so two processes can have a storage for the same directory (C118_exclusive_fails) and the lock file of a storage in use can disappear (C118_removed_fails); this needs a third process that already ended (C118_third). Without a process between opening and locking while another one is between unlocking and removing, there is at most one storage (C118_exclusive_partial), everybody else is refused (C118_refused_partial), and closing leaves neither file nor lock (C118_close_partial). If nobody has a storage the next attempt succeeds, in all executions and also after crashes (C118_free)."},
 {"property": "C119", "status": "partial", "theorems": ["Settings.C119_nonvacuous", "Settings.C119_no_file_nonvacuous", "Settings.C119_secret_nonvacuous", "Settings.C119_port_fails", "Settings.C119_in_effect", "Settings.C119_no_file", "Settings.C119_unknown_keys", "Settings.C119_secret_fails", "Settings.C119_bind", "Settings.C119_rights", "Settings.C119_forged_fails", "Settings.C119_forged_nonvacuous", "Settings.C119_rights_nonvacuous"], "note": "A file is accepted exactly if it stands for settings, and these are in effect (C119_in_effect, C119_no_file); unknown keys do not matter (C119_unknown_keys); the address determines host and port (C119_bind). With a configured secret, groups and roles come only from tokens verified with it (C119_rights). Every accepted file without a secret and without public keys uses the published default secret (C119_secret_fails), so a token signed with it is refused nothing (C119_forged_fails); ports from 32768 on can not be configured and negative ones are accepted (C119_port_fails)."},
 {"property": "C120", "status": "proved", "theorems": ["Explain.C120_nonvacuous", "Explain.C120_names_needed", "Explain.C120_operator", "Explain.C120_annotation", "Explain.C120_shown", "Explain.C120_query", "Explain.C120_query_nonvacuous"], "note": "All operators with a Display text and identifiers as names; the requirement on names is needed (C120_names_needed) and is met by the operators of every text of a query (C120_query)."},
 {"property": "C121", "status": "partial", "theorems": ["Explain.Ex.C121_nonvacuous", "Explain.Ex.C121_plan_fails", "Explain.Ex.C121_whole_nonvacuous", "Explain.C121_search_fragment", "Explain.C121_operator_fragment", "Explain.C121_operator", "Explain.C121_fragment_nonvacuous", "Explain.C121_plan_partial", "Explain.C121_number", "Explain.C121_fragment_partial", "Explain.C121_whole_partial"], "note": "Holds if no description has the end of a line in it: the text tells the tree (C121_plan_partial) and every part of each description (C121_whole_partial); fails for arbitrary descriptions (C121_plan_fails). The fragments of queries on one line have no line breaks (C121_search_fragment, C121_operator_fragment); the fragment of an operator tells the operator and its operands. Plans with an alternative without description are left out: there is only the plan of a query without results."}
]}
