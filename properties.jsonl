{"id": "C01", "title": "Symbol table is a bijection with stable ids", "statement": "After any sequence of inserts, removals and save/load cycles of a symbol table, looking up the id returned for a live value yields that value, looking up a live value yields its id, two different live values never share an id, an id never changes while its value stays live, and a removed value is not found any more.", "quantifier": "all finite sequences of insert / remove / clear / serialise-and-reload operations over an arbitrary value type", "why_tests_cant": "Slot reuse makes the outcome depend on the whole history of inserts and removals; tests only sample a few histories.", "anchors": ["core/src/annostorage/symboltable.rs: SymbolTable::{insert,remove,get_symbol,get_value_ref,after_deserialization,clear}"]}
{"id": "C02", "title": "In-memory annotations behave like a map from (item, key) to value", "statement": "get_value_for_item / has_value_for_item / get_annotations_for_item of the in-memory annotation storage return exactly what the last insert for that item and key wrote, unless that annotation or the item was removed (or the storage cleared) afterwards.", "quantifier": "all histories of insert, remove_annotation_for_item, remove_item and clear; all items, keys and values", "why_tests_cant": "The storage keeps two indexes and two symbol tables with slot reuse; agreement with a map has to hold after every history.", "anchors": ["core/src/annostorage/inmemory.rs: AnnoStorageImpl::{insert,remove_annotation_for_item,remove_item,get_value_for_item,get_annotations_for_item}"]}
{"id": "C03", "title": "In-memory annotation search is sound, complete and duplicate free", "statement": "Searching annotations by optional namespace, name and value condition returns exactly the (item, key) pairs whose current value satisfies the condition, each once.", "quantifier": "all histories of the storage, all search arguments (namespace given or not; exact value, not-value, any)", "why_tests_cant": "The reverse index must mirror the forward index after every interleaving of overwrite and removal.", "anchors": ["core/src/annostorage/inmemory.rs: exact_anno_search, matching_items, get_qnames, insert, remove_annotation_for_item, remove_item"]}
{"id": "C04", "title": "Annotation counters equal the number of stored annotations", "statement": "number_of_annotations, is_empty, annotation_keys and number_of_annotations_by_name report exactly the annotations retrievable from the storage.", "quantifier": "all histories including clear; all namespaces and names", "why_tests_cant": "Counters are maintained incrementally, so a single path that forgets an update shows only after a particular history.", "anchors": ["core/src/annostorage/inmemory.rs: number_of_annotations, number_of_annotations_by_name, annotation_keys, clear, is_empty"]}
{"id": "C05", "title": "get_all_values with most_frequent_first orders by decreasing frequency", "statement": "get_all_values(key, true) lists every current value of the key exactly once and a value that occurs more often is listed before one that occurs less often, for both the in-memory and the disk based storage.", "quantifier": "all storage contents reachable by any history, all keys, both implementations", "why_tests_cant": "Order and completeness must hold for all frequency distributions and both implementations.", "anchors": ["core/src/annostorage/inmemory.rs: get_all_values", "core/src/annostorage/ondisk.rs: get_all_values"]}
{"id": "C06", "title": "Disk annotation storage search agrees with lookup", "statement": "For the disk based annotation storage, exact_anno_search returns an (item, key) pair for value v iff get_value_for_item(item, key) returns v.", "quantifier": "all histories of insert (including overwrites), remove and remove_item; all values", "why_tests_cant": "Two on-disk indexes are maintained separately; divergence appears only for certain histories and for values with special bytes.", "anchors": ["core/src/annostorage/ondisk.rs: insert, remove_annotation_for_item, remove_item, exact_anno_search, get_by_anno_qname_range, parse_by_anno_qname_key"]}
{"id": "C07", "title": "Binary keys preserve order and are injective", "statement": "create_key of unsigned integers, edges and composite keys orders byte-wise exactly as the values compare, and parse_key(create_key(x)) = x; range scans by prefix therefore return exactly the keys with that prefix.", "quantifier": "all unsigned integers of the fixed width, all edges, all composite keys", "why_tests_cant": "Order preservation ranges over 2^64 values per field.", "anchors": ["core/src/serializer.rs: FixedSizeKeySerializer/KeySerializer impls", "core/src/annostorage/ondisk.rs: create_by_container_key, create_by_anno_qname_key"]}
{"id": "C08", "title": "DiskMap is an ordered map for every eviction schedule", "statement": "get, remove, iter and range of the disk backed map return what an ordinary ordered map would return for the same inserts and removes, whatever the eviction strategy and whenever compaction or eviction happens; write-out and reload preserve the contents.", "quantifier": "all operation sequences, all eviction thresholds, all interleavings with compact/evict and reload", "why_tests_cant": "Data moves between three levels with tombstones; correctness depends on where each key happens to be.", "anchors": ["core/src/util/disk_collections.rs: DiskMap::{insert,get,remove,iter,range,compact,evict_c0_if_necessary,write_to}, CombinedRange, SimplifiedRange"]}
{"id": "C09", "title": "DiskMap.contains_key agrees with get", "statement": "contains_key(k) is true iff get(k) returns a value.", "quantifier": "all operation sequences and eviction schedules, all keys", "why_tests_cant": "The answer depends on which level holds a tombstone, hence on the full eviction history.", "anchors": ["core/src/util/disk_collections.rs: DiskMap::contains_key, DiskMap::get"]}
{"id": "C10", "title": "Cycle-safe traversal enumerates exactly the simple paths", "statement": "The depth-first traversal used by graph storages terminates on every finite graph (cyclic or not) and reports node n with distance d iff there is a path without repeated nodes of length d from the start to n and d lies in the requested range.", "quantifier": "all finite graphs, all start nodes, all distance bounds (including unbounded)", "why_tests_cant": "Termination and completeness on arbitrary cyclic graphs cannot be sampled.", "anchors": ["core/src/dfs.rs: CycleSafeDFS::{new,new_inverse,enter_node,is_cyclic,next}"]}
{"id": "C11", "title": "find_connected and is_connected of an edge storage mean reachability within the bounds", "statement": "find_connected(n,min,max) returns exactly the nodes reachable from n by a path without repeated nodes whose length is within the bounds, each once; is_connected(n,m,min,max) is true iff m is among them; the inverse search is the same relation flipped.", "quantifier": "all graphs, nodes and bounds for the adjacency list storage", "why_tests_cant": "Quantifies over all graphs and bounds.", "anchors": ["core/src/graph/storage/adjacencylist.rs: find_connected, find_connected_inverse, is_connected"]}
{"id": "C12", "title": "distance returns the length of a shortest path", "statement": "distance(a,b) returns the length of a shortest path from a to b, and None iff b is not reachable.", "quantifier": "all graphs and node pairs, all storage implementations", "why_tests_cant": "The first path found by a depth-first search need not be shortest; only some graphs show it.", "anchors": ["core/src/graph/storage/adjacencylist.rs: distance", "core/src/graph/storage/dense_adjacency.rs: distance", "core/src/graph/storage/disk_adjacency.rs: distance", "core/src/graph/storage/linear.rs: distance", "core/src/graph/storage/prepost.rs: distance"]}
{"id": "C13", "title": "Edge storage keeps outgoing and ingoing edges in sync", "statement": "After any sequence of add_edge, delete_edge, delete_node, add_edge_annotation and delete_edge_annotation, b is an outgoing neighbour of a iff a is an ingoing neighbour of b iff the edge was added and not deleted since (self loops never stored); neighbours are listed in ascending order without duplicates; an edge annotation exists only if its edge does.", "quantifier": "all histories of writable adjacency list operations", "why_tests_cant": "Invariant over unbounded histories.", "anchors": ["core/src/graph/storage/adjacencylist.rs: add_edge, delete_edge, delete_node, add_edge_annotation, delete_edge_annotation, get_outgoing_edges, get_ingoing_edges"]}
{"id": "C14", "title": "Linear (chain) storage answers like the graph it was copied from", "statement": "When every node of an acyclic component has at most one outgoing and one ingoing edge, copying it into the linear storage and asking for neighbours, find_connected, find_connected_inverse, distance, is_connected and root nodes gives the answers of the original component.", "quantifier": "all disjoint unions of chains, all nodes of the component, all bounds", "why_tests_cant": "Positions and bound arithmetic must be right for all chain lengths and bound combinations.", "anchors": ["core/src/graph/storage/linear.rs: copy, find_connected, find_connected_inverse, distance, is_connected, get_outgoing_edges"]}
{"id": "C15", "title": "Pre/post-order storage answers like the tree it was copied from", "statement": "When a component is a forest, copying it into the pre/post-order storage gives the original answers for find_connected, find_connected_inverse, is_connected and distance for nodes of the component, for all bounds.", "quantifier": "all forests, all node pairs, all bounds", "why_tests_cant": "Correctness of order intervals is a theorem about all trees.", "anchors": ["core/src/graph/storage/prepost.rs: copy, enter_node, exit_node, find_connected, find_connected_inverse, is_connected, distance"]}
{"id": "C16", "title": "Pre/post-order is_connected agrees with find_connected", "statement": "For the pre/post-order storage, is_connected(a,b,min,max) holds iff find_connected(a,min,max) contains b, also on directed acyclic graphs where a node has several order entries.", "quantifier": "all acyclic graphs, node pairs and bounds", "why_tests_cant": "Only nodes reachable on several paths of different length can disagree.", "anchors": ["core/src/graph/storage/prepost.rs: is_connected, find_connected"]}
{"id": "C17", "title": "Compact single-successor storage keeps every edge", "statement": "Copying a component into the dense adjacency storage or the path storage keeps all edges and edge annotations whenever the selection heuristic may choose it (at most one outgoing edge per node).", "quantifier": "all components with fan-out at most one", "why_tests_cant": "Losslessness must hold for every component the heuristic accepts.", "anchors": ["core/src/graph/storage/dense_adjacency.rs: copy", "core/src/graph/storage/disk_path.rs: copy", "core/src/graph/storage/registry.rs: get_optimal_impl_heuristic"]}
{"id": "C18", "title": "Optimising a graph never changes its contents", "statement": "Calculating statistics, choosing the implementation for a component and copying it there preserves the set of edges of the component.", "quantifier": "all edge sets, including components that mix trees with cycles not reachable from a root", "why_tests_cant": "The choice depends on heuristics over statistics that look only at parts of the graph.", "anchors": ["core/src/graph/storage/adjacencylist.rs: calculate_statistics", "core/src/graph/storage/registry.rs: get_optimal_impl_heuristic", "core/src/graph/mod.rs: optimize_gs_impl, optimize_impl"]}
{"id": "C19", "title": "Compact order types never overflow", "statement": "When the heuristic picks 16 bit order numbers and 8 bit levels for a component, every order number and level assigned while copying fits its type.", "quantifier": "all rooted trees whose statistics satisfy the selection thresholds", "why_tests_cant": "The bound relates the number of order positions to the node count for every tree.", "anchors": ["core/src/graph/storage/registry.rs: get_prepostorder_by_size, get_linear_by_size", "core/src/graph/storage/prepost.rs: copy"]}
{"id": "C20", "title": "Union view merges edge containers as sets", "statement": "The union of several edge containers lists, for every node, the distinct outgoing (ingoing) neighbours found in any member, and traversal over the union is reachability in the union graph.", "quantifier": "all finite lists of edge containers and all nodes", "why_tests_cant": "Quantifies over all combinations of containers.", "anchors": ["core/src/graph/storage/union.rs: UnionEdgeContainer::{get_outgoing_edges,get_ingoing_edges,has_ingoing_edges}"]}
{"id": "C21", "title": "Update log replays exactly what was added", "statement": "Iterating a GraphUpdate yields exactly the added events in insertion order with consecutive ids from 1, whatever mix of adding, iterating and serialising happened before; len counts them and is_empty says whether there are none.", "quantifier": "all interleavings of add_event, iter, len and serialise/deserialise", "why_tests_cant": "Events live partly in a pending change set and partly in finished ones; the split depends on history.", "anchors": ["core/src/graph/update.rs: GraphUpdate::{add_event,iter,len,is_empty,finish_all_changesets}"]}
{"id": "C22", "title": "apply_update implements the documented meaning of each event", "statement": "Applying a list of update events to a graph changes node labels, edges and edge labels exactly as the event list prescribes: AddNode creates a node iff the name is unknown, labels and edges are only added to existing nodes, edge labels only to existing edges, deletions remove exactly the named element.", "quantifier": "all graphs, all update event lists", "why_tests_cant": "Histories of unbounded length over nodes, labels and edges in many components.", "anchors": ["core/src/graph/mod.rs: Graph::apply_update_in_memory"]}
{"id": "C23", "title": "No dangling edges after node deletion", "statement": "After an update in which a node is deleted, no component contains an edge from or to that node, also if the component was created by the same update.", "quantifier": "all graphs and update sequences", "why_tests_cant": "Depends on the order of component creation and deletion inside one update.", "anchors": ["core/src/graph/mod.rs: apply_update_in_memory (DeleteNode, all_components)"]}
{"id": "C24", "title": "Node names stay unique and node ids are never reused while alive", "statement": "After any sequence of updates that do not touch the annis:node_name label directly, no two nodes have the same name and every name maps to exactly one live node id.", "quantifier": "all update histories without explicit annis:node_name label events", "why_tests_cant": "Invariant over all histories; involves id generation from the largest known item.", "anchors": ["core/src/graph/mod.rs: apply_update_in_memory (AddNode), get_cached_node_id", "core/src/annostorage/inmemory.rs: get_largest_item, get_node_id_from_name"]}
{"id": "C25", "title": "Batching updates is equivalent to applying them one by one", "statement": "Applying a list of events in one update gives the same graph as applying the same events as separate updates (the name-to-id cache is transparent).", "quantifier": "all graphs, all event lists, all ways to split them into batches", "why_tests_cant": "Cache and pre-computed component list live for one batch only; equivalence is about all splits.", "anchors": ["core/src/graph/mod.rs: apply_update_in_memory, get_cached_node_id, all_components"]}
{"id": "C26", "title": "A failed update leaves no trace", "statement": "If applying an update to a stored graph fails, the graph afterwards equals the graph before the update.", "quantifier": "all graphs, all update lists, every position of the failing event", "why_tests_cant": "Failure may occur at every event position.", "anchors": ["core/src/graph/mod.rs: apply_update, apply_update_keep_statistics"]}
{"id": "C27", "title": "Acknowledged updates survive a crash", "statement": "After apply_update returned success, reopening the corpus after a crash at any point yields a graph that contains the effects of all acknowledged updates.", "quantifier": "all sequences of updates and background syncs, all crash points between file system operations", "why_tests_cant": "Quantifies over crash points and histories.", "anchors": ["core/src/graph/mod.rs: persist_updates, background_sync_wal_updates, internal_open, apply_update"]}
{"id": "C28", "title": "Saving with backup is atomic under crashes", "statement": "If the process crashes at any point while the corpus is being written back with the backup protocol, reopening the corpus loads either the old or the new complete state, and doing so repeatedly is stable.", "quantifier": "all crash points inside the write-back protocol, any number of crashes and reopens", "why_tests_cant": "Tests do not crash between two renames.", "anchors": ["core/src/graph/mod.rs: internal_save_with_backup, background_sync_wal_updates, internal_open, save_to, internal_save"]}
{"id": "C29", "title": "Component directory names are decodable", "statement": "The relative directory written for a component can be read back to the same component, and different components never share a directory.", "quantifier": "all component types, layers and names", "why_tests_cant": "All strings, including empty and special layer names.", "anchors": ["core/src/graph/mod.rs: component_to_relative_path, find_components_from_disk"]}
{"id": "C30", "title": "Component identifiers round-trip through text", "statement": "Parsing the printed form of a component yields the component again.", "quantifier": "all component types, layers and names", "why_tests_cant": "All strings, including ones with separators.", "anchors": ["core/src/types.rs: Component Display / FromStr"]}
{"id": "C31", "title": "Listing components filters exactly", "statement": "get_all_components(ctype, name) returns exactly the components of the graph with that type and name (all when not given).", "quantifier": "all component sets and filter arguments", "why_tests_cant": "Range queries over an ordered set must not miss or add elements for any names.", "anchors": ["core/src/graph/mod.rs: get_all_components"]}
{"id": "C32", "title": "Qualified names round-trip", "statement": "Splitting the joined form of a namespace and name returns the namespace and name.", "quantifier": "all namespaces and names, including ones with ':' and '%'", "why_tests_cant": "All strings.", "anchors": ["core/src/util/mod.rs: join_qname, split_qname", "core/src/graph/serialization/graphml.rs"]}
{"id": "C33", "title": "Result sorting is a sorted permutation for every random pivot choice", "statement": "Sorting results (fully or only the first n) with any sequence of random pivots for which it ends gives a permutation of the input in which the first n entries are the n smallest in order; for every input there are pivots for which it ends, and there are pivots for which it never ends.", "quantifier": "all inputs, all total preorders, all n, all pivot choice sequences", "why_tests_cant": "Random pivots: every schedule of random choices must give the same guarantee.", "anchors": ["graphannis/src/annis/util/quicksort.rs: sort, sort_first_n_items, quicksort, randomized_partition, partition, insertion_sort"]}
{"id": "C34", "title": "Result order is a consistent total order", "statement": "The comparison used to order matches is total, antisymmetric up to identical matches and transitive, so the order of results does not depend on the sort algorithm's random choices.", "quantifier": "all corpora, all triples of matches", "why_tests_cant": "Transitivity ranges over all triples of nodes in all corpora.", "anchors": ["graphannis/src/annis/db/sort_matches.rs: compare_matchgroup_by_text_pos, compare_match_by_text_pos, compare_document_path"]}
{"id": "C35", "title": "Pages partition the result list", "statement": "If matches are totally ordered (see C34) and the order is not the randomized one, find with offset and limit over several corpora returns exactly the corresponding slice of the unlimited result list, whatever the random pivots of the two searches are; consecutive pages concatenate to the longer page.", "quantifier": "all result lists per corpus, all offsets and limits, any number of corpora", "why_tests_cant": "Offset bookkeeping across corpora for all combinations of sizes.", "anchors": ["graphannis/src/annis/db/corpusstorage.rs: CorpusStorage::find, find_in_single_corpus"]}
{"id": "C36", "title": "count equals the number of found matches", "statement": "count(query) equals the number of matches find(query) returns without limit, and both report the same errors.", "quantifier": "all queries and corpora, including evaluation errors", "why_tests_cant": "Errors may occur at any position of the stream.", "anchors": ["graphannis/src/annis/db/corpusstorage.rs: count, find"]}
{"id": "C37", "title": "Frequency tables add up", "statement": "frequency(query, def) fails iff a plan reports an error; otherwise it contains each value tuple once, its count is the number of matches with that tuple, counts are in descending order and sum up to count(query).", "quantifier": "all match lists and definitions", "why_tests_cant": "All multisets of tuples.", "anchors": ["graphannis/src/annis/db/corpusstorage.rs: frequency"]}
{"id": "C38", "title": "Corpus names map to distinct directories inside the data directory", "statement": "The directory used for a corpus name lies directly inside the data directory, different corpus names use different directories, and listing the directories returns the original names.", "quantifier": "all corpus names (any Unicode string)", "why_tests_cant": "All strings, including '.', '..' and the empty name.", "anchors": ["graphannis/src/annis/db/corpusstorage.rs: corpus_directory_on_disk, list_from_disk, PATH_ENCODE_SET, delete"]}
{"id": "C39", "title": "Match ids can be resolved to node names", "statement": "The node names extracted from a match id produced by find are the names of the matched nodes, in order.", "quantifier": "all matches, annotation namespaces, names and node names", "why_tests_cant": "All strings with separators.", "anchors": ["graphannis/src/annis/db/corpusstorage.rs: find_in_single_corpus", "graphannis/src/annis/util/mod.rs: node_names_from_match"]}
{"id": "C40", "title": "Error positions point at the offending character", "statement": "For every byte position in a query, the reported line and column identify that position, and the text of an error with a location identifies the bytes it is about and its description.", "quantifier": "all query strings and positions", "why_tests_cant": "All strings with arbitrary newlines.", "anchors": ["graphannis/src/annis/db/aql/mod.rs: get_line_offsets, get_line_and_column_for_pos, extract_location", "graphannis/src/annis/types.rs: LineColumn::fmt, LineColumnRange::fmt", "graphannis/src/annis/errors.rs: AQLError::fmt"]}
{"id": "C41", "title": "Unconnected query terms are rejected exactly when the query graph is unconnected", "statement": "A conjunction is rejected as not connected iff the graph formed by its mandatory nodes and binding operators is not connected.", "quantifier": "all conjunctions", "why_tests_cant": "All graphs on query nodes.", "anchors": ["graphannis/src/annis/db/aql/conjunction.rs: check_components_connected"]}
{"id": "C42", "title": "Joins return exactly the matching pairs", "statement": "Nested loop and index joins output exactly the combinations of left and right tuples for which the operator holds (and which are distinct when the operator is not reflexive), each once, independent of which side is the outer loop.", "quantifier": "all input streams, operators and operand positions", "why_tests_cant": "All streams; caching of the inner side makes the first pass different from the others.", "anchors": ["graphannis/src/annis/db/exec/nestedloop.rs: NestedLoop::next", "graphannis/src/annis/db/exec/indexjoin.rs: IndexJoin::next"]}
{"id": "C43", "title": "Parallel joins give the same results as sequential ones", "statement": "For every thread schedule the parallel nested loop and index joins emit the same multiset of results as the sequential versions.", "quantifier": "all input streams, buffer sizes and thread schedules", "why_tests_cant": "Schedules of worker threads.", "anchors": ["graphannis/src/annis/db/exec/parallel/nestedloop.rs", "graphannis/src/annis/db/exec/parallel/indexjoin.rs"]}
{"id": "C44", "title": "Execution plan maps result columns back to query nodes", "statement": "Each result tuple lists the matches in the order of the query nodes regardless of the join order; a disjunction with several executable alternatives returns the union of their results without duplicates, and a query with one executable alternative returns its results unchanged.", "quantifier": "all join orders, all alternatives", "why_tests_cant": "All permutations and stream contents.", "anchors": ["graphannis/src/annis/db/plan.rs: ExecutionPlan::{from_disjunction,reorder_match,next}"]}
{"id": "C45", "title": "Precedence and near operators: index retrieval equals filtering", "statement": "For tokens and spans of a text, the right-hand matches an operator retrieves via the index are exactly those its filter accepts, for forward, inverse and near search with every distance range.", "quantifier": "all token chains with spans, all distance ranges", "why_tests_cant": "The optimiser may pick either evaluation strategy; both must agree for all graphs.", "anchors": ["graphannis/src/annis/db/aql/operators/precedence.rs", "graphannis/src/annis/db/aql/operators/near.rs"]}
{"id": "C46", "title": "Inclusion, overlap and alignment operators: index retrieval equals filtering", "statement": "For spans over a token chain, the matches retrieved through the coverage and alignment index are exactly those accepted by the filter function of the operator.", "quantifier": "all token chains and spans, including discontinuous spans", "why_tests_cant": "Plan choice decides which implementation runs.", "anchors": ["graphannis/src/annis/db/aql/operators/inclusion.rs", "graphannis/src/annis/db/aql/operators/overlap.rs", "graphannis/src/annis/db/aql/operators/leftalignment.rs", "graphannis/src/annis/db/aql/operators/rightalignment.rs", "graphannis/src/annis/db/aql/operators/identical_cov.rs"]}
{"id": "C47", "title": "Swapping operands through the inverse operator preserves results", "statement": "An operator's inverse relates (b,a) exactly when the operator relates (a,b), for every operator that offers an inverse.", "quantifier": "all graphs, operators and matches", "why_tests_cant": "The optimiser swaps operands by cost estimates.", "anchors": ["graphannis/src/annis/db/aql/operators/edge_op.rs: get_inverse_operator", "graphannis/src/annis/db/aql/operators/equal_value.rs: get_inverse_operator", "graphannis/src/annis/db/aql/operators/precedence.rs: get_inverse_operator"]}
{"id": "C48", "title": "Edge operators: retrieval equals filtering over several components", "statement": "For dominance, pointing and part-of operators spanning several components, retrieve_matches returns exactly the nodes accepted by filter_match, each once, for direct, ranged and edge-annotated forms.", "quantifier": "all families of components, nodes, ranges and edge annotation conditions", "why_tests_cant": "All component families and ranges.", "anchors": ["graphannis/src/annis/db/aql/operators/edge_op.rs: BaseEdgeOp::{retrieve_matches,filter_match}"]}
{"id": "C49", "title": "Token search finds every token", "statement": "The query for all tokens returns every token of the corpus exactly once.", "quantifier": "all corpora, including documents with a single token", "why_tests_cant": "Depends on a statistic computed by a fold over all tokens.", "anchors": ["graphannis/src/annis/db/exec/tokensearch.rs: AnyTokenSearch", "graphannis/src/annis/db/aql/model.rs: calculate_global_statistics"]}
{"id": "C50", "title": "Text coverage index is rebuilt completely by updates", "statement": "After every update, the left-token, right-token and inherited coverage index edges of every node are those a full recomputation from the corpus would produce.", "quantifier": "all corpora and update histories", "why_tests_cant": "Incremental invalidation must catch all affected nodes for all histories.", "anchors": ["graphannis/src/annis/db/aql/model.rs: before_update_event, after_update_event, apply_update_graph_index, reindex_inherited_coverage, calculate_token_alignment"]}
{"id": "C51", "title": "Cache eviction is invisible to clients", "statement": "For sequential clients, results of all operations on corpora do not depend on when corpora are evicted from the cache; eviction removes oldest entries first, never a corpus in the keep list and stops as soon as the size limit is met.", "quantifier": "all sequential histories and all memory measurements", "why_tests_cant": "All eviction schedules.", "anchors": ["graphannis/src/annis/db/corpusstorage.rs: check_cache_size_and_remove_with_cache, get_loaded_entry, load_entry_with_lock"]}
{"id": "C52", "title": "Corpus existence is reported consistently", "statement": "create_empty_corpus returns true iff the corpus did not exist and then it exists; delete returns true iff it existed and then it does not; queries on unknown corpora have no effect on these answers.", "quantifier": "all sequential histories of create, delete, info, find, unload and list", "why_tests_cant": "Failed lookups leave cache entries behind; only certain histories show it.", "anchors": ["graphannis/src/annis/db/corpusstorage.rs: create_empty_corpus, delete, get_entry, get_loaded_entry, unload, list"]}
{"id": "C53", "title": "Concurrent updates are not lost", "statement": "After apply_update returned for a corpus, later queries on that corpus observe the update, under every interleaving with other clients loading or evicting corpora.", "quantifier": "all interleavings of client threads", "why_tests_cant": "Thread schedules.", "anchors": ["graphannis/src/annis/db/corpusstorage.rs: get_loaded_entry, load_entry_with_lock, apply_update"]}
{"id": "C54", "title": "Closing waits for background writers", "statement": "Dropping the corpus storage returns only after all background write-backs have finished and always eventually returns if they do.", "quantifier": "all interleavings of background workers and drop", "why_tests_cant": "Thread schedules.", "anchors": ["graphannis/src/annis/db/corpusstorage.rs: Drop, apply_update, sync_wal_updates_in_background"]}
{"id": "C55", "title": "Context subgraph contains exactly the tokens of the context window", "statement": "The subgraph for a match contains the tokens from ctx_left positions before to ctx_right positions after the covered tokens (clipped at the text borders), all nodes covering them, and the induced edges without index components.", "quantifier": "all texts, matches and context sizes", "why_tests_cant": "All positions and context sizes.", "anchors": ["graphannis/src/annis/db/corpusstorage/subgraph.rs: TokenRegion::from_node_with_context, TokenIterator::next, create_subgraph_for_iterator"]}
{"id": "C56", "title": "Arity and range conditions count distinct children", "statement": "The arity condition accepts a node iff the number of distinct children over all dominance and pointing components is in the given range.", "quantifier": "all families of components and ranges", "why_tests_cant": "All graphs.", "anchors": ["graphannis/src/annis/db/aql/operators/arity.rs: ArityOperator::filter_match"]}
{"id": "C57", "title": "Regular expression search matches whole values", "statement": "A regex condition accepts a value iff the pattern matches the whole value, and evaluating a plain-text pattern as exact value gives the same answer.", "quantifier": "all patterns and values", "why_tests_cant": "All patterns, alternations at top level included.", "anchors": ["core/src/util/mod.rs: regex_full_match", "graphannis/src/annis/util/mod.rs: exact_value_for_regex"]}
{"id": "C58", "title": "GraphML export and import preserve the graph", "statement": "Importing an exported graph yields the same nodes, node labels, edges and edge labels, whatever characters names and values contain.", "quantifier": "all graphs and strings", "why_tests_cant": "All strings including XML meta characters.", "anchors": ["core/src/graph/serialization/graphml.rs: export, import, read_graphml"]}
{"id": "C59", "title": "Queries on single-successor storages", "statement": "On a component copied into the dense adjacency storage or the path storage, find_connected, find_connected_inverse, distance and is_connected answer exactly by the simple paths of the copied component, including the distance of a node to itself.", "quantifier": "all components with at most one outgoing edge per node (paths of at most 15 edges for the path storage), all nodes and all distance ranges", "why_tests_cant": "The path storage replaces the traversal with slices of a precomputed array; off-by-one errors only show for particular combinations of range, path length and node.", "anchors": ["core/src/graph/storage/dense_adjacency.rs: find_connected, find_connected_inverse, distance, is_connected", "core/src/graph/storage/disk_path.rs: find_connected, find_connected_inverse, distance, is_connected"]}
{"id": "C60", "title": "Disk adjacency storage mirrors its operations", "statement": "After any sequence of edge and annotation updates the disk based adjacency storage lists exactly the inserted and not deleted edges in both directions, answers reachability queries accordingly, and copying another storage into it yields that storage's edges and annotations.", "quantifier": "all update sequences and all source storages, except the single node number u64::MAX", "why_tests_cant": "The edges are found by key range scans whose bounds must be right for every node number.", "anchors": ["core/src/graph/storage/disk_adjacency.rs: add_edge, delete_edge, delete_node, get_outgoing_edges, get_ingoing_edges, copy"]}
{"id": "C61", "title": "The result of a conjunction does not depend on the plan", "statement": "For every order of the operators, every choice of index or nested loop join, of the outer operand, and of sequential or parallel execution, a connected conjunction has a plan and its rows are, up to order, exactly the combinations of candidates for which all operators hold.", "quantifier": "all conjunctions with optional nodes, all candidate lists, all operator orders and plan choices", "why_tests_cant": "The optimiser picks orders randomly and by cost estimates; tests see only some of the plans.", "anchors": ["graphannis/src/annis/db/aql/conjunction.rs: make_exec_plan_with_order, add_binary_operator_to_exec_plan, create_join, create_index_join, optimize_join_order"]}
{"id": "C62", "title": "Value comparison retrieval equals filtering", "statement": "For `==` and `!=`, retrieve_matches returns exactly the matches of the right operand's annotation that filter_match accepts, each once, and filter_match compares the annotation values of the two matches.", "quantifier": "all annotation storages reached by updates, all operand kinds and matches", "why_tests_cant": "The optimiser picks index join or filter by estimated cost; they must agree for all annotation contents.", "anchors": ["graphannis/src/annis/db/aql/operators/equal_value.rs: EqualValue::{filter_match,retrieve_matches}"]}
{"id": "C63", "title": "The locks of the corpus storage cannot deadlock", "statement": "Whatever functions of one corpus storage any number of threads call (including the background writers started by updates), no state is reached in which every unfinished thread waits for a lock of the storage: some thread can always continue, even if waiting writers are preferred to readers; every call ends and leaves no lock behind; an exclusive lock excludes every other holder.", "quantifier": "all numbers of threads, all sequences of public calls per thread, all interleavings, all early exits, all cache contents and entry identities", "why_tests_cant": "A deadlock needs a particular interleaving of several threads, and whether a reader waits for a waiting writer depends on the operating system; tests see a few schedules on one system.", "anchors": ["graphannis/src/annis/db/corpusstorage.rs: get_entry, load_entry_with_lock, get_loaded_entry, prepare_query, import_from_fs, delete, apply_update, sync_wal_updates_in_background, check_cache_size_and_remove_with_cache, export_to_zip"]}
{"id": "C64", "title": "An import is all or nothing", "statement": "An import that returns Ok has stored the imported graph, configuration and linked files so that they can be loaded; an import that returns an error leaves the corpus as it was; other corpora are never touched.", "quantifier": "all storage states, corpora, overwrite flags and patterns of file system failures", "why_tests_cant": "The interesting cases are failures of single file system operations in the middle of an import, which tests do not inject.", "anchors": ["graphannis/src/annis/db/corpusstorage.rs: import_from_fs, copy_linked_files_and_update_references"]}
{"id": "C65", "title": "Linked files stay inside of the corpus and keep their content", "statement": "Importing a corpus writes linked files only below its own files directory, and afterwards the link of every file node leads to the content of the original file.", "quantifier": "all node names, link values, directories and file systems", "why_tests_cant": "Node names come from the imported file; tests use harmless names and never look at files outside of the corpus.", "anchors": ["graphannis/src/annis/db/corpusstorage.rs: copy_linked_files_and_update_references, get_linked_files, copy_linked_files_to_disk"]}
{"id": "C66", "title": "A node search gives exactly the nodes with a wanted annotation", "statement": "After any history of changes to the node annotations, iterating NodeSearch::from_spec for any node search specification gives exactly the nodes that have an annotation the specification asks for (name, namespace, value or full-match regular expression, leaf condition for tokens), shown with the found key or with the node type key; the description of the search makes an index join accept the same matches; no match is given twice; an error occurs only for a pattern that does not compile or when the search for all tokens fails.", "quantifier": "all histories of insertions and removals of node annotations, all coverage components that answer correctly, all regular expression engines, all ten kinds of search specification, all nodes and annotation keys", "why_tests_cant": "The same specification is executed in two ways (search in the storage, or checking the nodes an operator retrieves) with different code for exact values, patterns replaced by values, leaves and constant output keys. Tests fix a few corpora and the choice between the ways depends on estimates.", "anchors": ["graphannis/src/annis/db/exec/nodesearch.rs: NodeSearch::from_spec, new_annosearch_exact, new_annosearch_regex, new_tokensearch, new_anytoken_search", "graphannis/src/annis/db/exec/nodesearch.rs: NodeSearchSpec::get_value_filter, get_anno_qname"]}
{"id": "C67", "title": "Replacing a node search by a search in the components of an operator keeps the answers", "statement": "When optimize_node_search_by_operator replaces the search of a left operand by a search over the source nodes of the components of an operator, the conjunction has the same answers with the same annotation keys.", "quantifier": "all conjunctions, all node searches and descriptions, all operators with any necessary components, all estimates that trigger the replacement, all candidate lists", "why_tests_cant": "The replacement depends on estimates and statistics, so small test corpora rarely trigger it, and it is applied to every operator without asking whether left operands must be source nodes.", "anchors": ["graphannis/src/annis/db/aql/conjunction.rs: optimize_node_search_by_operator", "graphannis/src/annis/db/exec/nodesearch.rs: NodeSearch::new_partofcomponentsearch", "graphannis/src/annis/db/aql/operators/edge_op.rs: BaseEdgeOp"]}
{"id": "C68", "title": "Optional operands, negated operators and the identity operator mean what they say", "statement": "A match passes the filter made for an operator with an optional operand exactly if no node with a wanted annotation stands in the relation to it, whichever variant (index or filter, operator or inverse) is chosen; a negated operator holds exactly where the operator does not; the identity operator holds exactly for two matches of the same node, in its filter and its index.", "quantifier": "all graphs, all target specifications, both sides, all operators that decide a relation, with and without index and inverse", "why_tests_cant": "Which variant is chosen depends on whether the operator has an index or an inverse; each test query exercises one variant.", "anchors": ["graphannis/src/annis/db/aql/operators/non_existing.rs: NonExistingUnaryOperatorSpec::create_operator, NonExistingUnaryOperatorIndex, NonExistingUnaryOperatorFilter", "graphannis/src/annis/db/aql/operators/negated_op.rs: NegatedOp", "graphannis/src/annis/db/aql/operators/identical_node.rs: IdenticalNode"]}
{"id": "C69", "title": "The conjunctions of a query say what its text says", "statement": "For a query tree in disjunctive normal form the alternatives have the meaning of the tree; each alternative becomes a conjunction whose nodes are the distinct node searches of the text in text order, named by their variable or by their number, and in which every operator of the text relates the nodes its operands mean (a search written in place, #n, or #name), a negated operator with one optional operand becomes a condition on the other operand, and the query is rejected exactly if a reference has no node, an optional node is used otherwise, or meta:: is used outside of quirks mode. In quirks mode additionally distances are limited, artificial identical nodes are added for repeated edge joins, and all meta:: searches are about the document of the first node.", "quantifier": "all query trees, all sequences of literals, all positions, names, optional and negated operators, both modes, any number of nodes in earlier alternatives", "why_tests_cant": "The order of nodes, the numbers of references and the treatment of optional operands depend on how the literals of a text are combined; a wrong node number gives plausible but wrong results only for particular combinations.", "anchors": ["graphannis/src/annis/db/aql/mod.rs: parse, map_conjunction, calculate_node_positions, add_node_specs_by_start, add_legacy_metadata_constraints, get_alternatives_from_dnf", "graphannis/src/annis/db/aql/conjunction.rs: add_node_from_query, add_operator_from_query, add_unary_operator_from_query, resolve_variable, resolve_variable_pos"]}
{"id": "C70", "title": "Nodes are numbered over all alternatives and results have the columns of their nodes", "statement": "The n-th node of all alternatives together is the one with the number n, and no number is used twice; the shown part of a result row consists of exactly the matches of the nodes of its alternative that are not optional or artificial; a frequency definition takes the match of the node it names.", "quantifier": "all query trees, both modes, all result rows of any alternative, all frequency definitions", "why_tests_cant": "The column filter and the frequency columns use numbers of the whole query on rows of one alternative; tests with a single alternative or without optional nodes cannot see the difference.", "anchors": ["graphannis/src/annis/db/aql/disjunction.rs: get_variable_pos, get_variable_by_node_nr, is_included_in_output", "graphannis/src/annis/db/aql/mod.rs: execute_query_on_graph", "graphannis/src/annis/db/corpusstorage.rs: find_in_single_corpus, frequency"]}
{"id": "C71", "title": "The web service gives users only the corpora of their groups", "statement": "A request is answered from corpora only if each is in a group of the token (or the group anonymous), unless the user is an administrator or the settings open everything; the error names exactly the forbidden ones; the answers of other users do not depend on what is in any other corpus or its directory; the list of corpora has exactly the readable ones; requests by other users change nothing and those of the administration are refused; an invalid token is never treated like a missing one; putting and deleting groups changes the rights of exactly that group.", "quantifier": "all users, tokens, group tables, sets of corpora, file systems, running jobs and requests", "why_tests_cant": "Non-interference compares two arbitrary worlds that agree on what is permitted; a test checks one forbidden request at a time and cannot see what a permitted request gives away.", "anchors": ["webservice/src/api/mod.rs: check_is_admin, check_corpora_authorized_read", "webservice/src/actions.rs: authorized_corpora_from_groups, list_groups, delete_group, add_or_replace_group", "webservice/src/extractors.rs: verify_token, ClaimsFromAuth::from_request", "webservice/src/api/search.rs: count, find, frequency", "webservice/src/api/corpora.rs: list, subgraph, list_files, file_content, delete", "webservice/src/api/administration.rs: list_groups, delete_group, put_group, import_corpus, export_corpus, jobs"]}
{"id": "C72", "title": "The web service lists and sends exactly the files of a corpus", "statement": "Every listed or sent file is in the directory files of the corpus, which belongs to no other corpus; the list for a node has every file below it once; every listed file can be fetched under the listed name; the directory is the one the storage uses.", "quantifier": "all file systems, corpus names, node names and requested names", "why_tests_cant": "The guard against leaving the directory has to hold for every requested text including encodings, dots, slashes and absolute paths, and the encoding of the directory has to agree with that of the storage for every corpus name.", "anchors": ["webservice/src/api/corpora.rs: list_files, file_content, PATH_SEGMENT_ENCODE_SET", "graphannis/src/annis/db/corpusstorage.rs: corpus_directory_on_disk"]}
{"id": "C73", "title": "Background jobs report everything and give their result once", "statement": "Until its end the answer for a job has exactly the reports made so far in their order, however often it was asked for and whatever other jobs do; the first question after the end gets the final result, every later one is told that there is no such job.", "quantifier": "all interleavings of starts, reports, ends and questions of any number of jobs", "why_tests_cant": "Interleavings of several jobs and clients are unbounded, and the result must be removed exactly at the right question.", "anchors": ["webservice/src/api/administration.rs: BackgroundJobs, Job, JobStatus, jobs, import_corpus, export_corpus"]}
{"id": "C74", "title": "Results that are not sorted again are in the order of the text", "statement": "The search for all tokens is declared to be sorted by text, so find returns its matches without sorting them in the normal order. These matches are in strictly ascending order of their position in the text, every page is the same as if they had been sorted, and the inverted order gives them backwards.", "quantifier": "All corpora (orders of tokens, names, coverage), all storages of the order, all random numbers of both sorts, all offsets and limits, all other plans for the same query", "why_tests_cant": "Tests compare a few corpora with one text per document; whether the shortcut and the sort agree depends on the number of texts of a document, on the names and on the order in which storages enumerate nodes.", "anchors": ["graphannis/src/annis/db/exec/tokensearch.rs:AnyTokenSearch", "graphannis/src/annis/db/exec/nodesearch.rs:is_sorted_by_text", "graphannis/src/annis/db/plan.rs:is_sorted_by_text", "graphannis/src/annis/db/corpusstorage.rs:create_find_iterator_for_query", "graphannis/src/annis/db/sort_matches.rs:compare_match_by_text_pos"]}
{"id": "C75", "title": "Queries see a partly loaded corpus as if it were completely loaded", "statement": "Components are loaded lazily. The components that a query requests contain all components that planning, executing, sorting and extracting take out of the graph, so the answer is the one of the completely loaded corpus; exactly the requested components are loaded, and the query fails iff one of them cannot be read.", "quantifier": "all corpora with any part of their components loaded, all queries with all operators and node searches, all purposes (count, count_extra, find sorted or not, subgraph), all actions of other threads between looking up, loading and executing, all iteration orders of hash sets", "why_tests_cant": "Which components are loaded depends on all earlier queries, evictions and other threads; test corpora are mostly loaded completely by the query before, and a missing component gives a smaller result instead of an error.", "anchors": ["graphannis/src/annis/db/corpusstorage.rs:prepare_query", "core/src/graph/mod.rs:ensure_loaded_parallel", "graphannis/src/annis/db/aql/conjunction.rs:necessary_components", "graphannis/src/annis/db/exec/nodesearch.rs:necessary_components", "graphannis/src/annis/db/token_helper.rs:TokenHelper::new", "graphannis/src/annis/db/corpusstorage/subgraph.rs:create_subgraph_for_iterator"]}
{"id": "C76", "title": "Saving a corpus keeps all of its components", "statement": "Saving writes only loaded components and replaces the old folder. No sequence of queries, updates, background saves and optimisations loses a component of the folder; a background thread saves the whole graph of memory; a failed update changes nothing for readers.", "quantifier": "all sequences of loading, successful and failing updates, background saves and optimisations, all patterns of read errors", "why_tests_cant": "Needs a pending background thread together with lazily loaded components, a second update that fails and read errors.", "anchors": ["core/src/graph/mod.rs:internal_save", "core/src/graph/mod.rs:persist_updates", "core/src/graph/mod.rs:background_sync_wal_updates", "core/src/graph/mod.rs:optimize_impl", "graphannis/src/annis/db/corpusstorage.rs:sync_wal_updates_in_background"]}
{"id": "C77", "title": "Reading the tab-separated tables of relANNIS is the inverse of writing them", "statement": "Every table of values (with NULL, escaped tabulators, line breaks and backslashes) that is written in the relANNIS format is read back unchanged, and the columns of every kind of row are decoded to the values that were written, for both versions of the format.", "quantifier": "all tables, all values, line ends LF and CRLF, both format versions, all numbers in the range of their type", "why_tests_cant": "The number of strings with escapes and of optional columns is unbounded; test corpora hardly contain escapes.", "anchors": ["graphannis/src/annis/db/relannis.rs:get_field", "graphannis/src/annis/db/relannis.rs:get_field_not_null", "graphannis/src/annis/db/relannis.rs:parse_corpus_tab", "graphannis/src/annis/db/relannis.rs:parse_text_tab", "graphannis/src/annis/db/relannis.rs:load_node_tab", "graphannis/src/annis/db/relannis.rs:load_rank_tab"]}
{"id": "C78", "title": "Corpus paths of relANNIS are the paths of the corpus tree", "statement": "From pre- and post-order numbers in any row order the import gets the path of every corpus: the percent-encoded names of its ancestors and itself, joined by slashes; different corpora get different paths and renamed documents get different names.", "quantifier": "all corpus trees, all orders of the rows, all names", "why_tests_cant": "Pre- and post-order numbers describe arbitrary trees; tests have one level of documents.", "anchors": ["graphannis/src/annis/db/relannis.rs:parse_corpus_tab", "graphannis/src/annis/db/relannis.rs:get_parent_path", "graphannis/src/annis/db/relannis.rs:get_corpus_path"]}
{"id": "C79", "title": "An imported relANNIS corpus has exactly the nodes of its tables, with their types", "statement": "The nodes of the imported graph are those of the rows of the node table, the corpora, texts and files, each with its own type; rows of different documents or with different names never become the same node; applying the events gives a graph which represents exactly the described one.", "quantifier": "all tables of a corpus tree in both formats, all external files", "why_tests_cant": "Clashes of names depend on combinations of characters in corpus, text and node names.", "anchors": ["graphannis/src/annis/db/relannis.rs:load_node_tab", "graphannis/src/annis/db/relannis.rs:add_subcorpora", "graphannis/src/annis/db/relannis.rs:add_external_data_files"]}
{"id": "C80", "title": "The corpus structure of an imported relANNIS corpus", "statement": "The PartOf edges of the imported graph are exactly those from each corpus to its parent, from each file and text to its document and from each node to its text.", "quantifier": "all corpus trees, texts and node tables in both formats, all external files", "why_tests_cant": "Completeness (no missing and no additional edge) is a statement about all pairs of nodes.", "anchors": ["graphannis/src/annis/db/relannis.rs:add_subcorpora", "graphannis/src/annis/db/relannis.rs:load_node_tab", "graphannis/src/annis/db/relannis.rs:add_external_data_files"]}
{"id": "C81", "title": "Order of tokens and segmentation spans after a relANNIS import", "statement": "The edges of an ordering component are exactly those from each token (or span of the segmentation) to the one that follows directly by index in the same text of the same document, plus the edges that the rank table gives for this component.", "quantifier": "all tables with unique identifiers and positions, all segmentations, any order of rows and gaps between indexes", "why_tests_cant": "Needs several segmentations, texts and documents, rows in any order.", "anchors": ["graphannis/src/annis/db/relannis.rs:calculate_automatic_token_order", "graphannis/src/annis/db/relannis.rs:load_node_tab", "graphannis/src/annis/db/relannis.rs:load_rank_tab"]}
{"id": "C82", "title": "Dominance and pointing edges of an imported relANNIS corpus", "statement": "The edges of a dominance or pointing component of the imported graph are exactly those of the rank table for this component, and their labels are exactly the edge annotations.", "quantifier": "all tables with unique identifiers, all components, any order of rows", "why_tests_cant": "An edge that is missing or has moved to another component shows only for particular combinations of rows.", "anchors": ["graphannis/src/annis/db/relannis.rs:load_rank_tab", "graphannis/src/annis/db/relannis.rs:load_component_tab", "graphannis/src/annis/db/relannis.rs:load_edge_annotation"]}
{"id": "C83", "title": "Coverage edges of an imported relANNIS corpus", "statement": "A span covers exactly the tokens of its text between its left and right token and those given by the rank table, each by one edge in the component which belongs to the span.", "quantifier": "all tables with numbered tokens, all spans, rank rows with and without parents", "why_tests_cant": "The component depends on combinations of explicit coverage edges and rank rows without parents; the tokens depend on three indexes which are built from all rows.", "anchors": ["graphannis/src/annis/db/relannis.rs:calculate_automatic_coverage_edges", "graphannis/src/annis/db/relannis.rs:add_automatic_cov_edge_for_node", "graphannis/src/annis/db/relannis.rs:load_rank_tab"]}
{"id": "C84", "title": "Whitespace labels keep the text of a document", "statement": "The label for the whitespace after a token is the text until the next token or the end of the text; the characters of the tokens followed by these labels are the original text; the text before the first token is in the label for the whitespace before it.", "quantifier": "all texts and tokens in the order of their positions, all documents", "why_tests_cant": "The loop keeps a position in the text over all tokens; mistakes by one character depend on the gaps.", "anchors": ["graphannis/src/annis/db/relannis.rs:add_white_space_token_labels", "graphannis/src/annis/db/relannis.rs:load_texts"]}
{"id": "C85", "title": "Labels of an imported relANNIS corpus", "statement": "The labels of the imported graph are exactly the annotations, layers, token values (for spans without text the annotation named like the segmentation), metadata, document names, version and file paths of the tables.", "quantifier": "all tables of a corpus tree in both formats, all external files, all names of labels", "why_tests_cant": "Completeness is a statement about all nodes and names; the metadata is selected by a range of a map.", "anchors": ["graphannis/src/annis/db/relannis.rs:load_node_tab", "graphannis/src/annis/db/relannis.rs:load_node_anno_tab", "graphannis/src/annis/db/relannis.rs:load_corpus_annotation", "graphannis/src/annis/db/relannis.rs:add_subcorpora", "graphannis/src/annis/db/relannis.rs:add_external_data_files"]}
{"id": "C86", "title": "Keys of the maps of the relANNIS import", "statement": "The byte keys of the maps used by the import (token positions by text and segmentation, texts, nodes by text) keep the order of the keys and are read back as the same key, also if the map has moved to disk; a range over one text has exactly the entries of this text.", "quantifier": "all names of segmentations (all Unicode strings), all 32-bit and 64-bit numbers", "why_tests_cant": "Byte order and order of strings must agree for all Unicode strings; maps only move to disk for corpora larger than any test.", "anchors": ["graphannis/src/annis/db/relannis.rs:TextProperty", "graphannis/src/annis/db/relannis.rs:TextKey", "graphannis/src/annis/db/relannis.rs:NodeByTextEntry", "graphannis/src/annis/db/relannis.rs:calculate_automatic_coverage_edges", "core/src/serializer.rs:KeySerializer"]}
{"id": "C87", "title": "Configuration of an imported relANNIS corpus", "statement": "The visualizers are sorted by their order, with the default rules which no line of the file replaces or removes followed by the lines of the file with the same order; each property of corpus.properties has the value of its last valid line, context sizes are the multiples of the step up to the maximum; example queries are the complete lines of their table.", "quantifier": "all files with visualizers, properties and example queries", "why_tests_cant": "Repeated keys, equal orders and unreadable values combine in unboundedly many ways; rules are inserted by binary search in a list with equal keys.", "anchors": ["graphannis/src/annis/db/relannis.rs:load_resolver_vis_map", "graphannis/src/annis/db/relannis.rs:load_corpus_properties", "graphannis/src/annis/db/relannis.rs:load_example_queries", "graphannis/src/annis/db/relannis.rs:DEFAULT_VISUALIZER_RULES"]}
{"id": "C88", "title": "Guessed number of annotations", "statement": "The bounds of the histogram of an annotation key are at least two and at most 251 sorted values of the sample, and computing them never leaves the sample. The guess for a range of values is never larger than the number of annotations with the key, does not shrink when the range grows, and is all annotations for a range with all bounds. It should be an upper bound for the annotations in the range, and for a sample of all values it differs from the true number by a bounded amount; the guess for the other values should not underflow. The most frequent value is really the most frequent bound.", "quantifier": "all sets of annotations, all samples, all ranges of values, all roundings of floating-point numbers, all operations on the annotation storage", "why_tests_cant": "The error depends on the distance of bounds in the sample and on rounding; a test has one sample and compares one guess", "anchors": ["core/src/annostorage/inmemory.rs:guess_max_count", "core/src/annostorage/inmemory.rs:calculate_statistics", "core/src/annostorage/inmemory.rs:guess_most_frequent_value", "core/src/annostorage/ondisk.rs:calculate_statistics", "core/src/annostorage/mod.rs:guess_max_count"]}
{"id": "C89", "title": "Statistics of a component", "statement": "After any sequence of operations the statistics have: nodes = number of nodes with an edge, root_nodes = nodes with outgoing and without incoming edges, max_fan_out = the largest number of targets, fan_out_99_percentile = a number that at least 99 percent of the nodes do not exceed, max_depth = length of the longest path from a root, cyclic = there is a cycle, rooted_tree = no cycle and no node with two parents.", "quantifier": "all operation sequences on an adjacency list followed by calculate_statistics", "why_tests_cant": "Leftover entries after deletions, cycles that no root reaches and percentiles of large components need particular histories and sizes", "anchors": ["core/src/graph/storage/adjacencylist.rs:calculate_statistics", "core/src/graph/storage/mod.rs:GraphStatistic"]}
{"id": "C90", "title": "Estimated sizes and costs of plans", "statement": "The estimated number of reachable tokens and path lengths never overflows; every estimated size is at least one and fits a machine number; with selectivities between zero and one no estimated size is larger than the cross product of the searches, no sum of costs overflows, and the costs are bounded by the number of operators.", "quantifier": "all ranges, all statistics, all plans with filters, index joins and nested loop joins, all roundings of floating-point numbers", "why_tests_cant": "Overflows appear only for distances outside of the statistics or for large intermediate sizes, and release builds hide them", "anchors": ["graphannis/src/annis/db/exec/mod.rs:calculate_outputsize", "graphannis/src/annis/db/exec/filter.rs:calculate_binary_outputsize", "graphannis/src/annis/db/exec/indexjoin.rs:IndexJoin::new", "graphannis/src/annis/db/exec/nestedloop.rs:NestedLoop::new", "graphannis/src/annis/db/aql/operators/precedence.rs:estimation_type", "graphannis/src/annis/db/aql/operators/near.rs:estimation_type", "graphannis/src/annis/db/aql/operators/edge_op.rs:estimation_type"]}
{"id": "C91", "title": "Query texts are split into tokens by the longest match", "statement": "The tokenizer splits a query text into exactly one list of tokens, each the longest text a terminal of the grammar matches at this place, keywords before names; the tokens at their positions with blanks between them are the whole text; an error names the first place where no terminal matches; tokens separated by blanks are read back, and blanks may be omitted before and after most punctuation.", "quantifier": "all texts, all lists of tokens, all ways to put blanks between them", "why_tests_cant": "Which texts run together depends on pairs of neighbouring tokens and on characters of all of Unicode; tests only contain well-spaced queries.", "anchors": ["graphannis/src/annis/db/aql/parser.lalrpop:ID", "graphannis/src/annis/db/aql/parser.lalrpop:RegexSearch", "graphannis/src/annis/db/aql/parser.lalrpop:match"]}
{"id": "C92", "title": "The grammar of queries is unambiguous and its trees mean what they say", "statement": "A list of tokens has at most one syntax tree and the parser finds it if there is one; a text is a syntax error exactly if it has no tree; the resulting tree of literals is true exactly if the text says so: conjunctions bind stronger than disjunctions, parentheses group, a chain of operators is the conjunction of the operators between neighbouring operands; queries without parentheses are in disjunctive normal form; blanks do not matter.", "quantifier": "all texts, all syntax trees, all truth values of literals", "why_tests_cant": "Nesting, chains and precedence combine without bound; tests contain a few dozen queries.", "anchors": ["graphannis/src/annis/db/aql/parser.lalrpop:Disjunction", "graphannis/src/annis/db/aql/parser.lalrpop:Conjunction", "graphannis/src/annis/db/aql/parser.lalrpop:Literal", "graphannis/src/annis/db/aql/ast.rs:Literal", "graphannis/src/annis/db/aql/mod.rs:parse"]}
{"id": "C93", "title": "Positions and numbers of node searches", "statement": "The node searches in the literals of a parsed query are those of the text, each at the position where its first token is written, strictly increasing; searches at the same position are the same, so every conjunction has exactly one list of nodes; in queries without parentheses the nodes of each alternative are its searches in the order of the text; names of nodes start with a letter and so never equal a number.", "quantifier": "all query texts with a syntax tree", "why_tests_cant": "The position is the key that identifies a node when the query is translated; an error in it shows only if two searches share a position.", "anchors": ["graphannis/src/annis/db/aql/parser.lalrpop:Literal", "graphannis/src/annis/db/aql/parser.lalrpop:Operand", "graphannis/src/annis/db/aql/mod.rs:map_conjunction"]}
{"id": "C94", "title": "Values, names and numbers of queries", "statement": "The searches a query can contain are exactly those with names that are identifiers but no keywords, values without quotation marks and regular expressions in which slashes are escaped; Display of a search of a query is read as the same search; numbers are kept; no query makes the parser panic.", "quantifier": "all query texts, all searches, all numbers", "why_tests_cant": "Needs names, values and numbers at the limits of the lexical rules.", "anchors": ["graphannis/src/annis/db/aql/parser.lalrpop:NodeSearch", "graphannis/src/annis/db/aql/parser.lalrpop:NodeRef", "graphannis/src/annis/db/aql/parser.lalrpop:RangeSpec", "graphannis/src/annis/db/exec/nodesearch.rs:fmt", "graphannis/src/annis/db/aql/conjunction.rs:get_node_descriptions"]}
{"id": "C95", "title": "The search for a join order ends and returns an order of the same operators that costs no more", "statement": "optimize_join_order_heuristics draws random exchanges of operators, in families of four, until 5 * n rounds in a row have found no cheaper order. The result contains every operator exactly once; it is at least as cheap as the order of the query and as every order that was tried; if each order has a plan, the search ends after a bounded number of rounds whatever the random numbers are. Together with C61 the answers of the query do not depend on the random numbers.", "quantifier": "All numbers of operators, all cost functions, all sequences of random pairs of distinct positions", "why_tests_cant": "The random numbers come from a fixed seed, so a test only sees one sequence of exchanges per query, and costs of real corpora cover few shapes of the cost function", "anchors": ["graphannis/src/annis/db/aql/conjunction.rs: optimize_join_order_heuristics"]}
{"id": "C96", "title": "Corpora survive the export to a ZIP file or directory and the import from it", "statement": "Unpacking an archive changes nothing outside of the temporary directory, whatever its entries are called. Corpora that are exported to a ZIP file (export_to_fs, export_to_zip) or to a directory and then imported (import_all_from_zip, import_from_fs) have the same names, graphs and linked files, the names are returned in order, and nothing else of the importing storage is changed. Exports to a directory write only below it.", "quantifier": "All archives; all lists of corpora, names, graphs, linked files, and contents of both storages; overwriting or not", "why_tests_cant": "Tests export one corpus with a simple name and one or two linked files; names with separators or dots, linked files that look like corpora, missing files and hostile archives are not tried", "anchors": ["graphannis/src/annis/db/corpusstorage.rs: import_all_from_zip, import_from_fs, get_linked_files, copy_linked_files_to_disk, export_corpus_graphml, export_to_zip, export_to_fs"]}
{"id": "C97", "title": "The recorded size of a corpus is its number of tokens or segments, in the configured unit", "statement": "After an import or an optimization the corpus size of the configuration is the number of nodes with annis:tok that cover no other node, or the number of nodes of the ordering component named by the configured unit or by base_text_segmentation; the unit is the one configured before, repeating the update changes nothing, and the function returns whether the size was changed.", "quantifier": "All graphs, orders of tokens, coverage components, ordering components, configurations and orders of hash maps", "why_tests_cant": "Tests look at one small corpus with default configuration and never update twice or configure a unit that does not exist", "anchors": ["graphannis/src/annis/db/aql/model.rs: calculate_global_statistics", "graphannis/src/annis/db/corpusstorage.rs: update_corpus_size_info, reoptimize_implementation"]}
{"id": "C98", "title": "The results of a conjunctive query are the combinations of nodes the query describes, whatever plan is chosen", "statement": "For a corpus whose storages satisfy their contracts and a connected query, every order of the operators and every choice of joins gives a plan; its rows, put into the order of the query nodes, are each found by their node search and satisfy all operators as relations on the graph (paths, borders of spans, coverage, identity, negation); no row is given twice; all such combinations of pairwise different matches are given; and if all operators are reflexive or the combinations are all distinct, the rows are exactly the described combinations.", "quantifier": "All corpora (sequences of annotation changes, coverage, ordering and edge components), all node searches, all conjunctions of operators including negated ones, all operator orders, join choices and numbers of threads", "why_tests_cant": "Tests compare counts for selected queries and corpora; they cannot cover the combinations of node searches, operators, plans and graph storages", "anchors": ["graphannis/src/annis/db/aql/conjunction.rs: make_exec_plan_with_order, add_binary_operator_to_exec_plan, create_join", "graphannis/src/annis/db/exec/nodesearch.rs: NodeSearch::from_spec", "graphannis/src/annis/db/exec/indexjoin.rs: IndexJoin::next_candidates", "graphannis/src/annis/db/aql/operators: filter_match, retrieve_matches, get_inverse_operator"]}
{"id": "C99", "title": "Texts, tables and updates through the C interface", "statement": "Every text without NUL character that the C interface hands to a client is read back unchanged, in strings, vectors of match identifiers and corpus names, tables of annotations and frequency tables with their counts; texts with NUL become the empty text (or their row is left out in lists of corpora and annotations), and this is the only loss. Texts that a client passes arrive unchanged, and an update built call by call has exactly the events of the calls in their order with each text in the field of the same name.", "quantifier": "all texts, lists of matches, tables, frequency definitions and sequences of update calls", "why_tests_cant": "the loss is about particular characters, and mixing up two of up to eight string arguments only shows for values that differ", "anchors": ["capi/src/lib.rs:cstr", "capi/src/data.rs:annis_vec_str_get", "capi/src/data.rs:annis_freqtable_str_count", "capi/src/corpusstorage.rs:annis_cs_find", "capi/src/corpusstorage.rs:annis_cs_frequency", "capi/src/update.rs:annis_graphupdate_add_edge_label"]}
{"id": "C100", "title": "Errors, pointers and ownership of the C interface", "statement": "Each call of the C interface either succeeds, leaves the error variable alone and does not return NULL, or stores a new non-empty list with the error and its causes and returns the documented failure value. A call returns exactly if its pointers point to living objects of the right types. No call changes or frees objects of the client. Iterators give all identifiers before the first error, and the variable tells whether that was all. Objects that the client gets can be given back with annis_free and strings with annis_str_free.", "quantifier": "all functions of the C interface, arguments, memory states and answers of the library", "why_tests_cant": "undefined behaviour of the allocator is not visible in tests, and failures of the library are hard to provoke", "anchors": ["capi/src/lib.rs:map_cerr", "capi/src/cerror.rs:create_error_list", "capi/src/data.rs:annis_free", "capi/src/data.rs:annis_str_free", "capi/src/data.rs:annis_iter_nodeid_next", "capi/src/graph.rs:annis_graph_outgoing_edges"]}
{"id": "C101", "title": "The results of a query are the node combinations that its text describes", "statement": "For a query text that the parser accepts, on a correct corpus: the text can be executed, all results are rows without errors and without duplicates, each row is an answer to one of the alternatives of the text (it has the nodes that the node searches of the text find; operators hold between the nodes that their operands denote, negated ones do not; a negated operator with an optional operand says that there is no such node; arities are in the range), and each answer with different matches for different nodes is a result, whatever order and joins the planner chooses.", "quantifier": "all texts without parentheses and repeated names, all corpora and storages that fulfil their specifications, all plans and operator orders, all alternatives", "why_tests_cant": "Tests run fixed queries on fixed corpora and compare counts; they cannot cover all combinations of operators, plans, negations and alternatives.", "anchors": ["graphannis/src/annis/db/aql/mod.rs: parse, map_conjunction", "graphannis/src/annis/db/aql/conjunction.rs: make_exec_node, make_exec_plan_with_order", "graphannis/src/annis/db/plan.rs: ExecutionPlan::from_disjunction, next", "graphannis/src/annis/db/aql/operators/edge_op.rs: create_operator", "graphannis/src/annis/db/aql/operators/non_existing.rs: NonExistingUnaryOperator", "graphannis/src/annis/db/aql/operators/arity.rs: ArityOperator"]}
{"id": "C102", "title": "Settings of the command line", "statement": "After any sequence of command lines the offset, limit, order, time limit, language and storage kind used for a search are those of the last line that sets them to a valid value; invalid lines and other commands change none of them, and the lines behind quit are not executed.", "quantifier": "all environments (storage and file system), all states, all sequences of lines", "why_tests_cant": "the number of sequences of commands is unbounded, and the console has no tests", "anchors": ["cli/src/bin/annis.rs:AnnisRunner::exec", "cli/src/bin/annis.rs:set_offset", "cli/src/bin/annis.rs:set_order", "cli/src/bin/annis.rs:create_query_from_args", "cli/src/bin/annis.rs:start_loop"]}
{"id": "C103", "title": "Selected corpora of the command line exist", "statement": "The command corpus selects exactly the named corpora that exist, and every selected corpus exists in the storage when a later command uses it.", "quantifier": "all storages that lose corpora only by deletion, all sequences of lines", "why_tests_cant": "depends on the interleaving of selections and deletions", "anchors": ["cli/src/bin/annis.rs:corpus", "cli/src/bin/annis.rs:delete"]}
{"id": "C104", "title": "The command line always has an open storage", "statement": "After any sequence of lines the storage is open, and it was opened with the value of the parallel search that the runner shows.", "quantifier": "all environments, including those where opening fails, all sequences of lines", "why_tests_cant": "failures of opening the storage again are not produced by tests", "anchors": ["cli/src/bin/annis.rs:use_parallel"]}
{"id": "C105", "title": "Completion of the command line", "statement": "The completer knows exactly the commands that can be executed; it offers exactly the commands or corpora that continue the word at the cursor, and choosing one replaces exactly this word.", "quantifier": "all lines, all positions of the cursor, all lists of corpora", "why_tests_cant": "positions inside of a line with characters of several bytes are not sampled", "anchors": ["cli/src/bin/annis.rs:ConsoleHelper::new", "cli/src/bin/annis.rs:complete"]}
{"id": "C106", "title": "Exported files are imported in the same format by the command line", "statement": "A path to which the command line exports is imported by it in the format in which it was exported; a missing path is an error; several corpora are refused for a single file.", "quantifier": "all paths, all states", "why_tests_cant": "paths are arbitrary texts; the formats are chosen in two separate functions", "anchors": ["cli/src/bin/annis.rs:import", "cli/src/bin/annis.rs:export_graphml"]}
{"id": "C107", "title": "Saved components are loaded with the same content", "statement": "A component of any storage implementation that is saved (directly, or with the whole graph through the backup folder) is loaded again with the same implementation, the same parts and the same statistics, for any number of rounds of saving and opening; no file of an earlier version or of another implementation is mistaken for its own, and the implementation chosen by the heuristic has a registered name.", "quantifier": "All file systems, all component lists with all six kinds of storages in memory and on disk (new, loaded, or loaded and changed), all numbers of save/open rounds, all sequences of saves into one directory", "why_tests_cant": "Tests save once into a fresh directory and load once; the failures need a second save after a load (path storages compare the new location with their own, which was just renamed), files of older versions in the target, or saving in place while the tables are open.", "anchors": ["core/src/graph/storage/mod.rs:serialize_gs_field,load_statistics_from_location,save_statistics_to_toml", "core/src/graph/storage/disk_path.rs:save_to,load_from", "core/src/graph/storage/disk_adjacency.rs:save_to", "core/src/graph/storage/registry.rs:REGISTRY,deserialize", "core/src/graph/mod.rs:internal_save,internal_save_with_backup,load_component_from_disk", "core/src/util/disk_collections.rs:write_to", "core/src/graph/storage/legacy.rs"]}
{"id": "C108", "title": "Pages of find are slices of the described answers", "statement": "For the text of a query and a list of corpora, find returns exactly the requested part (offset, limit) of one list: the corpora in the order of their names (backwards for the inverted order), in each corpus the identifiers of exactly the node combinations that the text describes, in the order of their position in the text; this does not depend on the plan, the join algorithm or the random pivots. count is the length of that list. In every order the results are a part of a permutation of it, find ends without an error, and the identifiers in a corpus are different.", "quantifier": "All query texts without parentheses that are accepted, all lists of corpora whose storages and indexes are correct, all orders, offsets, limits, plans, pivots and shuffles", "why_tests_cant": "Tests compare a few stored results; an error in one of planning, sorting, skipping, paging over corpora or output can be hidden by the others and shows only for particular offsets and corpora.", "anchors": ["graphannis/src/annis/db/corpusstorage.rs:find,find_in_single_corpus,create_find_iterator_for_query,count", "graphannis/src/annis/db/plan.rs:ExecutionPlan,is_sorted_by_text", "graphannis/src/annis/db/sort_matches.rs", "graphannis/src/annis/db/aql/mod.rs:parse"]}
{"id": "C109", "title": "Graphs for queries contain exactly the matched nodes", "statement": "subgraph_for_query gives the subgraph of the corpus that is induced by the nodes of the answers that the query text describes, with the edges of the wanted component types; subcorpus_graph that of all nodes and data sources that are part of one of the named corpora or documents (with or without the old prefix salt:/), at any depth; corpus_graph that of all nodes of the type corpus with the part-of edges between them. Each function gives a graph and no error, and edges for gaps connect only nodes of the graph that are not neighbours in the text.", "quantifier": "All query texts without parentheses that are accepted, all lists of corpus names, all corpora whose storages and indexes are correct, all plans, component type filters", "why_tests_cant": "Tests compare a few stored graphs; a node that is not part of a match is only noticed for queries with an optional search before another one, and missing nodes depend on the depth of the corpus structure and the order of the joins", "anchors": ["graphannis/src/annis/db/corpusstorage.rs:subgraph_for_query", "graphannis/src/annis/db/corpusstorage.rs:subcorpus_graph", "graphannis/src/annis/db/corpusstorage.rs:corpus_graph", "graphannis/src/annis/db/corpusstorage.rs:extract_subgraph_by_query", "graphannis/src/annis/db/corpusstorage/subgraph.rs:create_subgraph_for_iterator", "graphannis/src/annis/db/plan.rs:reorder_match"]}
{"id": "C110", "title": "Lists of annotations and components are exact", "statement": "list_node_annotations and list_edge_annotations list exactly the annotation keys of the nodes of a corpus, or of the edges of a component: without values each key once with an empty value, with values each pair of key and value once, and with only_most_frequent_values each key once with a value that no other value of the key is more frequent than. list_components lists each component with the given type and name once. Asking for a list does not change any later result.", "quantifier": "All histories of operations of the storage before and after, all cache sizes and evictions, all corpora, components, filters, in-memory and disk-based storages", "why_tests_cant": "Tests list a small loaded corpus; wrong lists need an eviction, an update that is not written back yet, equal frequencies, or a storage on disk", "anchors": ["graphannis/src/annis/db/corpusstorage.rs:list_components", "graphannis/src/annis/db/corpusstorage.rs:list_node_annotations", "graphannis/src/annis/db/corpusstorage.rs:list_edge_annotations", "graphannis/core/src/annostorage/inmemory.rs:get_all_values", "graphannis/core/src/annostorage/ondisk.rs:get_all_values"]}
{"id": "C111", "title": "Node descriptions and validation agree with the results of a query", "statement": "node_descriptions gives one description for each node search of the query, in the order of the text: with the number of its alternative, whether it is optional, its annotation name, a text that is read as the same search and a variable with which other parts of the query can refer to this node. The descriptions of an alternative that are not optional are, in order, those of the nodes that find shows of its answers. validate_query accepts a query exactly if count gives a number for it, and never if it is refused in one of the corpora.", "quantifier": "All query texts that are accepted, all alternatives, names and optional nodes; all corpora and their answers", "why_tests_cant": "Tests compare the descriptions of a few literal queries; the agreement with the columns of results is over all queries and corpora", "anchors": ["graphannis/src/annis/db/corpusstorage.rs:node_descriptions", "graphannis/src/annis/db/corpusstorage.rs:validate_query", "graphannis/src/annis/db/aql/conjunction.rs:get_node_descriptions", "graphannis/src/annis/db/exec/nodesearch.rs:NodeSearchSpec", "graphannis/src/annis/types.rs:QueryAttributeDescription"]}
{"id": "C112", "title": "A time limit changes a query only into the time out error", "statement": "A query with a time limit returns. It returns exactly the result that it gives without a limit, or the time out error if the limit is exceeded; a result is only returned if no check of the time on the way found that the limit is exceeded. The iterator of the plan gives the items of the plan without a limit up to some call and then only time out errors.", "quantifier": "all execution trees of node searches, filters, nested loop joins and index joins, all plans with one or several alternatives over them, all sequences of corpora, all clocks (how the time passes between the checks) and all offsets, limits and orders", "why_tests_cant": "when a limit is exceeded depends on timing; all tests run without a limit, and none could make it expire at every point of every join", "anchors": ["graphannis/src/annis/util/mod.rs:TimeoutCheck", "graphannis/src/annis/db/exec/nodesearch.rs:NodeSearch::next", "graphannis/src/annis/db/exec/parallel/nestedloop.rs:next_match_buffer", "graphannis/src/annis/db/corpusstorage.rs:count,find,frequency,count_extra"]}
{"id": "C113", "title": "Queries after updates answer by names what the update events describe", "statement": "Take a graph that was built from nothing by any number of applied updates (each followed by the recalculation of the token index), and the corpus that queries then see: node annotations, components, the token index and the order of tokens. The results of a query text are, by the names of the nodes, exactly the rows that the events describe: every row whose nodes have the searched annotations and are related by the operators in the abstract graph of the events, each once. The number of results of count is the number of these rows, and find returns their identifiers.", "quantifier": "all histories of updates that fulfil the conditions of the index recalculation, all settings (names of components, statistics, oracles for patterns and costs), all accepted query texts without parentheses with any number of alternatives, all executions", "why_tests_cant": "tests load fixed corpora and compare the counts of fixed queries; they do not vary the history by which the same corpus was made, and have no independent meaning of the query text", "anchors": ["graphannis/src/annis/db/corpusstorage.rs:apply_update,find,count", "graphannis/core/src/graph/mod.rs:apply_update,apply_update_in_memory", "graphannis/src/annis/db/aql/model.rs:AnnotationComponentType::apply_update_graph_index", "graphannis/src/annis/db/aql/mod.rs:parse", "graphannis/src/annis/db/token_helper.rs:TokenHelper::new", "graphannis/src/annis/db/plan.rs:ExecutionPlan::from_disjunction"]}
{"id": "C114", "title": "Queries on an imported relANNIS corpus answer what its tables say", "statement": "If the tables of a relANNIS corpus name each node once, number the tokens of each text without gaps, have coverage and dominance edges only inside of a text and only above the tokens, then importing them into an empty corpus gives an index in which every node points to the first and the last token of those below its row and inherited coverage is exactly the coverage that is not direct; find and count for a query on this corpus give, by node names, exactly the answers in the graph described by the rows, each once.", "quantifier": "All tables that meet these conditions, all batches and orders of the nodes in the calculation of the index, all queries without the constructs excluded by C101 and C113, all plans, offsets and limits.", "why_tests_cant": "The import, the update, the index and the query are tested apart from each other on a few corpora; a wrong first token in the index only shows in some queries, and tables with unusual edges do not occur in the test corpora.", "anchors": ["graphannis/src/annis/db/relannis.rs: load_node_and_corpus_tables, load_edge_tables, add_automatic_cov_edge_for_node", "graphannis/src/annis/db/aql/model.rs: apply_update_graph_index, calculate_token_alignment, calculate_inherited_coverage_edges", "graphannis/src/annis/db/corpusstorage.rs: import_from_fs, find, count"]}
{"id": "C115", "title": "Queries give the same answers after GraphML export and import", "statement": "The document that the GraphML export writes for a graph built by updates presents exactly this graph without its generated components: every node with its type and labels, every edge with its labels, each once. If the names and keys in it are printable, importing it into an empty corpus builds the same graph, the index is calculated correctly again, the components are those which have edges, and find and count give, by node names, the same results before and after.", "quantifier": "All histories of updates that meet the conditions of C113, all orders in which storages and hash maps are visited by the export, all batches of the import, all queries without the constructs excluded by C101 and C113, all plans before and after.", "why_tests_cant": "Round trips in the tests compare the text of documents of two corpora; node identifiers, orders of visits and the recalculated index differ after the import, so equality of query results can only be tested query by query.", "anchors": ["core/src/graph/serialization/graphml.rs: write_annotation_keys, write_nodes, write_edges, export, import", "graphannis/src/annis/db/aql/model.rs: update_graph_index_components, apply_update_graph_index", "graphannis/src/annis/db/corpusstorage.rs: export_to_fs, import_from_fs, find, count"]}
{"id": "C116", "title": "Information about corpora tells what is in memory", "statement": "After any sequence of queries, preloads, unloads, deletions and requests for information, info, unless the configuration of the corpus or the annotations of a storage in memory can not be read, describes a corpus as not loaded exactly if it is not in memory, as partially loaded exactly if a component of its directory is missing in memory and as fully loaded exactly if all are there; it names each component of the directory once, and for each component in memory its implementation and the number of its annotations. list succeeds exactly if info does for every corpus, and then describes every corpus in this way, and neither changes what is in memory. After preload the corpus is described as fully loaded, after unload or delete as not loaded, and between these a component stays in memory unless its corpus is removed as a whole to save memory, which never happens to the corpus of the operation.", "quantifier": "all data directories, all sequences of operations, all outcomes of reading files, all choices of corpora removed to save memory", "why_tests_cant": "The status is computed from the state of a cache that other operations fill in part and empty; tests look at a corpus after one import or preload, not after failing loads, partial loads by queries and evictions.", "anchors": ["graphannis/src/annis/db/corpusstorage.rs: list, create_corpus_info, info, get_corpus_config, get_entry, load_entry_with_lock, get_loaded_entry, get_loaded_entry_with_components, preload, unload, delete, check_cache_size_and_remove_with_cache"]}
{"id": "C117", "title": "The status of an answer tells who has to act", "statement": "For every request to the web service, 401 is the status exactly if the token is not valid; 403 exactly if the claims lack the rights for the request; otherwise 400 exactly if the query, a path, an identifier or the name of a group is wrong, 404 exactly if a job, a file, the files of a corpus or a corpus to delete does not exist, 504 exactly if the time limit was exceeded, 202 and 410 exactly for running and failed jobs, and 5xx only for errors of the server. The status of a request without rights does not depend on what is stored.", "quantifier": "all states of the service, all answers of the storage, all headers and requests", "why_tests_cant": "Tests of the web service check single requests; that no other error is mapped to a status, and that a status does not reveal corpora to users without rights, is about all of them.", "anchors": ["webservice/src/errors.rs: ServiceError, ResponseError::error_response", "webservice/src/api/corpora.rs: list_files, file_content, delete", "webservice/src/api/search.rs: count, find, frequency", "webservice/src/api/administration.rs: jobs, put_group", "webservice/src/openapi.yml"]}
{"id": "C118", "title": "At most one process has a storage for a directory", "statement": "Whenever a process has opened a corpus storage for a directory and not yet dropped it, no other process has an open storage for the same directory and every attempt to open one fails; after it was dropped or its process crashed, the next attempt succeeds.", "quantifier": "any number of processes opening, dropping and crashing in any interleaving of opening, locking, unlocking and removing the lock file", "why_tests_cant": "The overlap needs three processes within the few instructions between unlocking and removing the file; tests open storages one after the other.", "anchors": ["graphannis/src/annis/db/corpusstorage.rs: create_lockfile_for_directory, Drop for CorpusStorage, DB_LOCK_FILE_NAME"]}
{"id": "C119", "title": "The settings in effect are those of the file, completed by the defaults", "statement": "Every setting the service uses has the value given in the settings file, or the documented default if the file does not give one; exactly the files with meaningful values are accepted, unknown keys have no influence, and the address listened on is the configured host and port. Tokens are never verified with a publicly known secret and every port can be configured.", "quantifier": "all settings files (lists of keys with values of all types)", "why_tests_cant": "There are unboundedly many combinations of present, missing and mistyped keys; tests use the defaults.", "anchors": ["webservice/src/settings.rs: Settings::with_file, Settings, Bind, Database, Auth, JWTVerification", "webservice/src/default-settings.toml", "webservice/src/main.rs: main"]}
{"id": "C120", "title": "The text of an operator in a query plan identifies the operator", "statement": "Two operators whose names can be written in a query have the same Display text only if they are the same operator: same kind, name or segmentation, direction, range, annotation condition and number of negations. The values in annotation conditions are arbitrary strings.", "quantifier": "all operators with identifiers as names, all ranges, all annotation values (also with quotes and brackets) and all depths of negation", "why_tests_cant": "Tests compare the explanation of a few plans; that no two operators share a text needs all names, ranges and values", "anchors": ["graphannis/src/annis/operator.rs: EdgeAnnoSearchSpec Display", "graphannis/src/annis/db/aql/operators/mod.rs: RangeSpec Display", "graphannis/src/annis/db/aql/operators/edge_op.rs: BaseEdgeOp Display", "graphannis/src/annis/db/aql/operators/precedence.rs: PrecedenceSpec Display", "graphannis/src/annis/db/aql/operators/near.rs: NearSpec Display", "graphannis/src/annis/db/aql/operators/negated_op.rs: NegatedOp Display"]}
{"id": "C121", "title": "The text of an execution plan tells its alternatives and their trees", "statement": "Two execution plans with the same Display text have the same list of alternatives, and for each alternative the same tree of searches, filters and joins with the same line at each place.", "quantifier": "all plans: all lists of descriptions, of any depth, with all texts, node numbers and costs", "why_tests_cant": "Tests look at single plans; that the indention alone separates filters, joins and alternatives of every depth needs induction over trees", "anchors": ["graphannis/src/annis/db/exec/mod.rs: ExecutionNodeDesc::debug_string", "graphannis/src/annis/db/plan.rs: ExecutionPlan Display"]}
