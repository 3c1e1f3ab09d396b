# Formal model of korpling/graphANNIS in Lean 4 — design

## Layout

* `properties.jsonl` – the properties (C01 …), stated in terms of the API.
* `lean/Verif/<Area>/Model.lean` – the model: total, computable functions, each citing file and lines in `/repo`.
* `lean/Verif/<Area>/{Lemmas,…}.lean` – helper lemmas. `lean/Verif/Util` has finite maps, bounds, walks and runs, `lean/Verif/Gs`
  what all graph storages share.
* `lean/Verif/<Area>/{Props,Examples,…}.lean` – small independent specifications, the property theorems (`Cnn_…`), and non-vacuity
  examples next to them. `…_partial` marks theorems with restrictions the claim does not have, `…_fails` a concrete input for which the
  code violates the claim.
* `MANIFEST.json` – which theorem proves which property (`tools/gen_manifest.py`, notes in `tools/notes.json`).
* `seeded/LOG.jsonl` – wrong programs and which theorems noticed them (`tools/seed.py`, `tools/seedlog.py`).

## Trusted base

* The kernel of Lean 4.33.0. No `sorry`, no `native_decide`, no `bv_decide`, no own axioms. Concrete cases use `decide` or
  `decide +kernel`, which produces a proof term that the kernel evaluates.
* The axioms of Lean: `propext`, `Quot.sound`, `Classical.choice`. Per property theorem:

<!-- axioms -->
Property theorems: 943.
* no axioms (18): `C40_empty_fails`, `C40_nonvacuous`, `C44_single`, `Est.C90_edge_fails`, `Est.C90_edge_partial`, `Import.C64_nonvacuous`, `Import.C64_overwrite_fails`, `Import.C64_retry_fails`, `Import.C64_save_fails`, `Keys.C07_any_range_fails`, `Keys.C07_by_qname_order_fails`, `Keys.C07_signed_order_fails`, `Parse.C92_operator`, `Parse.C94_meta`, `Parse.C94_search`, `SizeInfo.C97_changed_fails`, `SizeInfo.C97_no_statistics`, `SizeInfo.C97_unit`.
* `propext` (65): `Adj.C11_excluded_zero_fails`, `Aql.C69_alternatives_partial`, `Aql.C69_literals_partial`, `Aql.Ex.C69_distributed_fails`, `Aql.Ex.C69_meta_nonvacuous`, `Aql.Ex.C69_meta_only_fails`, `Aql.Ex.C69_meta_optional_fails`, `Aql.Ex.C69_meta_scope_fails`, `Aql.Ex.C69_named_number_fails`, `Aql.Ex.C69_not_dnf_fails`, `Aql.Ex.C69_quirks_nonvacuous`, `Aql.Ex.C69_quirks_numbers_fails`, `Aql.Ex.C69_same_name_fails`, `Aql.Ex.C70_alternatives_fails`, `Aql.Ex.C70_frequency_fails`, `Aql.Ex.C70_nonvacuous`, `C37_value`, `C38_fails`, `C57_empty_class_fails`, `Capi.C100_free_fails`, `Capi.C99_definition_partial`, `ClosingEx.C54_nonvacuous`, `DiskMap.C09_contains_key_fails`, `DiskPath.C59_path_empty_storage_fails`, `Est.C88_regex_le_total`, `Explain.C120_shown`, `FindEx.C35_error_skipped`, `FindEx.C35_nonvacuous`, `FindEx.C36_fails`, `FindEx.C36_nonvacuous`, `FindEx.C37_nonvacuous`, `GraphUpdate.C21_nonvacuous`, `GsFiles.C107_in_place`, `GsFiles.C107_legacy`, `GsFiles.C107_names`, `GsFiles.Ex.C107_changed_example`, `GsFiles.Ex.C107_in_place_fails`, `GsFiles.Ex.C107_old_stats_fails`, `GsFiles.Ex.C107_path_fails`, `GsFiles.Ex.C107_roots_fails`, `GsFiles.Ex.C107_stale_fails`, `GsFiles.Ex.C107_stale_nonvacuous`, `Import.C64_ok_config`, `Import.C64_others`, `JoinEx.C42_error_loops`, `JoinEx.C42_nonvacuous`, `JoinOrder.C95_nonvacuous`, `JoinOrder.C95_small`, `LockFile.C118_exclusive_fails`, `LockFile.C118_removed_fails`, `LocksEx.C63_nonvacuous`, `NodeSearch.C68_negated`, `Rel.C77_field`, `Rel.C87_line`, `Rel.C87_lines`, `Rel.C87_lines_last`, `SizeInfo.C97_again_partial`, `SizeInfo.C97_no_order_fails`, `SortEx.C33_nonvacuous`, `StorageEx.C52_nonvacuous`, `TextOp.C47_alignment`, `TextOp.C47_precedence`, `Timed.Ex.C112_parallel_nonvacuous`, `UnionContainer.C20_nonvacuous`, `Zip.C96_skipped`.
* `Quot.sound, propext` (85): `Answer.C101_ident_replaceable`, `Answer.C101_replaceable`, `Aql.C69_unique`, `Aql.Ex.C69_query_nonvacuous`, `C30_component_text`, `C32_plain_partial`, `C33_keeps_all`, `C36_count_partial`, `C40_extract_location_partial`, `C41_connected`, `C42_nodup`, `C44_disjunction`, `C44_nonvacuous`, `C51_eviction`, `C52_partial`, `C54_lost`, `C54_sound`, `C54_waits`, `C57_full_match`, `C57_regex_condition_partial`, `C61_nodup`, `ClosingEx.C54_fails`, `ConnEx.C41_nonvacuous`, `DiskPath.C17_path_largest_source_fails`, `EdgeOp.C47_edge`, `Est.C88_most_frequent`, `Est.C90_inverse_iff`, `Est.C90_near_partial`, `Est.C90_precedence`, `Explain.C120_annotation`, `GsFiles.C107_lost`, `GsFiles.C107_second`, `GsFiles.Ex.C107_second_nonvacuous`, `Import.C64_exists`, `Import.C64_success_partial`, `JoinEx.C43_cond_error`, `JoinEx.C43_error_lost`, `JoinOrder.C95_terminates`, `Linear.C14_inverse_failures_are_wrong`, `Listing.C110_opened`, `LockFile.C118_close_partial`, `LockFile.C118_exclusive_partial`, `LockFile.C118_free`, `LockFile.C118_refused_partial`, `LockFile.C118_same_file`, `LockFile.C118_third`, `Locks.C63_decreases`, `Locks.C63_exclusive`, `LocksEx.C63_blocked_nonvacuous`, `LocksEx.C63_callback_fails`, `NodeSearch.C66_unique`, `NodeSearch.C68_identity`, `NodeSearch.Ex.C67_duplicate_fails`, `NodeSearch.Ex.C67_negated_fails`, `OrderEx.C61_nonvacuous`, `Parse.C92_operator_unique`, `Parse.C92_parse`, `Parse.C92_unambiguous`, `Parse.C94_ref`, `Parse.C94_search_unique`, `Rel.C87_steps`, `Rel.C87_trim`, `SizeInfo.C97_token_count`, `SizeInfo.C97_tokens`, `SortEx.C33_diverges`, `SymbolTable.C01_bijection`, `SymbolTable.C01_injective`, `SymbolTable.C01_insert_returns_id`, `SymbolTable.C01_insert_stable`, `SymbolTable.C01_live`, `SymbolTable.C01_remove`, `SymbolTable.C01_save_load`, `TextOp.C45_segmentation_partial`, `TextOp.C46_identical_coverage`, `TextOp.C46_left_alignment`, `TextOp.C46_right_alignment`, `Timed.C112_parallel_hangs`, `Timed.Ex.C112_count_extra_nonvacuous`, `Timed.Ex.C112_frequency_nonvacuous`, `Timed.Ex.C112_items_nonvacuous`, `Timed.Ex.C112_parallel_fails`, `TokenSearch.C49_no_order`, `Web.C71_delete_partial`, `Web.C71_groups`, `Web.C71_put`.
* `Classical.choice, Quot.sound, propext` (775): all other property theorems.
<!-- /axioms -->

* That the definitions in the `Model` files do what the cited lines of Rust do. This was checked by reading only; the code was not
  executed. The simplifications are listed below and in the comments of the definitions.
* That the specifications say what the English claim says. They are written without the functions of the model and kept short; the
  wrong programs in `seeded/LOG.jsonl` were used to find specifications that are too weak.

## Modelling conventions

* Machine integers are `Nat` unless the property is about overflow or byte order; where a subtraction or an addition can overflow and
  a query can reach it, the model has an explicit error branch.
* `BTreeMap`/`HashMap` are ordered association lists (`OMap`); `Vec` is `List`. No theorem relies on the iteration order of a hash map:
  either the statement is about membership, or the order is an argument that is universally quantified (`Choice.hash`,
  C37 `order`).
* `&mut self` methods return the new state. `Result`/panics are `Option`/`Except`: `none` is an error or a panic.
* Loops that need not end, and random numbers, take fuel and a list of random numbers; theorems hold for all of them, or say that some
  exist (C33_can_terminate).
* Strings are lists of characters, bytes are `UInt8`. Ordering of strings is by code point (= by UTF-8 bytes).
* The file system is a map from paths to contents; a crash is a prefix of the list of primitive steps.
* Threads are interleavings of atomic steps chosen by an arbitrary schedule; memory measurements are arbitrary.
* Storages that a function only uses through their interface are a record of functions (`GStore`, `Source`, `Src`) together with a
  predicate that says when it answers correctly (`GStore.Is`, …). Each storage is proved to satisfy the predicate (C11–C17, C59, C60,
  C48), so that the theorems about operators and search compose with those about storages.

## What is modelled

| code in /repo | model | simplified or left out |
|---|---|---|
| core/src/annostorage/symboltable.rs | SymbolTable | memory size estimation |
| core/src/annostorage/inmemory.rs | Anno | regex search uses an arbitrary predicate; size estimation, statistics histogram and guess_max_count |
| core/src/annostorage/ondisk.rs | OnDisk, Keys | values as byte strings, errors of the file system; histogram |
| core/src/util/disk_collections.rs, core/src/serializer.rs | DiskMap, Keys | sstable files are ordered maps with tombstones; compression, caching and file errors |
| core/src/dfs.rs | Dfs | – |
| core/src/graph/storage/adjacencylist.rs | Adj | statistics only where they are used (Registry) |
| core/src/graph/storage/linear.rs | Linear | – |
| core/src/graph/storage/prepost.rs | PrePost | number types as an upper bound |
| core/src/graph/storage/dense_adjacency.rs, disk_path.rs | Single | memory-mapped file as a list |
| core/src/graph/storage/disk_adjacency.rs | DiskAdj | – |
| core/src/graph/storage/registry.rs | Registry | floating-point comparisons are arbitrary predicates |
| core/src/graph/storage/union.rs | Union | – |
| core/src/graph/storage/*: `save_to`, `load_from`, legacy.rs, `impl.cfg`; graph/mod.rs: `internal_save`, `internal_save_with_backup` | GsFiles | the value of one field, table or path file is opaque; errors of the file system other than those caused by the order of the operations |
| core/src/graph/update.rs | Update | change-set files as lists |
| core/src/graph/mod.rs (apply_update, components, node ids, load/save, WAL, backup) | Graph, Persist, Load | statistics |
| core/src/graph/serialization/graphml.rs | GraphML | XML reader and writer as event lists, escaping exactly |
| core/src/types.rs, core/src/util/mod.rs, graphannis/src/annis/util/mod.rs, types.rs | Text | – |
| graphannis/src/annis/util/quicksort.rs, sortablecontainer.rs | Sort | random numbers as an argument |
| graphannis/src/annis/db/sort_matches.rs | Sort/Compare | collation as an arbitrary total order |
| graphannis/src/annis/types.rs 41-72, errors.rs 179-193 (display of locations and AQL errors) | Text/Location | Serialize of the same types |
| graphannis/src/annis/db/aql/mod.rs, ast.rs | Text (positions), Aql | parser.lalrpop (the grammar) and `simplify_via_laws` of another crate |
| graphannis/src/annis/db/aql/conjunction.rs, disjunction.rs | Aql (building), Query (planning) | cost estimation is arbitrary (C61 holds for all operator orders); the search for an order (C95) takes its random numbers from an arbitrary sequence |
| graphannis/src/annis/db/plan.rs, exec/mod.rs | Query/Rows, PlanProps | – |
| graphannis/src/annis/db/exec/nestedloop.rs, indexjoin.rs, filter.rs, parallel/* | Exec | channels and rayon as an arbitrary interleaving |
| graphannis/src/annis/db/exec/tokensearch.rs, token_helper.rs | Token, Op/Text | – |
| graphannis/src/annis/db/exec/nodesearch.rs, optimize_node_search_by_operator (conjunction.rs) | NodeSearch, Regex | estimates are arguments; errors of annotation storages |
| graphannis/src/annis/db/aql/operators/{non_existing,negated_op,identical_node}.rs | NodeSearch/Optional | errors while operators are created |
| graphannis/src/annis/db/aql/operators/* | Op | estimation |
| graphannis/src/annis/db/aql/model.rs | Index, Token/Size (global statistics, C97) | – |
| graphannis/src/annis/db/corpusstorage.rs (find, count, frequency) | Find | time outs (see the next row) |
| graphannis/src/annis/util/mod.rs (TimeoutCheck), exec/*, plan.rs and corpusstorage.rs with time limits | Timeout | iterators are relations between states, a call that does not return has no result; time passes only by an arbitrary function of the number of checks; parallel index joins and the worker threads of the parallel nested loop are left out |
| graphannis/src/annis/db/corpusstorage.rs (cache, create, delete, import, apply_update, unload, Drop) | Storage | RwLock/Mutex/Condvar with the usual semantics |
| graphannis/src/annis/db/corpusstorage.rs (list_components, list_node_annotations, list_edge_annotations) | Storage (Listing) | errors of single steps are empty lists, as in the code |
| graphannis/src/annis/db/corpusstorage.rs (which locks are taken where, all public functions) | Locks | everything but the locks is a free choice |
| graphannis/src/annis/db/corpusstorage.rs (import_from_fs, linked files) | Import | parsing is done before; Unix paths without symbolic links |
| graphannis/src/annis/db/corpusstorage.rs (import_all_from_zip, export_to_zip, export_to_fs) | Import (Zip) | archives are lists of names and contents; `enclosed_name` of the crate zip as documented; GraphML and relANNIS files are read and written by arbitrary functions (with a round trip for GraphML); directories are implicit, no symbolic links; progress messages |
| graphannis/src/annis/db/corpusstorage/subgraph.rs | Subgraph | component type filter is applied by the caller |
| graphannis/src/annis/db/corpusstorage.rs (prepare_query), necessary_components of all specifications | Load | planning and execution are an arbitrary function of the storages they take out of the graph |
| webservice/src/actions.rs, extractors.rs, auth.rs, api/*.rs | Web | verification of tokens is an arbitrary function, SQLite tables are lists, answers of the storage are arbitrary functions of the corpora given to it, no symbolic links; start-up, CORS and HTTP |
| graphannis/src/annis/db/relannis.rs | Rel | the tables are lists of rows read from the text of the files; progress messages and finding the files are left out |
| core/src/annostorage/inmemory.rs, ondisk.rs (histograms, guesses), core/src/graph/storage/adjacencylist.rs (calculate_statistics), graphannis/src/annis/db/exec (costs) | Est | samples are arbitrary sub-lists, rounding is an arbitrary monotone function that is exact on small naturals; selectivities of operators other than the distances are arbitrary rationals |
| graphannis/src/annis/db/aql/parser.lalrpop, ast.rs, Display of NodeSearchSpec | Parse | that LALRPOP generates a tokenizer with the longest-match rule and a parser for exactly the rules is trusted; only starts of positions of node searches are kept; actions run after the whole text is parsed |
| node searches, operators and plans together (conjunction.rs, nodesearch.rs, operators, indexjoin.rs) | Whole | puts NodeSearch, Op, Exec and Query together; without comparison of values; the replacement of node searches (C67) is in Whole/Replace |
| capi/src/*.rs | Capi | memory is a list of typed objects that is never reused; the library behind the interface is an arbitrary record of functions; logging.rs; accessors of single annotations, components and attribute descriptions |
| parser, translation, operators and plans together (aql/mod.rs, conjunction.rs, edge_op.rs, plan.rs), and with them find, node_descriptions, validate_query, subgraph_for_query, subcorpus_graph, corpus_graph (corpusstorage.rs) | Answer | puts Parse, Aql, Whole and Query together; no quirks mode, no parentheses |
| updates and queries together (core/src/graph/mod.rs apply_update, aql/model.rs, token_helper.rs, and the row above) | Updated | components stay adjacency lists after an update |
| import and queries together (relannis.rs 300-363 and the row above) | Queried | components stay adjacency lists after the import |
| export of a graph, import and queries together (graphml.rs 25-341, aql/model.rs 603-621 and the rows above) | Exported | the orders of visits are arbitrary permutations; components stay adjacency lists |
| graphannis/src/annis/db/corpusstorage.rs 471-766, 1361-1390, 1437-1512, 2641-2686 (list, info, preload, unload, delete, the loading part of prepare_query) | `Info/Model` | one thread; directories change only by `delete`; which corpora are removed to save memory is arbitrary; no statistics |
| webservice/src/errors.rs 11-86, 115-122, 163-167 and the status of the answers of webservice/src/api/ | `Web/Status` | no bodies; no answers of the framework; no failures of the database, of threads and of `list` |
| graphannis/src/annis/db/corpusstorage.rs 2576-2598, 2747-2772 (the lock file) | LockFile | opening does not fail; names and locks of files as on Unix (`flock`), removing a name keeps open files; nobody else touches the file |
| webservice/src/settings.rs, default-settings.toml, main.rs 274 | Settings | sources of the configuration are lists of keys with values, merged key by key; no syntax errors, no conversion between types of values |
| annis/operator.rs 31-74 and `Display` of the operators in annis/db/aql/operators | Explain | exact texts; `:arity` and the operators on optional nodes are left out |
| annis/db/exec/mod.rs 146-184, annis/db/plan.rs 150-164 | Explain | exact texts of plans whose alternatives all have descriptions |
| cli/src/bin/annis.rs | Cli | the storage is an arbitrary transition system, requests are recorded; printed texts, history, logging, arguments of the program |

Not modelled: `examples`, `example_generator.rs`, error modules (except Text/Location, Capi and Web/Status) and logging, memory size estimation, the random number generator,
progress callbacks, the crate `boolean_expression`, the regular expression engine
(C57 has a fragment: literals, classes, groups, alternation, repetition, anchors), the format and compression of ZIP files.

## Plan per property

| id | what is modelled | how it is proved |
|----|------------------|------------------|
| C01 | `SymbolTable` operations, serde skip + rebuild | invariant over op list; refinement to set of live values with stable ids |
| C02 | in-memory `AnnoStorageImpl` with symbol tables, `by_container`, `by_anno` | invariant + refinement to `(item,key) → Option value` |
| C03 | `get_qnames`, `exact_anno_search`, `matching_items` | set equality with spec comprehension, `Nodup` |
| C04 | counters | invariant; `clear` violates it: negation witness plus `_partial` for histories without `clear` |
| C05 | `get_all_values` both variants | sortedness theorem in memory; negation witness for disk variant |
| C06 | on-disk insert/remove/search over two ordered maps with byte keys | negation witness (overwrite); `_partial` for histories without overwrite and NUL-free values |
| C07 | big endian encodings on byte lists | order isomorphism, round trip, prefix-range lemma |
| C08 | `DiskMap` levels C0/C1/C2 with tombstones, merge iterators, compaction, eviction | refinement to finite map for every op list |
| C09 | `contains_key` | negation witness; `_partial` (no C1 tombstone for the key) |
| C10 | `CycleSafeDFS` as a step machine | termination measure; soundness & completeness w.r.t. simple paths |
| C11 | adjacency list `find_connected` etc. | from C10 |
| C12 | `distance` for all storages | negation witness (adjacency), upper bound theorem; exact on chains/forests |
| C13 | adjacency list write operations | invariant, refinement to edge set |
| C14 | linear storage | equality with chain reachability; negation for excluded inverse bound |
| C15 | pre/post order on forests | interval theorem by induction over trees |
| C16 | pre/post `is_connected` on DAG entries | negation witness, `_partial` |
| C17 | dense adjacency/disk path copy | edge set equality under fan-out ≤ 1 |
| C18 | statistics + heuristics + copy | negation witness (root-less cycle), `_partial` for acyclic components |
| C19 | order numbers assigned in copy | counting theorem |
| C20 | union container | set equality |
| C21 | `GraphUpdate` change sets | refinement to list of events |
| C22 | `apply_update_in_memory` | refinement to abstract graph spec |
| C23 | DeleteNode with precomputed component list | negation witness, `_partial` |
| C24 | node names | invariant |
| C25 | cache transparency | equality for updates without rename; negation witness with rename |
| C26 | failing update | model of reload from disk |
| C27 | WAL file model | negation witness (two updates, crash), `_partial` for one unsynced update |
| C28 | backup protocol as list of file system steps | every prefix recovers once; negation for the second reopen |
| C29–C32 | string codecs | round-trip theorems on `List Char`; negations where encoding is ambiguous |
| C33 | quicksort with oracle pivots and fuel | permutation, sortedness of the first n |
| C34 | comparator | total preorder theorem; negation witness for text position comparator |
| C35–C37 | find/count/frequency loops | list theorems by induction |
| C38, C39 | percent encoding, match ids | round trips; negation for ".." |
| C40 | line/column arithmetic, text of locations and errors | uniqueness of the position; splitting the text at the first character that is no digit |
| C41 | connectivity check | equivalence with connectivity of the query graph |
| C42–C44 | join iterators, plan | equality with list comprehension; permutation under schedules |
| C45–C48 | operators over token chains with spans | set equality of retrieve and filter; negations where they differ |
| C49 | token search | negation + `_partial` |
| C50 | index maintenance | refinement to an independent definition of border tokens; negation witnesses + `_partial` |
| C51–C53 | corpus cache state machine, concurrent interleavings | refinement / invariants, negations |
| C54 | drop and background writers | invariant on all interleavings, termination measure |
| C55 | context subgraph | window theorem on chains, induced subgraph, gap edges by sorting of regions |
| C56 | arity | counting theorem |
| C57 | regex wrapping over a regex semantics | language equality |
| C58 | GraphML | round trip on escaped text; negation for unescaped attributes |
| C59, C60 | single-successor storages, disk adjacency | equality with the abstract relation |
| C61 | plan choice | permutation of rows for all operator orders |
| C62 | value comparison | total order |
| C63 | lock programs of all public functions, reader/writer locks | lock order invariant, progress and termination; negation for callbacks |
| C64 | import with failure inputs | case analysis over all failures; negations + `_partial` |
| C65 | linked files, Unix paths | induction over the file nodes; negations + `_partial` |
| C66 | all ten kinds of node search and their descriptions | from C02, C03, C49; permutation with the index join view |
| C67 | search in the components of an operator | restriction of one candidate list keeps the answers; negations |
| C68 | optional operands, negation, identity | both variants decide the negated existential; negations |
| C69 | translation of the query text | refinement: result = independent description of nodes and operators; acceptance; negations |
| C70 | node numbers and result columns | invariant over all steps of the translation; columns; negations |
| C71 | authorisation of the web service, group tables, requests | two-state non-interference; decision logic; negations + `_partial` |
| C72 | files of the web service | from C38 and a path semantics; negations + `_partial` |
| C73 | background jobs | induction over event lists |
| C74 | token search without sorting | from C33, C34, C49: strictly sorted output, equality of all pages; negations + `_partial` |
| C75 | lazy loading of components | what is used is contained in what is requested; congruence of all uses; negation |
| C76 | saving with lazily loaded components | invariant by induction over operations; refinement to the stored content; negations + `_partial` |
| C77 | tab-separated tables, fields, rows of all tables | round trip; negations + `_partial` |
| C78 | corpus table, parents by order numbers, paths, renaming | induction over corpus trees; injectivity of paths; negations + `_partial` |
| C79 | node, corpus, text and file events | equality of the node set with a specification on the tables; refinement to the graph by C22; negations + `_partial` |
| C80 | PartOf events | equality of the edge set with a specification on the tree; negations + `_partial` |
| C81 | ordering events | equality of the edge set with the successor relation on indexes |
| C82 | rank table events | equality of edge set and labels with the rows |
| C83 | coverage events | equality with the tokens between the aligned ends, component by the rank rows of the span |
| C84 | whitespace loop | loop equals slices of the text; concatenation by induction over the tokens |
| C85 | label events | equality with the specified labels; range query on the metadata map |
| C86 | keys of disk maps | UTF-8 keeps the order of strings (Util/Utf8); big-endian numbers; inverse |
| C87 | configuration | binary search in a sorted list with duplicates; invariant per order; last valid line by induction |
| C88 | histograms, `guess_max_count` over all keys, storage wrapper | closed form of the loop over bounds; counting of sorted lists between bounds; rounding as an oracle |
| C89 | statistics of adjacency lists | invariants over operations, refinement of the depth-first search to longest simple paths |
| C90 | reachable distances, selectivities, costs of plans | induction over plans with checked arithmetic |
| C91 | terminals of the grammar as regular expressions, tokenizer with longest match | equivalence to a relational specification, classification of all texts of all terminals by their first characters |
| C92 | syntax trees, recursive descent parser, actions | soundness and completeness of the parser, structural induction over trees |
| C93 | positions of searches in the actions | structural induction with the remaining tokens, order of positions from C91 |
| C94 | values, names and numbers in the actions, Display | structural induction; round trip over C91 and C92; negation witnesses |
| C95 | `optimize_join_order_heuristics` with an arbitrary cost function and arbitrary random pairs | invariant of the loop; measure `cost * (5 n + 1) + tries left` |
| C96 | entries of archives, unpacking, linked files, import and export of ZIP files and directories | no entry leaves the temporary directory (induction over its components); export and import as writes of the same list of places; nothing remains in the temporary directory after an import (C96_cleared), missing linked files are skipped (C96_skipped); negation witnesses |
| C97 | `calculate_global_statistics`, `update_corpus_size_info` | induction over the tokens; statistics of components from C89; negation witnesses |
| C98 | the models of C45 to C48, C61, C66, C68 together | refinement: rows of all plans against a relational description of the answers; negation witness |
| C99 | strings, vectors, tables, frequency definitions, events of capi/src | round trips through bytes (UTF-8 of C18) and through the reading client; refinement to the list of events (C21) |
| C100 | all functions of capi/src that can fail, `map_cerr`, `annis_free`, `annis_str_free` | case analysis over all functions with lemmas for the shared endings; induction over iterators; negation witnesses |
| C101 | from the text to the rows: `parse`, `create_operator`, `make_exec_node`, `from_disjunction` put together; oracles for decisions of the planner | composition of C92, C93, C69, C98 and C61 against a specification of answers to the text; example corpus; negation witness for missing components |
| C102 | `exec` and the `set_*` functions of the console over an arbitrary storage | induction over the lines with frame lemmas for every command; text of numbers and switches specified independently |
| C103 | `corpus`, `delete` | invariant over the lines relative to the lines that delete a selected corpus; negation witnesses |
| C104 | `use_parallel`, the optional storage | exact step relation of the open storage; induction; negation witness |
| C105 | `ConsoleHelper`, positions in bytes | exact candidates and replaced line at the end of the line; exact condition of the overflow; negation witnesses |
| C106 | `import`, `export_graphml`, `Path::extension` | decision logic: the formats agree exactly for three extensions; negations for directories and missing paths |
| C107 | files and directories with open handles, `save_to`/`load_from` of all storages, saving with a backup | round trip and induction over rounds (C107_cycles_partial, C107_last); negations for path storages, old files and saving in place, each with a general theorem (C107_lost, C107_second, C107_stale, C107_in_place) |
| C108 | `find`, `find_in_single_corpus`, `count` from the text of a query | composition of C101, C34, C35, C39, C70, C74: the listing of all answers exists and is unique, and pages are its slices (C108_find_partial), for other orders slices of a permutation (C108_any_order_partial); existence of results (C108_no_error_partial) |
| C109 | `subgraph_for_query`, `subcorpus_graph`, `corpus_graph`, `extract_subgraph_by_query` | composition of C101 and C55 (generalised to missing token helper or ordering): the two fixed queries are shown to be translations of texts, so that C101 applies; the node sets are exact (C109_subcorpus, C109_corpus, C109_matched_partial); with optional searches the node of the default match is added (C109_query_exact_partial, C109_optional_fails) |
| C110 | `list_components`, `list_node_annotations`, `list_edge_annotations` over the cache and the disk | composition of C51 with C04, C05 and C20: exact lists after every safe history (C110_nodes_partial, C110_edges_partial, C110_components_partial, C110_disk_partial), no effect on later results (C110_unchanged); negation witnesses |
| C111 | `node_descriptions` and `validate_query` over the parser, the translation and the plans | composition of C69, C91 to C94 and C108: exact descriptions whose variables and texts are read back (C111_descriptions_partial), agreement with the shown columns (C111_columns_partial), errors (C111_errors), validity iff `count` gives a number (C111_valid_iff_count, C111_refused, C111_valid_partial) |
| C112 | the checks of `TimeoutCheck` in node searches and queries, the iterators of filters, nested loops, index joins and plans as machines that make checks, the block of the parallel nested loop | coinductive-style invariants (`Exact`, `Dead`), induction over derivations; refinement to the streams of C42/C44 and to the queries of C48 to C51 (C112_items, C112_count, C112_count_extra, C112_frequency, C112_find), divergence of the parallel nested loop (C112_parallel_hangs, C112_parallel_never) |
| C113 | a graph built by updates (`Graph.update` with `reindex`), the corpus that queries see in it (`corpusOf`), the text level of C101 | induction over the history of updates (`history_facts`), linking of the storages to the operators (`corpus_ok`, `db_ok`), renaming of nodes to names (`answer_fwd`, `answer_bwd`); results, counts and identifiers are those of the abstract graph (C113_results_partial, C113_count_partial, C113_find_partial) |
| C114 | the events of a relANNIS import (C79 to C85), the update of an empty graph with them, the corpus of C113 | conditions on the rows imply those of C50 and C113 for the only step of the history (`C114_history_partial`); the order, coverage and alignment of the graph are those of the rows (C114_rows_partial, C114_index_partial); results, counts and identifiers (C114_results_partial, C114_count_partial, C114_find_partial) |
| C115 | the document that `export` writes for a graph (`toDoc`), its import (C58), the update of an empty graph with the imported events, the corpus of C113 | the document presents the graph without generated components (C115_document, by the invariants of C37 and C38); the events rebuild the graph (C115_events_partial); the conditions of C113 are expressed by names and so carried over (`TextOk`, C115_history_partial); components (C115_components_partial); answers, results, counts and identifiers (C115_answers_partial, C115_results_partial, C115_count_partial, C115_find_partial) |
| C116 | states of the data directory and the cache under sequences of operations (Info) | invariant: a loaded entry has the components of its directory and the storages of its files (run_inv); info (C116_info, C116_info_succeeds), list (C116_list, C116_list_succeeds), both only read (C116_reads_only), preload (C116_preload, C116_preload_succeeds), queries (C116_query), what stays (C116_stays, C116_files), unload and delete (C116_unload) |
| C117 | the status of each outcome of `handle` (Web/Status) | reduction to the status after the checks (status_cases), then by the kind of the request (inner_reasons): one equivalence per status (C117_unauthorized, C117_forbidden, C117_bad_request, C117_not_found, C117_timeout, C117_gateway, C117_internal, C117_jobs), no other status (C117_known), nothing revealed without rights (C117_hidden) |
| C118 | lock file: open, lock, unlock, check, remove and crash of any number of processes | invariant over all interleavings; race as witness, exclusion without the overlap |
| C119 | reading and merging of settings, address of the service | equivalence with a specification field by field; published secret and range of ports as witnesses |
| C120 | `Display` of operators, ranges and annotation conditions | injectivity: texts are split at the first character outside a class, induction over negations |
| C121 | text of a plan | the tree is read back line by line from the indention; induction over descriptions with the text after them |

## Where the code disagrees with the claims

Each item has a theorem with `_fails` in its name, unless marked (reading only).

Annotation storages
* On disk, overwriting a value leaves the old value in the value index, so searches find stale matches (C06); the annotation key symbol is
  freed while in use after a removal that was evicted to disk, which loses annotations (C06); values with NUL or above `char::MAX` are
  not found by range scans (C06, C07); `clear` keeps counters (C04); `contains_key` is true for tombstones (C09); `get_all_values`
  with `most_frequent_first` sorts ascending (C05).

Graph storages
* Adjacency `distance` is not the shortest path (C12); `Excluded(0)` underflows (C11); linear inverse search is wrong for exclusive
  bounds and for empty ranges (C14); pre/post order `is_connected` decides on the first nested pair (C16); dense storage drops
  successors beyond the first and sources above the largest annotated node (C17); path storage misses node `u64::MAX` and answers
  distance 0 of a node to itself with `None` (C17, C59); disk adjacency misses node `u64::MAX` (C60); choosing a storage by
  statistics loses cycles no root reaches (C18).

Graph
* Deleting a node in an update that also creates a component leaves edges (C23); renaming by label breaks unique names and the node id
  cache (C24, C25); the log file only keeps the latest update, so two unsynced updates and a crash lose the first (C27) and a failed
  update rolls back too far (C26); recovery from the backup folder writes to `current/current` and loses the graph at the second open
  (C28).

Text formats
* Layer `default_layer` and the empty layer share a directory, `/` in layers or names is lost (C29, C30); qualified names are not
  percent-decoded after splitting (C32); corpus names "", ".", ".." escape the data directory (C38); node names with white space or
  `::` break match ids (C39); error positions of an empty query underflow, and an error without location can show the text of one with a location (C40); unbalanced regular expressions such as `a)|(b` match
  substrings, the exact value shortcut ignores assertions (C57); GraphML attributes are not unescaped, keys stay encoded, nodes
  without type are not exported (C58).

Search
* The sort of at least 21 items makes no progress while the smallest item is the pivot (C33); the comparison of matches is not
  transitive with two texts or nodes outside of the text (C34); errors in the skipped part are dropped (C35), count counts errors
  (C36); the first outer row of a nested loop join ignores the global distinctness rule, an index join repeats an error forever (C42);
  parallel joins differ from sequential ones and lose errors (C43); precedence on a segmentation, empty ranges, inclusion in
  single-token texts, overlap of spans with gaps, reflexive overlap (C45, C46); the inverse of `==` does not exchange operands (C47);
  token search loses single-token texts (C49); in a document with several texts the search for all tokens returns them in another order
  than the sort, so that the inverted order is not its reverse (C74); the join order changes results of non-reflexive operators (C61).
* Metadata without namespace is found twice if a node has it in two namespaces (C66). Replacing a node search by the source nodes of
  the components of an operator loses answers of negated operators and of `^`, doubles answers if a node is a source in two components,
  and changes the key shown for tokens (C67). An invalid pattern in an optional operand is no error: without index nothing passes, with
  index the value is ignored; a match is its own partner for operators that are not reflexive (C68).
* A name used for two nodes means the last of them everywhere, also where the first is written in place; a named node cannot be referred to
  by its number; after distributing a disjunction, and in quirks mode after artificial nodes, `#n` is not the n-th node of the text. In quirks mode `meta::` restricts all alternatives, is attached to an
  optional first node, and is not joined without a node search (C69). Rows of later alternatives are shown with the columns of the first, and
  frequencies take columns by the number in the whole query (C70). Not modelled, by reading: `#` with a number that does not fit into
  `usize` panics in the parser, and such a distance becomes 0 (parser.lalrpop).

Index and corpus storage
* Re-ordering tokens, adding `annis:tok` to existing nodes, named dominance edges, delete and re-add, and token labels on nodes with
  only dominance edges leave a wrong index (C50).
* Two updates before the write-back followed by an eviction lose the first; a stale writer overwrites newer content; a failed request
  leaves a phantom cache entry, so that create returns false, delete true and import fails; deleting and re-creating a corpus while an
  old writer is pending brings the old content back (C51, C52).
* Two clients that load the same corpus at the same time work on different entries, so that an acknowledged update is not seen (C53).
* A background writer that panics or finds a poisoned lock never decrements the counter; dropping the storage waits forever (C54).
* A subgraph for a query with a component type contains edges for gaps only if other queries have loaded the token order before (C75).
* An update that fails while two earlier updates are not yet written takes back the first of them; if reading the corpus fails after a
  failed update, a pending background thread saves the corpus without the components that were not read (C76).
* Loading while a background writer runs sees a half-written directory (reading only).
* Context subgraphs: overlapping regions with ids that are not in text order get wrong gap edges; a match that covers two texts loses
  tokens; interleaved ids lose gap edges; user coverage components with a name in layer `annis` are dropped (C55).
* A progress callback of `export_to_zip` runs while the entry is locked; if it calls the storage while the corpus is deleted, both
  wait forever (C63).
* Import logs errors of `save_to` and returns `Ok`; it removes the old corpus before the new one is stored, so an error loses both; after
  a failed import of a new corpus its directory stays and the next import is refused (C64).
* Node names of linked files are used as paths: `..` and absolute names write outside of the corpus, links read any file, `a/b` and
  `a//b` share a file (C65).
* Web service: a permitted corpus with a name like `x/../../../secret/files` shows whether another corpus has files; groups keep their
  rights after deletion if SQLite does not check foreign keys (C71). If all corpora are open, the corpus `..` gives files outside of the
  data directory; files with `..`, `%` or blanks around their name are listed but not sent; files of corpora with one of `:|*\` are looked
  for in a directory the storage does not use; without a node, nothing is listed for a corpus whose node name is encoded (C72). A job whose
  thread panics is running forever (C73).
* Export uses corpus names as path parts without escaping (reading only).

Import of relANNIS
* The value `NULL` cannot be written, and a token `NULL` stops the import (C77). The number added to the names of duplicated documents can
  give a name that exists (C78).
* `#` is not encoded in names of documents, and texts and nodes share the same names, so that different rows become one node; an annotation
  `annis:node_type` replaces the type (C79).
* The top-level corpus keeps its name, but its parts link to the encoded name: without a node of this name the corpus structure has no
  root. If its pre-order number is not 0 there is a second node for it with a leading slash, which gets the metadata (C80).
* Edges from a node to itself are lost, rank rows with unknown parents or components are ignored (C82). A span which ends between tokens
  covers only the token at its other end, and a gap in the numbers of tokens ends the coverage of a span (C83).
* The label for the whitespace before the first token of a text lacks its last character (C84). The annotation `annis:tok` is ignored (C85).
* Segmentation names with NUL break the keys of token positions (C86). `context-steps=0` in corpus.properties panics; a visualizer for the
  layer `mmax` removes both default rules of this layer; an unreadable order counts as 0 (C87). Without a visualizer table the corpus has no
  visualizers, not the default ones; `context.max` is never enforced (both by reading).

Statistics and estimates
* The guess for a key with only one annotation is 0; with more than 251 annotations or several keys with the same name it can be smaller than
  the true number, although it is called a maximum; `total - guess` underflows if a namespace begins with U+10FFFF or is above (C88).
* Nodes without edges that remain in the maps after deletions count as nodes and roots; a cycle that no root reaches is not noticed when there
  is a root (or such a leftover); the 99th percentile of the fan-out is the first percentile for 100 or more source nodes (C89).
* `^5,10` in a corpus whose longest text has fewer tokens, `.` with exchanged numbers and edge operators like `>0,2` underflow in the
  estimation (a panic when built with overflow checks); the product of two large estimates overflows; selectivities can exceed 1 (C90).

Query texts
* `pos->dep tok` without a blank before the arrow is read as the name `pos-`, dominance `>dep` and `tok`; `tok.tok` is a token and a
  precedence operator with the name `tok`; `node_o_node` is a name (C91).
* There is no way to write a value with a quotation mark; a reference like `#18446744073709551616` makes the parser panic, a distance of this
  size becomes 0; `Display` of a search for `x:arity` gives a text that cannot be parsed (C94).

### ZIP files and directories

* Names of corpora with `/` get lost on export: `a/b` is imported as `b`, `a/x` and `b/x` replace each other, `../a` and `/a` are left out
  without an error; the export to a directory writes outside of it for such names and for such names of file nodes (C96).
* Linked files called `corpus.tab`, `corpus.annis` or with the extension `graphml` are taken for corpora, and the import ends with an error
  that leaves a part of the corpora imported; so are directories with such a name (C96).
* A missing linked file is an error in the export to ZIP files only; a link that differs from the name of its node leads nowhere after the
  import (C96).

### Size of a corpus

* Without an ordering component of the tokens the size is 0; a configured segmentation that has no statistics (for example because it has
  one node and therefore no edge) removes size and unit, so that the next update uses another unit; of two orders with the same name in
  different layers an arbitrary one is counted; `update_corpus_size_info` returns `true` also if nothing was changed (C97).

### Results of whole queries

* `==` loses the annotation in index joins: the join takes the nodes that `EqualValue::retrieve_matches` gives and combines them with all
  annotations of the node search, so `#1 == #2` as the first operator also gives annotations of the node that have another value, as the last
  operator it does not (C98_equal_value_fails).
* Operators that are not reflexive exclude the same match for both operands only when they join; between nodes that are already joined they
  are filters without this test. `#1 _ident_ #2 & #1 _=_ #2` therefore finds the same node for both, `#1 _=_ #2 & #1 _ident_ #2` finds nothing
  (C98_order_fails). C98_exact describes the result for every order without the global rule; for queries whose operators form a tree it does
  not depend on the order (C98_tree).

### C interface
* Texts with a NUL character become empty strings (`unwrap_or_default`), so that different match identifiers and different rows of a frequency table can
  become equal (C99_nul_fails); `annis_cs_list` and the tables of annotations silently leave them out. C99_to_c_iff: only these texts change.
* A definition of a frequency table with a comma or colon in a name is read differently (C99_definition_fails).
* A successful call does not reset the error variable (C100_stale_fails): a client that uses one variable for several calls takes later
  successes for failures, and a second error leaks the first list.
* `annis_free` drops a `Box<c_void>`, i.e. deallocates one byte with alignment one without running the destructor. This is
  undefined behaviour for every object that is not an empty string, and leaks what the object owns (C100_free_fails). `annis_str_free` is right (C100_str_free).

### Texts to rows
* A negated operator on a segmentation that the corpus does not have should hold for all nodes, but the alternative has no results
  (C101_segmentation_fails).
* A negated part-of operator on a corpus without a part-of component should hold for all nodes, but the alternative has no results: creating the
  operator fails and `ExecutionPlan::from_disjunction` drops the error (C101_part_of_fails).
* A pattern that does not compile is reported only if the alternative has no operators. Otherwise the operator misses its operand first, the error
  is `NoComponentForNode`, it is dropped, and the query has no results and no error (C101_pattern_fails).
* C98 and C101 cover `optimize_node_search_by_operator`, under conditions that only matter for operators that really replace a search
  (`SizesOk`, `Replaceable`): the left operand is no token or metadata search, and its components do not share source nodes. Without them
  the results change (`C98_replaced_fails`: `tok -> tok` shows `annis:tok` instead of the node type once the component is small enough, C67).
* C101 leaves out quirks mode and parentheses.

### Graphs for queries
* Rows have a default match (node 0) in the columns of optional searches that are followed by other ones, and `subgraph_for_query` copies all
  columns. The graph for `cat? !->dep cat` contains node 0, usually a corpus, which is not part of any match (C109_optional_fails,
  C109_query_exact_partial).
* `subcorpus_graph` has no corpora and documents, so that all part-of edges to them are missing (C109_subcorpus_nonvacuous).
* Edges for gaps are added by `subgraph_for_query` and `corpus_graph` for every component type filter, if token helper and ordering are loaded.

### Command line
* With `-c` the value of `exec` is ignored: the commands behind `quit` are executed (C102_quit_fails). The argument of `set-order` is not trimmed,
  those of the other settings are (C102_order_space_fails).
* A deleted corpus stays selected (C103_deleted_fails). A corpus with white space in its name can be deleted but not selected (C103_space_fails,
  C103_select). A name that is given twice is selected twice.
* If the storage cannot be opened again, `set-parallel-search` leaves the console without a storage, and the same command with the old value reports
  success without opening one (C104_lost_fails, C104_stays_closed).
* The completer uses the whole last word of the line even if the cursor is inside of it: the replacement starts in the middle of the command, or
  `pos - corpus_prefix.len()` overflows (C105_cursor_fails, C105_overflow).
* `export` compares the extension with `.graphml` including the dot, which is never true (C106_check_fails; `export_to_fs` then refuses several
  corpora). Directories are exported as GraphML but imported as relANNIS (C106_directory_fails), and so are files with other extensions
  (C106_txt_fails); `import` of a missing path does nothing and reports nothing (C106_missing_fails).

### Files of components
* **Path storages are lost when a disk-based corpus is saved a second time.** `DiskPathStorage::save_to` does nothing if the new location is the one
  it was loaded from (disk_path.rs 388-400). `internal_save_with_backup` (graph/mod.rs 749-775), which runs after every update and at `re-optimize`,
  renames `current` to `backup` first, so the "same" location is a new, empty directory; then it deletes the backup. Only `impl.cfg` is left, and the
  component cannot be loaded again (C107_path_fails; C107_lost and C107_second for every graph). The model of Persist (C27, C28) treats the
  components as values that are always written, so its claims about durability hold for graphs without path storages only.
* `save_to` does not remove `component.bin` or `edge_stats.bin` of an older version, which `load_from` prefers (C107_stale, C107_stale_fails,
  C107_old_stats_fails). Statistics of an older version get one root, however many the component has (C107_roots_fails).
* `DiskMap::write_to` truncates the file before it reads the map. Saving a graph with storages on disk to the place that it was loaded from fails and
  destroys the tables (C107_in_place, C107_in_place_fails).

### Lists of annotations and components
* `list_components` reads the names of directories. After an update that is acknowledged and visible to queries it lists the components of the last
  saved version until the background writer has finished (C110_components_fails).
* A corpus that does not exist or can not be loaded has empty lists and no error (C110_unknown_fails, C110_unreadable_fails). Asking for the lists of
  a corpus that does not exist prevents that it is created afterwards, as in C52.
* With `only_most_frequent_values` the storage on disk gives the rarest value (C110_disk_fails, C110_disk_partial), see C05.

### Node descriptions and validation
* In quirks mode the nodes for metadata, which are not shown, and copies of nodes for joins, which are not in the text, are described like all other
  nodes (C111_quirks_fails, C111_copies_fails). With several alternatives and optional nodes the descriptions do not agree with the shown columns
  (C111_optional_fails), see C70.
* `pos!="NN"` is described without the name of its annotation (C111_anno_name_fails). The text of a description need not be a query
  (C111_fragment_fails), see C94.
* `validate_query` without corpora accepts every text (C111_no_corpus_fails). A pattern that does not compile is valid if it is the operand of an
  operator (C111_pattern_fails), see C101.

### Time limits
* **A query with a parallel nested loop never ends once its time limit is exceeded.** `NodeSearch::next` gives the time out error for every call after
  the limit (nodesearch.rs 1104-1109). `next_match_buffer` (parallel/nestedloop.rs 137-214) sends errors of its operands to a channel and goes on until
  the block has enough pairs or an operand ends; neither happens any more. The call does not return, and the channel grows
  (C112_parallel_hangs, C112_parallel_never, C112_parallel_fails). The sequential join returns the error. The web service (main.rs 99-103) uses
  parallel joins and time limits.
* `find` with limit 0 may exceed its time limit without an error (the exception in C112_find); collecting and sorting the results makes no check of
  its own. Optional nodes of negated operators are searched without a limit (non_existing.rs 223).

### C114: tables that the index is not made for

* A token that dominates another token is no longer found below the nodes that cover it: a span over both tokens begins with the second one
  (`C114_dominating_token_fails`).
* A node that covers tokens of two texts gets a first and a last token of different texts, in no order (`C114_two_texts_fails`).

`C114_*_partial` exclude both by `Spec.TextRows`. After the update the code calculates statistics and replaces the implementation of each component
(relannis.rs 349-363); the theorems keep the adjacency lists, since the other implementations answer the same (C14 to C17, C59, C60).

### C115: what an export loses

* A node whose label `annis::node_type` was deleted is not exported (`C115_untyped_fails`): `write_nodes` searches for nodes by this label
  (graphml.rs 144-155). Its edges are exported, but the update of the import ignores them, since one end does not exist.
* A component without edges is not in the document; after the import a query that needs it behaves as if it never existed (`C115_components_partial`).
* Keys and names that C58 excludes (`Readable`).

### C116: listing corpora

* One corpus with a `corpus-config.toml` that can not be read makes `list` fail for all corpora (`C116_list_fails`): the loop returns the first error
  (corpusstorage.rs 475-478). The same happens if counting the annotations of a loaded component fails (`C116_info_succeeds`, `C116_list_succeeds`).
* `info` of a corpus that does not exist succeeds, with the status "not loaded" and the default configuration (`C116_unknown_fails`).

### C117: status of answers

* A corpus that does not exist gives 500 for searches and subgraphs (documented: 400 for searches), and 200 with empty data for the configuration and the
  annotations (documented: 404). Missing rights give 403 (documented: 404 for requests about one corpus) (`C117_unknown_fails`).
* A group with a corpus named twice gives 502, a directory instead of a file gives 500 (`C117_put_fails`).
* An error of the GraphML export of a subgraph gives 502 with the text "Error accessing database" (`C117_export_fails`), since every
  `GraphAnnisCoreError` becomes a `DatabaseError` (errors.rs 163-167).

The lock file (C118)
* `Drop` unlocks the lock file and then removes it by name. A second process that locks the file in between keeps the lock of a file
  without a name, and a third process creates and locks a new one: two storages write to the same directory
  (`C118_exclusive_fails`). The same happens if the second process opened the file before and locks it after the removal.

Settings of the web service (C119)
* A settings file that does not set a secret (and does not choose public keys) is accepted, and tokens are verified with the secret
  published in default-settings.toml (`C119_secret_fails`); a token for an administrator signed with it is refused nothing
  (`C119_forged_fails`).
* The port is read as `i16`: ports from 32768 on are refused, negative numbers are accepted (`C119_port_fails`).

### C121: line breaks in descriptions

`debug_string` (exec/mod.rs 146-184) writes query fragments as they are. A value in a query may contain the end of a line, so a line of the
text of a plan need not be a step of the plan. `C121_plan_fails` gives two plans of different shape with the same text;
`C121_plan_partial` shows that without line breaks the text tells the alternatives and the tree of each of them,
and `C121_whole_partial` that it tells every part of each description if the names of steps are those of the code. Fragments of a query on one line
have no line breaks (`C121_search_fragment`, `C121_operator_fragment`).
The descriptions in the witness are arbitrary texts. That both of them are fragments of queries is not claimed.
