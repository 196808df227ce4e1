{"claims": [
 {"property": "C01", "status": "proved", "theorems": ["VieCut.C01_find_iff_linked", "VieCut.C01_find_terminates", "VieCut.C01_union_result", "VieCut.C01_count"], "note": "all histories, n < 2^31 not needed in the model (ints as Nat)"},
 {"property": "C02", "status": "proved", "theorems": ["VieCut.C02_noi_exact", "VieCut.C02_noi_terminates", "VieCut.C02_noi_exact_mutable"], "note": "Both graph classes: graph_access and mutable_graph. Weights are unbounded naturals; the hypothesis PQFits states when the 32-bit keys of the selected queue cannot overflow."},
 {"property": "C03", "status": "proved", "theorems": ["VieCut.C03_capforest_safe", "VieCut.C03_capforest_safe_any_queue", "VieCut.C03_capforest_progress", "VieCut.C03_capforest_terminates"], "note": ""},
 {"property": "C04", "status": "proved", "theorems": ["VieCut.C04_saved_cut", "VieCut.C04_saved_cut_mutable"], "note": "Flags and final partition indices; graph_access and mutable_graph."},
 {"property": "C05", "status": "proved", "theorems": ["VieCut.C05_fromUnionFind", "VieCut.C05_fromUnionFind_mutable", "VieCut.C05_fromUnionFind_inplace"], "note": "graph_access; mutable_graph with copy=true (both variants) and in place."},
 {"property": "C06", "status": "proved", "theorems": ["VieCut.C06_bucket_pq", "VieCut.C06_node_bucket_pq", "VieCut.C06_fifo_node_bucket_pq", "VieCut.C06_node_heap", "VieCut.C06_tie_break"], "note": "all five classes; bucket classes with 2*gain_span < 2^32"},
 {"property": "C07", "status": "proved", "theorems": ["VieCut.C07_consistent", "VieCut.C07_consistent_from", "VieCut.C07_view", "VieCut.C07_contract_no_parallel", "VieCut.C07_parallel_counterexample"], "note": "all histories of public calls; edge contraction requires a graph without parallel edges (counterexample C07_parallel_counterexample otherwise)"},
 {"property": "C08", "status": "proved", "theorems": ["VieCut.C08_contract", "VieCut.C08_vertex_count", "VieCut.C08_contraction_history", "VieCut.C08_history_cuts", "VieCut.C08_newEdge", "VieCut.C08_setEdgeWeight", "VieCut.C08_deleteEdge", "VieCut.C08_deleteVertex"], "note": "all four contraction calls, plus edge calls and vertex deletion"},
 {"property": "C09", "status": "proved", "theorems": ["VieCut.C09_found_once", "VieCut.C09_deleteVertex", "VieCut.C09_new_vertex_counterexample", "VieCut.C09_new_node_counterexample"], "note": "histories that keep the vertex set; vertex deletion separately; appending vertices after a deletion or beyond the announced size breaks it (counterexamples)"},
 {"property": "C10", "status": "proved", "theorems": ["VieCut.C10_construction", "VieCut.C10_edge_source", "VieCut.C10_ranges", "VieCut.C10_edge_id", "VieCut.C10_copy", "VieCut.C10_metis", "VieCut.C10_metis_self_loop_undefined"], "note": "Edge lists, edge ranges, edge ids, getEdgeSource, copy and metis construction for every source-ordered call sequence; a self loop passed to build_from_metis writes out of bounds (negative theorem)."},
 {"property": "C11", "status": "partial", "theorems": ["VieCut.C11_prTests12_partial", "VieCut.C11_prTests34_partial", "VieCut.C11_prTests12_truncation", "VieCut.C11_prTests34_parallel"], "note": "Proved for degrees below 2^32 (tests 1, 2) and graphs without parallel edges (tests 3, 4), in both modes and with the bound condition the code uses; the property is false outside (counterexamples proved)."},
 {"property": "C12", "status": "proved", "theorems": ["VieCut.C12_padberg", "VieCut.C12_padberg_exact", "VieCut.C12_padberg_terminates", "VieCut.C12_padberg_mutable", "VieCut.C12_viecut", "VieCut.C12_viecut_mutable", "VieCut.C12_viecut_terminates", "VieCut.C12_viecut_round", "VieCut.C13_matula", "VieCut.C13_matula_mutable"], "note": "Value of a cut for padberg_rinaldi and viecut on both graph classes and matula (C13); termination; saved cut for padberg_rinaldi and for viecut without coarsening."},
 {"property": "C13", "status": "proved", "theorems": ["VieCut.C13_matula", "VieCut.C13_matula_mutable", "VieCut.C13_matula_tight"], "note": "lambda <= result <= 2 lambda + 1, exact for 0; the bound is attained."},
 {"property": "C14", "status": "proved", "theorems": ["VieCut.C14_max_flow", "VieCut.C14_limited", "VieCut.C14_bad_terminal", "VieCut.C14_repeated_problem_id", "VieCut.C14_local_search", "VieCut.Problem.C14_isolating_block"], "note": "for runs that start with zero flow; a repeated problem id breaks it (C14_repeated_problem_id)"},
 {"property": "C15", "status": "proved", "theorems": ["VieCut.C15_problems_independent", "VieCut.C15_graph_unchanged", "VieCut.C15_interleaved_lost"], "note": "Sequential problems with distinct ids read exactly the values of the reference map; the graph is unchanged; interleaving counterexample proved."},
 {"property": "C16", "status": "partial", "theorems": ["VieCut.C16_round_trip_partial", "VieCut.C16_no_isolated", "VieCut.C16_isolated_ambiguous"], "note": "Round trip proved whenever every neighbour id is smaller than the number of edge entries (implied by every vertex having an edge) and positions fill the announced size; otherwise the encoding is ambiguous (proved counterexample)."},
 {"property": "C17", "status": "partial", "theorems": ["VieCut.MProblem.C17_transmission_partial", "VieCut.MProblem.C17_same_optimum_partial", "VieCut.MProblem.C17_priority_edge", "VieCut.MProblem.C17_edge_lost"], "note": "Bounds, deleted weight, mappings, terminals, graph (up to the order of adjacency lists) and optimum survive whenever the graph encoding is unambiguous (C16); the priority edge does not survive, and an ambiguous encoding loses an edge (proved counterexamples)."},
 {"property": "C18", "status": "proved", "theorems": ["VieCut.GraphIO.C18_round_trip", "VieCut.GraphIO.C18_unweighted", "VieCut.GraphIO.C18_mutable"], "note": "Character-level round trip for graph_access (weighted and unweighted writer) and for mutable_graph; graphs without self loops, ids and weights within their types."},
 {"property": "C19", "status": "partial", "theorems": ["VieCut.GraphIO.C19_unweighted_partial", "VieCut.GraphIO.C19_weighted_false"], "note": "Proved for files without edge weights; with edge weights the claim is false (proved counterexample)."},
 {"property": "C20", "status": "proved", "theorems": ["VieCut.C20_core_numbers", "VieCut.C20_core_graph"], "note": "Core numbers, order, positions and bucket boundaries for every undirected graph (parallel edges counted); createCoreGraph for unit weights returns a largest component of the k-core."},
 {"property": "C21", "status": "proved", "theorems": ["VieCut.C21_scc", "VieCut.C21_scc_residual", "VieCut.C21_largest"], "note": "Labels are exactly the classes of mutual reachability, numbered in reverse topological order, for graph_access and for the residual graph of mutable_graph; largest_scc extracts a largest class. Object used once (m_blocksizes is not cleared between calls)."},
 {"property": "C22", "status": "partial", "theorems": ["VieCut.Problem.C22_delete_terminal_edges", "VieCut.Problem.C22_high_degree", "VieCut.Problem.C22_equal_neighborhoods", "VieCut.Problem.C22_low_degree_partial", "VieCut.Problem.C22_nonterminal_flow_partial", "VieCut.Problem.C22_isolating_blocks", "VieCut.Problem.C22_articulation", "VieCut.Problem.C22_noi_partial", "VieCut.Problem.C22_low_degree_unsound", "VieCut.Problem.C22_triangle_unsound", "VieCut.Problem.C22_nonterminal_flow_unsound", "VieCut.Problem.C22_noi_unsound"], "note": "Proved for every problem: deletion of terminal-terminal edges, the high-degree pass, the equal-neighbourhood pass (hash without collisions between different degrees), contraction of (overlapping) isolating cuts, the articulation-point pass. Low-degree pass: proved when no degree-3 terminal has a non-terminal leaf; otherwise refuted. Non-terminal flows: proved for disjoint source sets, refuted for overlapping ones. Connectivity (NOI) pass: proved when terminal degrees are at most twice their isolating cuts, refuted after a high-degree pass. Triangle pass: refuted."},
 {"property": "C23", "status": "proved", "theorems": ["VieCut.Problem.C23_isolating_bounds", "VieCut.Problem.C23_two_terminals", "VieCut.Problem.C23_push_relabel"], "note": "with the flows of push-relabel: C23_push_relabel"},
 {"property": "C24", "status": "partial", "theorems": ["VieCut.Problem.C24_multi_branch", "VieCut.Problem.C24_precondition", "VieCut.Problem.C24_single_branch_partial", "VieCut.Problem.C24_degree_three_unsound"], "note": "Branching on a vertex (the default mode) is proved in full, with progress; branching on an edge is proved except when degreeThreeContraction applies, which is refuted."},
 {"property": "C25", "status": "proved", "theorems": ["VieCut.C25_gain_exact", "VieCut.C25_flow_exact", "VieCut.C25_improve_exact"], "note": "gainLocalSearch, flowBetweenBlocks and improveSolution: reported improvement = exact decrease, never negative, fixed vertices unmoved, termination. Graph without parallel edges for the gain search. The maximum flow routine is a parameter assumed to return a minimum cut."},
 {"property": "C26", "status": "proved", "theorems": ["VieCut.C26_flow_value"], "note": "flowValue equals the weight between different blocks, or fails."},
 {"property": "C27", "status": "partial", "theorems": ["VieCut.WQ.C27_conserved_partial", "VieCut.WQ.C27_serial", "VieCut.WQ.C27_no_deadlock", "VieCut.WQ.C27_lost_problem", "VieCut.WQ.C27_double_unlock", "VieCut.WQ.C27_duplicated_problem", "VieCut.WQ.C27_null_problem"], "note": "Conservation is proved for all schedules that avoid the two races of addProblem and for all serial schedules; the defects are refuted by concrete schedules."},
 {"property": "C28", "status": "partial", "theorems": ["VieCut.CUF.C28_sound", "VieCut.CUF.C28_obstruction_free", "VieCut.CUF.C28_complete_partial", "VieCut.CUF.C28_lost_union", "VieCut.CUF.C28_cycle"], "note": "Soundness for every schedule, termination of a thread that runs alone (even on a cyclic forest), completeness at quiescence when unions do not overlap. The unrestricted completeness claim is false of the code: C28_lost_union and C28_cycle. Missing: termination of Find under every schedule."},
 {"property": "C29", "status": "partial", "theorems": ["VieCut.PCF.C29_safe_partial", "VieCut.PCF.C29_no_blacklist", "VieCut.PCF.C29_one_thread", "VieCut.PCF.C29_merged_partial", "VieCut.PCF.C29_exact_partial", "VieCut.PCF.C29_driver_terminates", "VieCut.PCF.C29_race_unsound"], "note": "Safe for every schedule in which no thread sets visited[tgt] between the two tests of another thread, for calls with the blacklist disabled and for one thread; composed with C28 and with the driver (exactness of the returned value). With the race the claim is false of the code: C29_race_unsound."},
 {"property": "C30", "status": "partial", "theorems": ["VieCut.Dyn.C30_exact_partial", "VieCut.Dyn.C30_removals", "VieCut.Dyn.C30_wrong_value", "VieCut.Dyn.C30_insertion", "VieCut.Dyn.C30_removal", "VieCut.Dyn.C30_flow", "VieCut.Dyn.C30_noi", "VieCut.Dyn.C30_rebuild"], "note": "False as stated: C30_wrong_value gives correct routines, a graph and six insertions after which the reported value is 2 and every cut has weight at least 3 (findPath omits the vertex joining two cycles). Proved: every history of removals is exact (C30_removals); every history is exact as long as each reached cactus separates its vertices and no removal stores an already cached value (C30_exact_partial). Of the called routines only the computation of the first cactus (and of the cactus after insertions) is assumed to meet its specification; bounded flow, exact cut and the cactus after a removal are instantiated by C30_flow, C30_noi and C30_rebuild (the last for minimum cuts below 2^31-1)."},
 {"property": "C31", "status": "proved", "theorems": ["VieCut.C31_extract_block", "VieCut.C31_extract_block_mutable"], "note": "Both overloads of extract_block."},
 {"property": "C32", "status": "proved", "theorems": ["VieCut.C32_permutations"], "note": "All permutation helpers, arbitrary random streams."},
 {"property": "C33", "status": "proved", "theorems": ["VieCut.C33_remap"], "note": "Cluster ids below n (others are out of range in the code)."},
 {"property": "C34", "status": "proved", "theorems": ["VieCut.C34_bfs"], "note": "Exact distances, parents, unreachable vertices and farthest vertex."},
 {"property": "C35", "status": "proved", "theorems": ["VieCut.C35_top_k"], "note": "For every result allowed by the specification of std::nth_element."},
 {"property": "C36", "status": "proved", "theorems": ["VieCut.C36_ks_attained", "VieCut.C36_disconnected_diverges"], "note": "Every returned value is a cut value, for every random stream; a disconnected graph on which no stream lets it return."},
 {"property": "C37", "status": "partial", "theorems": ["VieCut.Cactus.C37_partial", "VieCut.Cactus.C37_run_partial", "VieCut.Cactus.C37_run_cactus_partial", "VieCut.Cactus.C37_mutable_partial", "VieCut.Cactus.C37_small", "VieCut.Cactus.C37_terminates", "VieCut.Cactus.C37_wrong_value", "VieCut.Cactus.C37_small_run_partial", "VieCut.Cactus.C37_mutable_run_partial", "VieCut.Cactus.C37_mutable_small_run_partial"], "note": "findAllMincuts on graph_access and mutable_graph: kernelization, remembered pendant edges and their unpacking keep exactly all minimum cuts, for every connected graph without parallel edges, every queue, starting vertex and hash order; the returned value is that of a cut, and the minimum cut up to 100 vertices. C37_run_partial covers the whole run on graph_access with the modelled recursion (conditions of C57: the reductions keep the minimum cuts where they are called, vertices are listed at their positions; edge weights positive, minimum cut below 2^31 - 1). In C37_partial and C37_mutable_partial the recursion is a parameter that meets RCSpec (shown satisfiable). False in general: C37_wrong_value (value 2 returned for minimum cut 1 on 103 vertices). C37_run_cactus_partial adds that the returned graph is a cactus (every edge on at most one cycle, edges of cycles weigh half the minimum cut, the others the minimum cut), and when its lists agree with the positions. C37_small_run_partial is the whole call without a known value on 2 to 100 vertices: viecut computes the minimum cut and the run returns it with a cactus of all minimum cuts. C37_mutable_run_partial is the whole run, with the shape of the result, on a finished mutable_graph."},
 {"property": "C38", "status": "partial", "theorems": ["VieCut.C38_from_graph_access_partial", "VieCut.C38_from_graph_access_overcounts", "VieCut.C38_to_graph_access", "VieCut.C38_round_trip_partial"], "note": "to_graph_access proved for all graphs; from_graph_access and the round trip proved for graphs without parallel edges; with parallel edges weights are overcounted (proved counterexample)."},
 {"property": "C39", "status": "partial", "theorems": ["VieCut.C39_degree_partial", "VieCut.C39_degree_stale"], "note": "Proved as long as no weight changes after degrees are cached; setEdgeWeight leaves cached degrees stale (proved counterexample)."},
 {"property": "C40", "status": "partial", "theorems": ["VieCut.GraphIO.C40_read_partial", "VieCut.GraphIO.C40_read_mutable_partial", "VieCut.GraphIO.C40_final_newline", "VieCut.GraphIO.C40_vertex_weights_misread", "VieCut.GraphIO.C40_double_space_misread"], "note": "Proved for all files with format codes none, 0 and 1, comments anywhere, leading and trailing blanks and single separators; vertex weights and repeated separators are misread (proved counterexamples)."},
 {"property": "C41", "status": "partial", "theorems": ["VieCut.BB.C41_minimum_partial", "VieCut.BB.C41_bound_partial", "VieCut.BB.C41_recorded_solution", "VieCut.BB.C41_exit_reachable", "VieCut.BB.C41_race", "VieCut.BB.C41_lost_update", "VieCut.BB.C41_announced_bound", "VieCut.BB.C41_call_alone"], "note": "Proved for all schedules in which findBestSolution is one step, for runs that do not exit and do not meet one of three named situations, and minimum cuts below 2^32-1; feasibility of recorded solutions is proved without these conditions. Refutations of the full claim: exit on a five-vertex graph, race, lost update, 32-bit bound."},
 {"property": "C42", "status": "partial", "theorems": ["VieCut.STCactus.C42_rebuild_partial", "VieCut.STCactus.C42_classes_partial"], "note": "Proved for all graphs that were constructed with their final number of vertices and whose minimum cut is below 2^31-1, for all lawful priority queues and relabelling schedules. Missing: larger minimum cuts (the bucket queue orders vertices by a key of 32 bits and allocates a bucket per unit of the cut) and graphs to which vertices were appended after construction (original_nodes is not raised, their positions are lost). Calls of findSTCactus inside the full recursion, where minimum cuts need not all separate s and t, are not covered."},
 {"property": "C43", "status": "partial", "theorems": ["VieCut.AllRed.C43_prTests34", "VieCut.AllRed.C43_prTests12_partial", "VieCut.AllRed.C43_reduce_partial", "VieCut.AllRed.C43_terminates", "VieCut.AllRed.C43_prTests12_loses", "VieCut.AllRed.C43_loses"], "note": "allCutsPrTests34 and modified_capforest keep all minimum cuts; allCutsPrTests12 keeps the trivial ones and keeps each other one or puts one of its sides into one vertex. That it keeps all is false (AllRed.C43_prTests12_loses, AllRed.C43_loses)."},
 {"property": "C44", "status": "proved", "theorems": ["VieCut.Balanced.C44_mostBalanced", "VieCut.Balanced.tail_meets", "VieCut.Cactus.C44_run_partial"], "note": "Stated for the cactus handed to findCutFromCactus: that it represents all minimum cuts is C37/C42. Weights are unbounded naturals; the call with minimum cut 0 returns no edges and leaves the flags alone. C44_run_partial composes it with the whole run of findAllMincuts of C37, under the conditions of C37_run_partial and if the recursion leaves no stale lists behind."},
 {"property": "C45", "status": "proved", "theorems": ["VieCut.C45_exact", "VieCut.C45_merges", "VieCut.Problem.C22_articulation"], "note": "Exact report (C45_exact), termination without exit and complete merging (C45_merges), unchanged optimum (C22_articulation)."},
 {"property": "C46", "status": "proved", "theorems": ["VieCut.Driver.C46_value", "VieCut.Driver.C46_runs_partial"], "note": "C46_value: the split always succeeds and the sum of optimal values of the problems is the optimum of the whole graph. C46_runs_partial composes this with the runs of the branch and bound (restrictions of C41: no exit, nothing stray, values below 2^32-1)."},
 {"property": "C47", "status": "partial", "theorems": ["VieCut.Driver.C47_written_partial", "VieCut.Driver.C47_connected_numbers", "VieCut.Driver.C47_out_of_bounds", "VieCut.Driver.C47_not_written"], "note": "Proved if the components with at least two terminals are numbered first (in particular for connected graphs) and the results put terminal i of a problem into block i. Otherwise the code reads outside the vector of solutions: nodeProblemMapping holds the number of the component, not of the problem (C47_out_of_bounds, C47_not_written)."},
 {"property": "C48", "status": "proved", "theorems": ["VieCut.Terminals.C48_areas", "VieCut.Terminals.C48_loop_ends", "VieCut.Terminals.C48_multicut", "VieCut.Terminals.C48_repeated"], "note": "Areas of distinct terminals: own terminal, connected, size, maximality, termination; for area size at most one the value of C46 is that of a minimum multiterminal cut. Repeated terminals are outside the property (C48_repeated shows what happens)."},
 {"property": "C49", "status": "partial", "theorems": ["VieCut.Terminals.C49_distance", "VieCut.Terminals.C49_distinct_partial", "VieCut.Terminals.C49_repeats", "VieCut.Terminals.C49_distinct_false", "VieCut.Terminals.C49_loop_ends"], "note": "The distance claim holds always; distinctness only if the component of the random vertex has more vertices than terminals are requested (C49_repeats and C49_distinct_false refute it otherwise)."},
 {"property": "C50", "status": "partial", "theorems": ["VieCut.VectorIO.C50_round_trip", "VieCut.VectorIO.C50_read_partial", "VieCut.VectorIO.C50_comment_hangs", "VieCut.VectorIO.C50_large"], "note": "Round trip proved for numbers below 2^53; files without comments are characterised. Files with comments make the reader hang (proved), text after the last newline is ignored."},
 {"property": "C51", "status": "partial", "theorems": ["VieCut.Terminals.C51_numbers", "VieCut.Terminals.C51_order", "VieCut.Terminals.C51_preset_partial", "VieCut.Terminals.C51_out_of_bounds"], "note": "Exact for numbers and position files. A block file with numbers above the number of terminals is accepted and read out of bounds later (C51_out_of_bounds)."},
 {"property": "C52", "status": "proved", "theorems": ["VieCut.C52_heavy_edges_and_leaves"], "note": "For every piece (graph with positions) and all iteration orders; Spec/CactusPieces.lean states what a cactus of a family of splits is."},
 {"property": "C53", "status": "partial", "theorems": ["VieCut.C53_cycles_partial"], "note": "Partial correctness: whenever reInsertCycles returns, the result is a cactus of the graph before. Missing: that it never reaches its exit(1) when the cactus it is given is canonical."},
 {"property": "C54", "status": "proved", "theorems": ["VieCut.C54_merge", "VieCut.C54_canonize", "VieCut.C54_stale_entries", "VieCut.C54_odd_triangle"], "note": "The lists of the first cactus are assumed to hold exactly the vertices of the level; entries left over from an outer level would stay (C54_stale_entries)."},
 {"property": "C55", "status": "partial", "theorems": ["VieCut.C55_prTests12_partial", "VieCut.C55_prTests34_partial", "VieCut.C55_round12_partial", "VieCut.C55_round34_partial", "VieCut.C55_progress", "VieCut.C55_heavy_edges", "VieCut.C55_truncation", "VieCut.C55_parallel_edges"], "note": "Every schedule and distribution, for the tests and for a whole round (tests, union-find, mapping, contraction). Restricted to degrees below 2^32 (the degrees are stored in 32 bits; C55_truncation is a counterexample with one thread) and, for tests 3 and 4, to graphs without parallel edges (C55_parallel_edges). The heavy edge and triangle searches of the same file are not modelled with threads."},
 {"property": "C56", "status": "proved", "theorems": ["VieCut.C56_quotient", "VieCut.C56_mutable", "VieCut.C56_full_mesh", "VieCut.C56_full_mesh_bounds", "VieCut.C56_fromUnionFind", "VieCut.C56_wait_free", "VieCut.C56_lock_free"], "note": "All schedules. The concurrent hash table (a library) is assumed to be linearizable; weights do not wrap around."},
 {"property": "C57", "status": "partial", "theorems": ["VieCut.C57_recursion_partial", "VieCut.C57_cactus_partial", "VieCut.C57_findSTCactus", "VieCut.C57_listed_twice", "VieCut.C57_findSTCactus_cactus", "VieCut.C57_stale_list"], "note": "Proved: if the recursion returns, the result is a cactus of all minimum cuts, with findSTCactus proved in full (C57_findSTCactus: paths and cycles). Assumed: the reductions keep the minimum cuts where they are called (they do not always, C43_loses), and the vertices with a position in an argument of findSTCactus are listed there. Counterexample to the full claim: with the random choice of flow edges a vertex of the input can be listed at two vertices of the cactus. Weights below 2^31 - 2. C57_cactus_partial and C57_findSTCactus_cactus: the result is a cactus also in the sense of its cycles. C57_stale_list: canonizeCactus leaves the list of the last vertex behind, the next new_empty_node inherits it."},
 {"property": "C58", "status": "partial", "theorems": ["VieCut.RecCactus.C58_exists", "VieCut.RecCactus.C58_heavy", "VieCut.RecCactus.C58_weighted_partial", "VieCut.RecCactus.C58_central", "VieCut.RecCactus.C58_recursion_partial", "VieCut.RecCactus.C58_truncation", "VieCut.RecCactus.C58_unknown_rule"], "note": "Existence, heavy, central and random for all graphs; weighted rules for degrees below 2^32 (false otherwise: C58_truncation). C58_recursion_partial: with any rule the recursion returns the cactus of all minimum cuts, under the conditions of C57."},
 {"property": "C59", "status": "partial", "theorems": ["VieCut.Problem.C59_heavy", "VieCut.Problem.C59_global", "VieCut.Problem.C59_heavy_vertex", "VieCut.Problem.C59_random", "VieCut.Problem.C59_priority", "VieCut.Problem.C59_connection_partial", "VieCut.Problem.C59_distance_partial", "VieCut.Problem.C59_branch_partial", "VieCut.Problem.C59_connection_wraps", "VieCut.Problem.C59_distance_no_edge"], "note": "heavy, heavy_global, heavy_vertex and random for all problems; distance if some neighbour of a terminal has another edge (otherwise false: C59_distance_no_edge), connection if the weights to terminals are below 2^16 (otherwise false: C59_connection_wraps). Branching on the chosen edge with the restriction of C24."},
 {"property": "C60", "status": "proved", "theorems": ["VieCut.C60_written_cactus", "VieCut.C60_file_cuts", "VieCut.C60_ids_distinct"], "note": "The file is the list of its characters; opening, writing and closing it are left out. That the graph represents all minimum cuts, and that its lists agree with the positions, are assumptions of C60_file_cuts; they are what C37_run_cactus_partial shows."},
 {"property": "C61", "status": "partial", "theorems": ["VieCut.C61_events", "VieCut.C61_ties_open", "VieCut.C61_dimacs_partial", "VieCut.C61_dimacs_dropped"], "note": "Proved for every file of events (all four forms, comments, additional blanks): each possible result is a permutation of the events sorted by time, with the right number of vertices. The order of events of the same time is open (C61_ties_open). For files with a header p, exactly the edges with the smaller vertex first are returned; C61_dimacs_dropped refutes that all are."},
 {"property": "C62", "status": "partial", "theorems": ["VieCut.C62_written", "VieCut.C62_program", "VieCut.C62_program_vc_partial"], "note": "noi: whole program for all files; viecut: graphs with at most 10000 vertices. Command line parsing, other algorithms, several iterations or threads and the failure to open files are left out."},
 {"property": "C63", "status": "proved", "theorems": ["VieCut.C63_program", "VieCut.C63_largest_component", "VieCut.C63_applies"], "note": "From the events on, with the model of strong_components (C21); C63_applies shows that what is read from a file of events meets the assumptions. to_graph_access, which copies the adjacency lists, and opening files are left out."}
]}
