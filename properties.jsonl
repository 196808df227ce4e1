{"id": "C01", "title": "Union-find computes exactly the requested partition", "statement": "After any sequence of Union calls on a union_find(n), Find(a)==Find(b) holds exactly when a and b are linked by a chain of requested unions; Union returns true exactly when it joined two different sets; n() is the number of distinct sets; every Find terminates.", "quantifier": "every n, every finite sequence of Union/Find calls with arguments < n, every pair a,b", "why_tests_cant": "The reachable states are all parent forests produced by arbitrary call histories; tests sample a few histories.", "anchors": ["lib/data_structure/union_find.h: union_find, Union, Find, n"]}
{"id": "C02", "title": "NOI returns the exact minimum cut value", "statement": "For every undirected weighted graph with at least two vertices (connected or not), noi_minimum_cut::perform_minimum_cut returns the minimum, over all proper non-empty vertex subsets, of the total weight of edges leaving the subset.", "quantifier": "every well-formed graph with n>=2 whose minimum degree fits the 32-bit priority type, every random start vertex, every priority queue choice, limiting on or off", "why_tests_cant": "Optimality compares the result with exponentially many vertex subsets of every graph.", "anchors": ["lib/algorithms/global_mincut/noi_minimum_cut.h: perform_minimum_cut, modified_capforest, selectPq", "lib/algorithms/global_mincut/minimum_cut_helpers.h: updateCut", "lib/coarsening/contract_graph.h: fromUnionFind"]}
{"id": "C03", "title": "CAPFOREST only merges vertices that no smaller cut separates", "statement": "If modified_capforest(G, mincut) puts two vertices in the same set then every vertex subset that separates them is crossed by edges of total weight at least mincut; and if mincut is positive and at most the minimum degree at least one merge happens, so the enclosing loop makes progress.", "quantifier": "every graph, every mincut bound below 2^32, every start vertex, every tie-breaking order of the priority queue", "why_tests_cant": "The claim quantifies over all cuts of all graphs and all tie-breaking orders.", "anchors": ["lib/algorithms/global_mincut/noi_minimum_cut.h: modified_capforest"]}
{"id": "C04", "title": "The saved cut realises the reported value", "statement": "With save_cut enabled, after perform_minimum_cut the node-in-cut flags of the input graph describe a proper non-empty vertex subset and the total weight of edges leaving it equals the returned value.", "quantifier": "every graph with n>=2, every run of NOI (any start vertices, any queue)", "why_tests_cant": "Needs the relation between flags on the input graph and a value computed several contraction levels away, for every graph.", "anchors": ["lib/algorithms/global_mincut/minimum_cut_helpers.h: setInitialCutValues, updateCut, retrieveMinimumCut, minimumIndex"]}
{"id": "C05", "title": "Contraction preserves every cut that does not split a cluster", "statement": "The graph returned by contraction::fromUnionFind / contractGraph has one vertex per set, no self loops, and for every subset of coarse vertices the weight of edges leaving it equals, in the input graph, the weight of edges leaving the union of the corresponding sets.", "quantifier": "every graph, every partition of its vertices, every subset of coarse vertices", "why_tests_cant": "All graphs x all partitions x all subsets.", "anchors": ["lib/coarsening/contract_graph.h: fromUnionFind, contractGraph, contractGraphSparse, contractGraphVertexset"]}
{"id": "C06", "title": "Priority queues return an element of maximum key under every operation history", "statement": "For each of the five queues, after any legal sequence of insert, increaseKey/changeKey, deleteNode and deleteMax, contains/getKey/size report exactly the elements and keys the history implies, and deleteMax/maxValue return an element whose key is the maximum.", "quantifier": "every capacity, every legal operation history", "why_tests_cant": "Bucket/heap corruption typically needs long specific histories (ties, swaps with the last element, hint pointer moves).", "anchors": ["lib/data_structure/priority_queues/bucket_pq.h", "lib/data_structure/priority_queues/node_bucket_pq.h", "lib/data_structure/priority_queues/fifo_node_bucket_pq.h", "lib/data_structure/priority_queues/maxNodeHeap.h", "lib/data_structure/priority_queues/vecMaxNodeHeap.h"]}
{"id": "C07", "title": "mutable_graph stays structurally valid under every operation history", "statement": "After any sequence of edge insertions, edge deletions, weight changes, vertex additions and deletions and contractions through the public API, every half edge points to a partner half edge with equal weight pointing back at it, there are no self loops, and weighted degrees and the edge count equal the values recomputed from the adjacency lists. (Contracting a single edge is only asked of a graph without parallel edges, as checkGraphValidity demands.)", "quantifier": "every starting graph, every finite sequence of legal operations", "why_tests_cant": "Reverse-edge indices are patched by swap-with-last deletions; a wrong patch only shows after particular histories.", "anchors": ["lib/data_structure/mutable_graph.h: new_edge, deleteEdge, setEdgeWeight, contractEdge, contractVertexSet, deleteVertex, internalDeleteEdge", "lib/algorithms/misc/graph_algorithms.h: checkGraphValidity"]}
{"id": "C08", "title": "mutable_graph contraction adds up weights and deletes nothing else", "statement": "After contracting an edge or a vertex set, the weight between any two remaining (super-)vertices is the sum of the weights between their members before, and other weights are unchanged.", "quantifier": "every valid graph, every edge / vertex set", "why_tests_cant": "Ranges over all graphs and contraction targets, including the case in which the last vertex is moved into a freed slot.", "anchors": ["lib/data_structure/mutable_graph.h: contractEdge, contractVertexSet, mergeEdgeSparse, contractEdgeSparseTarget, contractSparseTargetNoEdge"]}
{"id": "C09", "title": "Every original vertex is always found in exactly one place", "statement": "After any history of contractions and edge updates, getCurrentPosition(v) is a live vertex whose containedVertices lists v, and no other live vertex lists v; after deleteVertex this holds for the original vertices of the remaining vertices.", "quantifier": "every graph, every history of contractions and vertex deletions", "why_tests_cant": "Two redundant maps must stay mutually inverse under every history.", "anchors": ["lib/data_structure/mutable_graph.h: getCurrentPosition, containedVertices, contractEdge, contractVertexSet"]}
{"id": "C10", "title": "graph_access construction stores exactly the edges given", "statement": "Building a graph_access with start_construction, new_node/new_edge in source order and finish_construction yields, for every vertex, exactly the inserted non-loop edges in order, including vertices without edges, and getEdgeSource inverts the edge ranges.", "quantifier": "every vertex count and every source-ordered edge sequence", "why_tests_cant": "Offsets of isolated vertices before, between and after sources form an unbounded family of cases.", "anchors": ["lib/data_structure/graph_access.h: start_construction, new_edge, finish_construction, get_first_edge, getEdgeSource"]}
{"id": "C11", "title": "Padberg-Rinaldi tests never merge across a cut below the bound", "statement": "Contracting the pairs marked by prTests12 / prTests34 with a bound at most the minimum degree leaves the minimum cut value unchanged whenever it is below the bound.", "quantifier": "every graph with edge weights in range, every bound, every sequence of marks in one pass", "why_tests_cant": "Soundness is a statement over all cuts of all graphs; integer truncation and parallel edges matter only for unusual inputs.", "anchors": ["lib/coarsening/contraction_tests.h: prTests12, prTests34"]}
{"id": "C12", "title": "Inexact algorithms never report less than the minimum cut", "statement": "viecut, padberg_rinaldi and matula_approx return the weight of some actual cut of the input graph, hence never less than the minimum cut, whatever clusters their heuristics choose.", "quantifier": "every graph with n>=2, every random choice made by label propagation or the tests", "why_tests_cant": "All random choices on all graphs.", "anchors": ["lib/algorithms/global_mincut/viecut.h", "lib/algorithms/global_mincut/padberg_rinaldi.h", "lib/algorithms/global_mincut/matula_approx.h"]}
{"id": "C13", "title": "Matula's approximation guarantee", "statement": "matula_approx::perform_minimum_cut returns the weight of a cut between the minimum cut and twice the minimum cut plus one, and exactly zero on disconnected graphs; the additional one is attained.", "quantifier": "every graph with n>=2, every start vertex and queue order", "why_tests_cant": "The ratio bound quantifies over all graphs.", "anchors": ["lib/algorithms/global_mincut/matula_approx.h: perform_minimum_cut, modified_capforest"]}
{"id": "C14", "title": "Push-relabel returns a maximum flow and a matching source set", "statement": "When push_relabel::solve_max_flow_min_cut is called with a problem id that is not stored on the edges, it ends; the returned value equals the minimum weight of a cut separating the source from all other terminals, and the returned source set contains the source, no sink, and is left by edges of exactly that weight. In limited mode, if it stops early, the limit is returned and no separating cut is lighter.", "quantifier": "every graph, every terminal list with distinct entries, every lawful queue (so every order of discharges of equal priority), every rule that decides when to relabel globally", "why_tests_cant": "Optimality ranges over all cuts; the order of discharges and the relabelling heuristics give unboundedly many executions.", "anchors": ["lib/algorithms/flow/push_relabel.h: solve_max_flow_min_cut, discharge, relabel, global_relabeling, gap_heuristic, computeSourceSet"]}
{"id": "C15", "title": "Flows of earlier flow problems are never visible", "statement": "Reading, adding to or setting the flow of an edge under a problem id behaves as if every edge had flow zero when that problem started, whatever earlier problems (with other ids) left behind, and never changes the graph.", "quantifier": "every graph, every sequence of flow problems with pairwise different ids that run one after the other, every list of flow operations in each", "why_tests_cant": "Lazy reset correctness depends on the complete history of ids per edge.", "anchors": ["lib/data_structure/mutable_graph.h: setEdgeFlow, addEdgeFlow, getEdgeFlow"]}
{"id": "C16", "title": "Serialisation round trip of a mutable_graph", "statement": "deserialize(serialize(G)) is a graph with the same edges, weights and original-vertex positions as G.", "quantifier": "every valid graph with 32-bit sizes", "why_tests_cant": "The encoding mixes counters and ids; ambiguity appears only for particular id/size combinations.", "anchors": ["lib/data_structure/mutable_graph.h: serialize, deserialize"]}
{"id": "C17", "title": "A multiterminal subproblem survives transmission", "statement": "A problem sent with sendProblem and received with recvProblem has the same graph, terminals, bounds, mappings and deleted weight.", "quantifier": "every problem", "why_tests_cant": "Every field combination and length must decode; tests exercise few shapes and need MPI.", "anchors": ["lib/algorithms/multicut/mpi_communication.h: sendProblem, recvProblem"]}
{"id": "C18", "title": "Graph file round trip", "statement": "Reading back a file produced by writeGraphWeighted (or writeGraph for unit weights) yields a graph with the same vertices, adjacency lists and weights.", "quantifier": "every graph whose ids and weights fit their types", "why_tests_cant": "All graphs; parsing quirks (empty lines for isolated vertices, trailing blanks, number widths) depend on content.", "anchors": ["lib/io/graph_io.h: writeGraphWeighted, writeGraph, readGraphWeighted, fast_atoi"]}
{"id": "C19", "title": "Self loops in an input file are ignored", "statement": "Reading a METIS file that contains self-loop entries gives the same graph as reading the file with these entries removed.", "quantifier": "every file, weighted and unweighted", "why_tests_cant": "All positions of self loops in all lines of all files.", "anchors": ["lib/io/graph_io.h: readGraphWeighted"]}
{"id": "C20", "title": "k-core decomposition is exact", "statement": "batagelj_zaversnik assigns to each vertex the largest k such that the vertex belongs to a subgraph in which all vertices have degree at least k, and lists the vertices in non-decreasing order of that value.", "quantifier": "every simple undirected graph", "why_tests_cant": "Maximality over all subgraphs of all graphs.", "anchors": ["lib/algorithms/misc/core_decomposition.h: batagelj_zaversnik"]}
{"id": "C21", "title": "Strongly connected component labels are exact", "statement": "Two vertices receive the same label from strongly_connected_components exactly when each is reachable from the other along residual (unsaturated) edges, and labels are numbered in reverse topological order of discovery.", "quantifier": "every graph and flow", "why_tests_cant": "Reachability in all graphs; the iterative DFS has many interleavings of root and unfinished stacks.", "anchors": ["lib/algorithms/misc/strongly_connected_components.h: explicit_scc_dfs, strong_components, largest_scc"]}
{"id": "C22", "title": "Multiterminal reductions keep an optimal solution", "statement": "Each contraction performed by the kernelization (low degree, high degree / heavy terminal edge, heavy triangle, connectivity above the bound, articulation points, equal neighbourhoods, flows) leaves the optimal multiterminal cut value of the problem unchanged (for the connectivity pass: whenever it is below the upper bound).", "quantifier": "every graph, every terminal set, every set of marks made in one pass", "why_tests_cant": "Optimality over all k-way partitions of all graphs.", "anchors": ["lib/algorithms/multicut/kernelization_criteria.h: kernelization, lowDegreeContraction, highDegreeContraction, triangleDetection", "lib/algorithms/misc/equal_neighborhood.h", "lib/algorithms/misc/find_articulation_points.h"]}
{"id": "C23", "title": "Bounds of a multiterminal problem enclose the optimum", "statement": "The lower and upper bound computed from isolating cuts enclose the optimal multiterminal cut of the problem: half the sum of isolating cuts (rounded up) is a lower bound and the sum without the largest is an upper bound, each plus the weight already deleted.", "quantifier": "every graph, every terminal set with at least two terminals", "why_tests_cant": "Optimality over all partitions.", "anchors": ["lib/algorithms/multicut/maximum_flow.h: maximumIsolatingFlow", "lib/algorithms/multicut/graph_contraction.h: deleteTermEdges, contractIsolatingBlocks"]}
{"id": "C24", "title": "Branching loses no optimal solution", "statement": "When the branch-and-bound solver branches on a vertex or an edge, the minimum over the created subproblems of (deleted weight + optimal cut) equals deleted weight + optimal cut of the parent.", "quantifier": "every problem, every branching vertex or edge", "why_tests_cant": "Quantifies over all solutions of all problems.", "anchors": ["lib/algorithms/multicut/edge_selection.h: findEdgeMultiBranch", "lib/algorithms/multicut/problem_management.h: multiBranch, singleBranch"]}
{"id": "C25", "title": "Local search reports exactly the improvement it makes", "statement": "gainLocalSearch moves only non-terminal vertices and the value it returns is exactly the decrease of the weight of edges between different blocks; it never makes the solution worse.", "quantifier": "every graph, every current solution, every random vertex order", "why_tests_cant": "All orders and all solutions; cached gains must never be stale.", "anchors": ["lib/algorithms/multicut/local_search.h: gainLocalSearch, improveSolution"]}
{"id": "C26", "title": "The reported multiterminal cut value is the weight of the reported partition", "statement": "flowValue of a solution with exactly one terminal per block equals the total weight of edges between different blocks, each counted once; for any other assignment the program stops with an error.", "quantifier": "every graph, every list of terminals and every assignment of vertices to blocks", "why_tests_cant": "All graphs and assignments.", "anchors": ["lib/algorithms/multicut/measurements.h: flowValue, getSolution"]}
{"id": "C27", "title": "The work queue neither loses nor duplicates subproblems", "statement": "Every problem given to per_thread_problem_queue::addProblem is later returned by exactly one pull/poll or handed over for sending, or discarded because its lower bound is not better than the global upper bound.", "quantifier": "every number of threads, every interleaving of queue operations", "why_tests_cant": "A lost update needs one specific interleaving of two threads.", "anchors": ["lib/algorithms/multicut/problem_queues/per_thread_problem_queue.h: addProblem, pullProblem, prepareQueue, getSendProblem"]}
{"id": "C28", "title": "Concurrent union-find is sound for every interleaving", "statement": "With any number of threads calling Union and Find concurrently, two elements end in the same set only if they are linked by requested unions, Find always terminates, and at quiescence linked elements are in the same set.", "quantifier": "every number of threads, every interleaving of the atomic steps", "why_tests_cant": "Interleavings cannot be enumerated by tests; the failing schedules need three threads in a narrow window.", "anchors": ["lib/parallel/data_structure/union_find.h: Find, Union, SameSet, UpdateRoot"]}
{"id": "C29", "title": "Parallel CAPFOREST is safe for every schedule", "statement": "Every pair of vertices merged by any thread of the parallel CAPFOREST is not separated by any cut lighter than the bound, whatever the interleaving of the threads.", "quantifier": "every graph, every number of threads, start vertices and interleavings", "why_tests_cant": "All schedules of unsynchronised shared visited flags.", "anchors": ["lib/parallel/algorithm/exact_parallel_minimum_cut.h: parallel_modified_capforest"]}
{"id": "C30", "title": "Dynamic minimum cut stays exact under every update history", "statement": "After initialize and any sequence of addEdge and removeEdge calls, the value reported by dynamic_mincut (return values and getCurrentCut) equals the minimum cut of the current graph, and the graph itself has exactly the edge weights the calls ask for.", "quantifier": "every initial graph, every finite sequence of insertions and deletions", "why_tests_cant": "Unbounded histories; the cached cactus must stay consistent with each update.", "anchors": ["lib/algorithms/global_mincut/dynamic/dynamic_mincut.h: initialize, addEdge, removeEdge, putIntoCache, buildCactusFromCache", "lib/algorithms/global_mincut/dynamic/cactus_path.h: findPath"]}
{"id": "C31", "title": "Extracted blocks are induced subgraphs", "statement": "graph_extractor::extract_block returns the subgraph induced by the vertices of the block together with a mapping back to the input vertices that preserves edges and weights.", "quantifier": "every graph, every partition, every block", "why_tests_cant": "All graphs and blocks.", "anchors": ["lib/tools/graph_extractor.h: extract_block"]}
{"id": "C32", "title": "Random permutations are permutations", "statement": "Every permutate_* helper leaves the vector a rearrangement of its previous content (or of 0..n-1 when asked to initialise), whatever numbers the generator returns, and never accesses an index out of range.", "quantifier": "every vector, every stream of random numbers", "why_tests_cant": "All random streams.", "anchors": ["lib/tools/random_functions.h: permutate_vector_local, permutate_vector_good, permutate_entries"]}
{"id": "C33", "title": "remap_cluster renames clusters without changing them", "statement": "The mapping returned by remap_cluster uses exactly the numbers 0..k-1, two vertices get the same number exactly when they had the same cluster id, and the reverse mapping lists each cluster's vertices once.", "quantifier": "every cluster assignment", "why_tests_cant": "All assignments.", "anchors": ["lib/algorithms/global_mincut/minimum_cut_helpers.h: remap_cluster"]}
{"id": "C34", "title": "BFS distances are exact", "statement": "graph_algorithms::bfsDistances returns for every vertex reachable from the start the length of a shortest path and a parent one step closer, leaves unreachable vertices without parent, and returns a farthest reachable vertex.", "quantifier": "every graph and start vertex", "why_tests_cant": "All graphs; shortest over all paths.", "anchors": ["lib/algorithms/misc/graph_algorithms.h: bfsDistances"]}
{"id": "C35", "title": "topK returns the k largest elements", "statement": "graph_algorithms::top_k returns k distinct vertices such that no other vertex has larger degree than a returned one.", "quantifier": "every graph and k", "why_tests_cant": "All inputs.", "anchors": ["lib/algorithms/misc/graph_algorithms.h: top_k"]}
{"id": "C36", "title": "Karger-Stein reports the weight of an actual cut", "statement": "For every graph with at least two vertices and every sequence of random numbers, whenever ks_minimum_cut returns, it returns the weight of some cut, hence never less than the minimum cut; on disconnected graphs it need not return.", "quantifier": "every graph, every random stream", "why_tests_cant": "All random streams.", "anchors": ["lib/algorithms/global_mincut/ks_minimum_cut.h"]}
{"id": "C37", "title": "Cactus represents every minimum cut", "statement": "The graph returned by cactus_mincut::findAllMincuts has, for every minimum cut of the input and only for those, a cut of the same value separating the same original vertices.", "quantifier": "every connected graph", "why_tests_cant": "All minimum cuts of all graphs.", "anchors": ["lib/algorithms/global_mincut/cactus/cactus_mincut.h", "lib/algorithms/global_mincut/cactus/recursive_cactus.h", "lib/algorithms/global_mincut/minimum_cut_helpers.h: setVertexLocations"]}
{"id": "C38", "title": "Conversion between the two graph classes preserves the graph", "statement": "Converting a graph_access to a mutable_graph and back keeps the vertices and the total weight between every two vertices, so every cut keeps its value.", "quantifier": "every undirected weighted graph, in both directions", "why_tests_cant": "Needs every multigraph; the merging of repeated edges depends on iteration order.", "anchors": ["lib/data_structure/mutable_graph.h: from_graph_access, to_graph_access"]}
{"id": "C39", "title": "Degree queries report current weights", "statement": "getWeightedNodeDegree, getMinDegree and getMaxDegree of graph_access agree with the current edge weights at any time after construction.", "quantifier": "every graph and every sequence of queries and setEdgeWeight calls", "why_tests_cant": "Depends on the order of queries and updates (a cache).", "anchors": ["lib/data_structure/graph_access.h: computeDegrees, getWeightedNodeDegree, setEdgeWeight"]}
{"id": "C40", "title": "Reading a graph file yields the graph it describes", "statement": "Reading a METIS graph file returns a graph with exactly the vertices, neighbours and edge weights listed in the file; comment lines, leading and trailing blanks and a missing final newline do not matter.", "quantifier": "every METIS file (any number of vertices, entries, comments and blanks; with and without weights)", "why_tests_cant": "Files are unbounded sequences of characters; every combination of tokens, separators, empty lines and comments must be parsed in step.", "anchors": ["lib/io/graph_io.h: readGraphWeighted, fast_atoi"]}
{"id": "C41", "title": "The branch and bound returns a minimum multiterminal cut", "statement": "When find_multiterminal_cut has processed all problems, it returns a labelling that puts every vertex into the block of exactly one terminal, and the returned weight is the weight of this labelling and the weight of a minimum multiterminal cut, in whatever order the problems are processed and however the threads interleave.", "quantifier": "every graph without parallel edges, every list of terminals, every order of the problems, every interleaving of the worker threads and the main thread, all random choices", "why_tests_cant": "The result depends on the schedule of several threads that share bounds and a queue; a problem that is discarded wrongly is only noticed on the inputs and schedules where it held the only optimum.", "anchors": ["lib/algorithms/multicut/branch_multicut.h: find_multiterminal_cut, pollWork, solveProblem, branchOnEdge", "lib/algorithms/multicut/problem_management.h: processNewProblem, findBestSolution, multiBranch", "lib/algorithms/multicut/measurements.h: getSolution, flowValue", "lib/data_structure/mutable_graph.h: simplify"]}
{"id": "C42", "title": "The cactus rebuilt after a removal represents all minimum cuts", "statement": "When the removal of an edge lowers the minimum cut, so that every minimum cut separates its two ends, the graph that dynamic_mincut rebuilds from one bounded maximum flow between them represents exactly the minimum cuts: its cuts of that weight are the minimum cuts of the graph, every vertex is in exactly one of its vertices, and two vertices are in the same one exactly if no minimum cut separates them.", "quantifier": "every graph, all pairs of vertices that every minimum cut separates, every limit above the minimum cut, every order in which the flow algorithm processes vertices and relabels", "why_tests_cant": "A graph has exponentially many cuts, and which maximum flow is found depends on the order of the vertices in the queue; a merged or lost class of vertices only shows in a later update.", "anchors": ["lib/algorithms/global_mincut/cactus/recursive_cactus.h: decrementalRebuild, findSTCactus", "lib/algorithms/global_mincut/dynamic/dynamic_mincut.h: removeEdge", "lib/algorithms/flow/push_relabel.h: solve_max_flow_min_cut", "lib/algorithms/misc/strongly_connected_components.h: strong_components"]}
{"id": "C43", "title": "The reductions before the recursive search lose no minimum cut", "statement": "When all minimum cuts are computed, the contractions that recursive_cactus applies before it runs flows (edges of too high connectivity, heavy edges, heavy triangles) never merge two vertices that a minimum cut separates, so every minimum cut of the graph is a cut of the reduced graph with the same weight and every cut of the reduced graph is a cut of the graph.", "quantifier": "every weighted graph without parallel edges, every start vertex, every priority queue, every order of contraction, any number of rounds", "why_tests_cant": "A graph has exponentially many cuts and the loss of one of many minimum cuts does not change the value that tests compare; whether it happens depends on weights, order of edges and the random start vertex.", "anchors": ["lib/algorithms/global_mincut/cactus/all_cut_local_red.h: allCutsPrTests12, allCutsPrTests34", "lib/algorithms/global_mincut/cactus/recursive_cactus.h: internalRecursiveCactus", "lib/algorithms/global_mincut/noi_minimum_cut.h: modified_capforest", "lib/coarsening/contract_graph.h: fromUnionFind"]}
{"id": "C44", "title": "The reported most balanced minimum cut is a most balanced one", "statement": "Given a graph and the cactus of its minimum cuts, the search for the most balanced minimum cut returns a minimum cut of the graph whose lighter side is at least as heavy as the lighter side of every other minimum cut (counting vertices, or weighted degrees when conductance is optimised), marks exactly one side of it on the vertices of the graph and returns exactly the edges between the two sides, whatever start vertex is drawn.", "quantifier": "every connected weighted graph, every cactus that represents its minimum cuts with cycle edges of half and other edges of full weight, every start vertex, both objectives", "why_tests_cant": "The number of minimum cuts can be quadratic in the size of the cactus and the tests only look at one of them; the outcome depends on a random start vertex and on the order of edges in the cactus.", "anchors": ["lib/algorithms/global_mincut/cactus/balanced_cut_dfs.h: runDFS, processVertex, investigateCycle", "lib/algorithms/global_mincut/cactus/most_balanced_minimum_cut.h: findCutFromCactus"]}
{"id": "C45", "title": "Articulation points are found exactly and what they cut off is merged", "statement": "The search for articulation points returns on every graph and reports exactly the cut vertices that are not the first vertex of their connected component. The reduction built on it never aborts; for each reported vertex it merges everything behind that vertex if all terminals are elsewhere, and everything of the component before it if all terminals are at or behind it, and the weight of an optimal multiterminal cut stays the same.", "quantifier": "every loop-free undirected graph (also disconnected), every set of terminals, every order of edges", "why_tests_cant": "The search uses an explicit stack with repeated entries and finishes vertices late, so its low points depend on the order of all edges; a wrong low point on a rare shape merges terminals or ends the program with exit(1).", "anchors": ["lib/algorithms/misc/find_articulation_points.h: findAllArticulationPoints, terminalsOnBothSides, backtrackTo, findAllArticulationPointsInCC", "lib/algorithms/multicut/kernelization_criteria.h: kernelization"]}
{"id": "C46", "title": "The multiterminal cut of a graph is the sum over its components", "statement": "Calling multicut on any graph with given terminal areas splits it into connected components, merges the area of each terminal in every component with at least two terminals into one problem, and never reports a vertex in two components. If each of these problems is solved to optimality, the returned sum is the smallest weight of the edges between different blocks over all ways to give every vertex a block such that all vertices of a terminal's area are in the block of this terminal.", "quantifier": "every weighted graph without parallel edges (connected or not), every number of terminals, every assignment of vertices to terminals, every iteration order of the hash sets", "why_tests_cant": "The tests use connected graphs with single-vertex terminals; the claim compares with all labelings of the vertices and has to hold for every way terminals and their areas are spread over components.", "anchors": ["lib/algorithms/multicut/multiterminal_cut.h: multicut, splitConnectedComponents", "lib/algorithms/multicut/graph_contraction.h: contractIsolatingBlocks", "lib/algorithms/misc/strongly_connected_components.h: strong_components", "lib/algorithms/misc/graph_algorithms.h", "lib/tools/graph_extractor.h: extract_block"]}
{"id": "C47", "title": "The written multiterminal solution realises the returned value", "statement": "When the solution is written, every vertex gets exactly one block below the number of terminals, every vertex of a terminal's area gets the block of this terminal, and the weight of the edges between different blocks equals the value that multicut returns.", "quantifier": "every weighted graph without parallel edges (connected or not), every assignment of vertices to terminals, all results of the problems that keep their terminals apart", "why_tests_cant": "The solution file is not read by any test, and the mapping between components, problems and positions only matters on disconnected graphs with components that have fewer than two terminals.", "anchors": ["lib/algorithms/multicut/multiterminal_cut.h: multicut, splitConnectedComponents"]}
{"id": "C48", "title": "Areas around terminals are disjoint, connected, bounded and maximal", "statement": "For distinct terminals, the areas that are grown around them before a multiterminal cut are pairwise disjoint, every area contains its terminal and is connected, no area has more vertices than the configured size, an area smaller than this size has no neighbour that belongs to no area, and the growing always ends. Without areas, the value computed for the areas is that of a minimum multiterminal cut of the terminals.", "quantifier": "every graph, every list of distinct vertices, every area size", "why_tests_cant": "The areas depend on the order of terminals and edges; tests only use a few fixed graphs and do not look at the areas.", "anchors": ["lib/algorithms/multicut/multiterminal_cut.h: addSurroundingAreaToTerminals, setOriginalTerminals"]}
{"id": "C49", "title": "Distant terminals are distinct and each is as far as possible", "statement": "The terminals chosen by distance are as many as requested and pairwise distinct, and each of them has the largest distance from the random start vertex and the terminals chosen before it.", "quantifier": "every graph with at least as many vertices as requested terminals, every random start vertex, every requested number", "why_tests_cant": "The choice depends on a random vertex and on the structure of the graph; no test covers disconnected graphs.", "anchors": ["lib/algorithms/multicut/multiterminal_cut.h: distantTerminals"]}
{"id": "C50", "title": "Vector files are read completely and round-trip", "statement": "Reading a vector file ends and gives one number for every line that is not a comment; a vector of numbers that has been written is read back unchanged.", "quantifier": "every vector, every text file", "why_tests_cant": "There are infinitely many files; the only test reads a file the program has written itself.", "anchors": ["lib/io/graph_io.h: readVector, writeVector"]}
{"id": "C51", "title": "Terminals given by number or file are assigned as given", "statement": "Terminals given by number are exactly the numbers that denote vertices, in the given order. With a block file every vertex belongs to the terminal of its block or to no terminal, and with a position file only vertices with a small enough position do; the result never names a terminal that does not exist.", "quantifier": "every list of numbers, every contents of the files, every number of terminals", "why_tests_cant": "The files and numbers are arbitrary user input; no test uses them.", "anchors": ["lib/algorithms/multicut/multiterminal_cut.h: terminalsByID, presetFileTerminals, orderFileTerminals"]}
{"id": "C52", "title": "Contracting heavy edges and cutting off leaves before the cactus is computed loses and invents no minimum cut", "statement": "In the computation of all minimum cuts, edges heavier than the minimum cut are contracted and vertices hanging on a single edge of the weight of the minimum cut are cut off first, and the cut off vertices are put back into the computed cactus. If the cactus of the reduced graph represents exactly its minimum cuts, the cactus with the vertices put back represents exactly the minimum cuts of the graph before the reduction, and every original vertex is found where the cactus says.", "quantifier": "every consistent graph with positive weights and no parallel edges, every distribution of the original vertices over it, every value c below which no cut lies, every iteration order of the hash maps and sets, every cactus of the reduced graph", "why_tests_cant": "A lost or invented minimum cut shows only on graphs where heavy edges and leaves meet in a particular way, and the hash iteration order differs between library versions; a test compares a few graphs.", "anchors": ["lib/algorithms/global_mincut/cactus/heavy_edges.h: removeHeavyEdges, reInsertVertices"]}
{"id": "C53", "title": "Contracting vertices with two neighbours before the cactus is computed loses and invents no minimum cut", "statement": "In the computation of all minimum cuts, a vertex with two neighbours whose weighted degree is the minimum cut is taken out and put back on the edge between the two neighbours (or as a leaf), and other vertices with two unequal edges are merged into the heavier neighbour. If the cactus of the reduced graph represents exactly its minimum cuts, the cactus with the vertices put back represents exactly the minimum cuts of the graph before, and the program does not exit while doing so.", "quantifier": "every consistent graph with positive weights and no parallel edges, every distribution of the original vertices over it, every value c below which no cut lies, every cactus of the reduced graph", "why_tests_cant": "Whether a cycle is restored correctly depends on the whole cactus computed in between; tests cover a few shapes.", "anchors": ["lib/algorithms/global_mincut/cactus/heavy_edges.h: contractCycleEdges, reInsertCycles"]}
{"id": "C54", "title": "Merging two cactuses keeps all their minimum cuts and adds none", "statement": "In the computation of all minimum cuts, the cactus of a contracted block is merged into the cactus of the rest at the vertex of the block, and a vertex that is left without content is contracted into a neighbour or replaced by a triangle when it has two or three branches. If both cactuses represent minimum cuts of one graph, the merge ends, does not abort the program, and gives a cactus that represents exactly the minimum cuts of the two.", "quantifier": "every graph with minimum cut c > 0, every two cactuses of families of its minimum cuts such that all vertices outside the block are at one vertex of the second cactus, every numbering and every order of edges", "why_tests_cant": "The shapes of the two cactuses around the merged vertex (number of cycles and tree edges, distance of the partners on a cycle) are unbounded, and the search for partners has no visited marks, so that it ends is not obvious.", "anchors": ["lib/algorithms/global_mincut/cactus/graph_modification.h: mergeGraphs, canonizeCactus"]}
{"id": "C55", "title": "The parallel contraction tests preserve the minimum cut under every schedule", "statement": "With several threads, the tests of Padberg and Rinaldi mark edges for contraction while other threads do the same and share flags without locks. Whatever the interleaving, contracting everything they mark leaves the minimum cut value unchanged if it is below the current bound and no vertex has a smaller degree; with the option to find all minimum cuts, no minimum cut is lost. No heavy edge is missed and no thread waits for another.", "quantifier": "every weighted graph, every bound, every distribution of the vertices over any number of threads, every interleaving of the accesses to shared memory (flags and union-find)", "why_tests_cant": "Threads claim vertices with plain stores and compare-and-swap; two tests that are safe alone are not safe together, and only rare interleavings of the claims would show it.", "anchors": ["lib/parallel/coarsening/contraction_tests.h: prTests12, prTests34", "lib/parallel/data_structure/union_find.h: Union"]}
{"id": "C56", "title": "Parallel contraction builds the quotient graph under every schedule", "statement": "Contracting a graph with several threads according to a mapping of its vertices to blocks gives a graph whose vertices are the blocks and in which the weight between two blocks is the total weight of the edges between their members, without self loops and parallel edges, for immutable and for mutable graphs. The threads do not block each other: they finish after a bounded number of steps.", "quantifier": "every weighted graph, every mapping onto the blocks, every number of threads and distribution of the vertices, every interleaving of the accesses to shared memory", "why_tests_cant": "Positions in the adjacency array are reserved with compare-and-swap loops that read the counter twice, and degrees are counted by the thread that happens to insert a key first; a lost update would need a rare interleaving.", "anchors": ["lib/parallel/coarsening/contract_graph.h: contractGraphSparse, contractGraphFullMesh, fromUnionFind", "lib/data_structure/graph_access.h: new_edge_and_reverse, new_node_hacky"]}
{"id": "C57", "title": "The recursion of the all-minimum-cuts computation returns the cactus of all minimum cuts", "statement": "For a connected graph with minimum cut c, the recursive computation returns a graph whose edges have weight c or c/2, in which every vertex of the input is listed at exactly one position, and whose cuts of weight c are exactly the minimum cuts of the input, one for one.", "quantifier": "every connected weighted graph, every choice of the flow edges, every iteration order of the hash containers, every schedule of the flow computation", "why_tests_cant": "The recursion splits the graph along the cuts between the ends of an edge chosen at run time and merges the results; a missing or additional cut shows up only for particular nestings of cycles and leaves, and the choice of the edges can be random.", "anchors": ["lib/algorithms/global_mincut/cactus/recursive_cactus.h: flowMincut, recursiveCactus, internalRecursiveCactus, mergeCactusWithComponent, findFlowEdge, maximumWeightedFlowEdge"]}
{"id": "C58", "title": "Edge selection rules of the cactus computation pick what they promise", "statement": "For every documented value of the option edge_selection, the cactus computation picks an existing edge of a connected graph and never exits: 'heavy' picks a vertex with the most edges and its neighbour with the most edges; 'heavy_weighted', 'heavy_vertex' and the default pick by weighted degree; 'central' picks the middle edge of a shortest path from a vertex v1 farthest from a random vertex to a vertex farthest from v1; 'random' picks some edge. The computed cactus does not depend on the rule: for each of them it represents exactly the minimum cuts.", "quantifier": "every connected graph with at least two vertices whose vertices all represent input vertices, every rule, every random vertex", "why_tests_cant": "All graphs and random choices; the middle of a shortest path is a statement over all paths.", "anchors": ["lib/algorithms/global_mincut/cactus/recursive_cactus.h: centralFlowEdge, maximumFlowEdge, maximumWeightedFlowEdge, findFlowEdge, internalRecursiveCactus", "lib/algorithms/misc/graph_algorithms.h: bfsDistances"]}
{"id": "C59", "title": "Edge selection rules of the multiterminal branching pick what they promise", "statement": "When the solver branches on an edge (no multi-branching), the option edge_selection decides which: 'heavy' a heaviest edge at a terminal, 'heavy_global' a heaviest edge of the graph, 'heavy_vertex' and every other name an edge from a terminal to a neighbour of largest weighted degree, 'distance' one to a neighbour with the largest weight of other edges, 'connection' the heaviest terminal edge of a vertex with the largest total weight to terminals, 'random' each edge at a terminal with the same probability. The chosen edge always exists and (except for 'heavy_global') is at a terminal, and branching on it loses no better solution.", "quantifier": "every subproblem with current terminals and at least one edge at a terminal, every random number, every rule", "why_tests_cant": "All graphs and random numbers; wrong choices only cost time or, for a non-existing edge, read outside of a vector on rare inputs.", "anchors": ["lib/algorithms/multicut/edge_selection.h: findEdgeSingleBranch, findHeavyEdge, findVertexWithHighDistance, findHeavyVertex, findGlobalHeaviestEdge, findEdgeWithManyTerminals, findRandomEdge", "lib/algorithms/multicut/problem_management.h: singleBranch"]}
{"id": "C60", "title": "The GraphML file written for the cactus contains all minimum cuts", "statement": "With a cactus file name, findAllMincuts writes its cactus to a GraphML file. Read as the format says, the file lists every vertex of the cactus exactly once with exactly the input vertices it represents, and every undirected edge exactly once with its weight (also parallel edges). So the file alone determines all minimum cuts: a set of input vertices is a minimum cut exactly if it is what is listed on one side of a cut of minimum weight of the written graph.", "quantifier": "every returned graph, with any number of vertices, empty vertices and lists of any length", "why_tests_cant": "All graphs and sizes; a test compares a few files, not that each edge stored at both endpoints is written once whatever the numbering.", "anchors": ["lib/algorithms/global_mincut/cactus/cactus_mincut.h: _write_cactus_graphml_file, cactus_mincut::findAllMincuts"]}
{"id": "C61", "title": "Reading a dynamic graph file yields its events in the order of time", "statement": "Reading a file of edge insertions and removals (lines u v t, u v w t, u v +w t or u v -w t, with comments) returns each event of the file exactly once, with the vertices, the signed weight and the time it states, ordered by time, and the number of vertices is the largest vertex number that occurs. For a file with a header p n m, the announced number of vertices and all listed edges are returned in the order of the file.", "quantifier": "every well-formed file, with any number of lines, blanks and any numbers in the range of their types, and every behaviour of the sorting routine that the C++ standard allows", "why_tests_cant": "All files; a library sort may treat equal times differently in every implementation.", "anchors": ["lib/io/graph_io.h: readTemporalGraph, readDimacs, fast_atoi"]}
{"id": "C62", "title": "The program writes a minimum cut of the graph in the input file", "statement": "Running the program mincut on a METIS file with the algorithm noi (or vc on small graphs), with the cut saved and an output path, prints the value of a minimum cut of the graph that the file describes; the output file has exactly one line 0 or 1 for each vertex, and the vertices with 1 and those with 0 are the two sides of a cut of the printed value.", "quantifier": "every well-formed METIS file of an undirected graph with at least two vertices, every priority queue, random choice and iteration order", "why_tests_cant": "All files and all choices of the algorithm; the claim spans reading, computing and writing.", "anchors": ["app/mincut.cpp: main", "lib/io/graph_io.h: readGraphWeighted, writeCut", "lib/algorithms/global_mincut/noi_minimum_cut.h: perform_minimum_cut", "lib/algorithms/global_mincut/viecut.h: perform_minimum_cut"]}
{"id": "C63", "title": "Cutting a dynamic graph down to its largest component keeps exactly its events", "statement": "The program temporal_largest_cc writes a dynamic graph file from which reading gives exactly the events between two vertices of a largest connected component of the graph of all events, each once and in the order of time, with unchanged weights and times; the vertices of the component are renumbered in their order without gaps.", "quantifier": "every list of events with numbers in the range of their types, every number of vertices and components, insertions, removals and self loops, and every order of events of the same time", "why_tests_cant": "All dynamic graphs; the claim spans the construction, the component search, the numbering and a second reading of the file.", "anchors": ["app/temporal_largest_cc.cpp: main", "lib/algorithms/misc/strongly_connected_components.h: strong_components", "lib/io/graph_io.h: readTemporalGraph"]}
