# A Lean 4 model of VieCut

Source: `/repo` (VieCut/VieCut, C++). The code is read as text; nothing is run.

## Layout

* `lean/Verif/Spec/…`   small, code-independent specifications (cut value, minimum cut, partition
  generated by a list of pairs, multiterminal cut, …). These are the files to read first.
* `lean/Verif/Model/…`  the model: one definition per C++ function, with a comment citing file and lines.
* `lean/Verif/Proof/…`  helper lemmas and invariants.
* `lean/Verif/Props/…`  the property theorems (named after the property, `C01_…`), each followed by an
  `example` that instantiates its hypotheses on a concrete non-trivial case.
* `seeded/LOG.jsonl`    mutation experiments; `MANIFEST.json` property -> theorem map.

## Trusted base

* Lean 4.33.0's kernel and Mathlib as installed. Axioms: at most `propext`, `Classical.choice`, `Quot.sound`.
  No own axioms, no `sorry`, no `native_decide`, no `bv_decide`.
* The reading of the C++ source: the model is a hand translation.
* Conventions of the translation
  * `std::vector<T>` indexed by vertex becomes either a `List` or a total function `Nat → T` together with a
    size; functions are updated pointwise. Where an out-of-range access is possible in the code it is a
    distinct outcome (`none`) or an explicit precondition.
  * Unsigned machine integers become `Nat`. Where wrap-around or truncation can change the behaviour inside
    the property's domain, `% 2^32` / `% 2^64` is written in the model; otherwise "no overflow" is listed.
  * Random choices, hash-set iteration order, thread schedules and the timing of heuristics are universally
    quantified parameters (oracles).
  * Loops become structural recursion over the iterated list, or recursion on fuel with a theorem that the
    fuel suffices.

## Plan per property

| id | what is modelled | how it is proved |
|----|------------------|------------------|
| C01 | `union_find` (parent/rank arrays, recursion of `Find` with path compression) | invariant (rank increases along parents, so `Find` terminates) + refinement to the equivalence closure of the requested pairs |
| C02 | `perform_minimum_cut`, `modified_capforest`, `updateCut`, `fromUnionFind`, `contractGraphSparse` | C03 + C05, induction on number of vertices |
| C03 | the scan loop over an abstract max-priority queue (instances: all queues of C06) | scan-order invariant: connectivity bound between consecutive vertices (Stoer–Wagner/NOI argument with keys capped at the bound) |
| C04 | in-cut flags of `setInitialCutValues`/`updateCut` through the list of level mappings | invariant of the main loop |
| C05 | `fromUnionFind`, `contractGraphSparse` (weights array, edge_positions set, arbitrary set iteration order), vertex-set variant | sum re-indexing |
| C06 | five queue classes | representation invariant + refinement to a key map |
| C07–C09 | `mutable_graph` with half-edge lists and reverse indices | representation invariant (= `checkGraphValidity`) preserved by every op; abstraction to a weight matrix |
| C10 | `graph_access` CSR construction | invariant over the construction history |
| C11 | `prTests12`, `prTests34` with their 32-bit variables | exchange argument; counterexamples for truncation / parallel edges |
| C12 | main loops with arbitrary clusterings | every degree of a contracted graph is a cut of the input |
| C13 | `matula_approx` | C03 with the reduced bound + edge counting in the forest decomposition |
| C14 | push-relabel step system (push, relabel, gap, global relabel in any order) and `computeSourceSet` | preflow + valid labelling invariants, max-flow/min-cut |
| C15 | flow fields with problem id | refinement to a map per problem id |
| C16, C17 | word-level encoders/decoders | round trip, counterexample to the unrestricted claim |
| C18, C19, C40 | character-level writer/parser | parsing of every well-formed file by induction over tokens and lines; round trip as a consequence; counterexamples for weighted self loops, vertex weights and double spaces |
| C20 | bucket arrays of the core decomposition | invariant of the elimination order |
| C21 | iterative path-based DFS | invariant on roots/unfinished stacks |
| C22–C26 | reductions, bounds, branching, local search on assignments | exchange arguments on the cost of an assignment |
| C27, C28, C29 | step systems over shared memory, all interleavings | inductive invariants; explicit bad schedules where the claim fails |
| C30 | `dynamic_mincut` and `findPath`, with the four called routines (all cuts, exact cut, bounded flow, cactus of the cuts between two vertices) as an environment with a specification | invariant over update histories: the reported value is minimum, the cactus is a merge of the graph whose cuts of that value lift; refutation by a concrete history |
| C31–C36 | as described in the property | direct induction |
| C37 | `findAllMincuts` and `setVertexLocations` (kernel, remembered pendant edges, unpacking), with `recursive_cactus` as a routine with specification `RCSpec`, and the whole run with the modelled recursion (`findAllRun` on `graph_access`, `findAllRunM` on `mutable_graph`) | invariant over the levels: every minimum cut of a level is one of the next level or the cut of a remembered edge; unpacking restores them; refutation of the returned value beyond 100 vertices; the whole run by composition with C57, where the kernel is shown to be an input of the recursion and the recursion to keep the sizes of its vectors (Proof/RecSize) |
| C41 | the task pool of `branch_multicut` (`solveProblem`, `branchOnEdge`, `processNewProblem`, `findBestSolution`, the shared bounds) over the models of C14, C22–C26 | inductive invariant over all schedules: some task or the recorded solution carries the optimum, bounds never fall below it; explicit bad runs where the claim fails |
| C42 | `decrementalRebuild` and `findSTCactus` of `recursive_cactus` after the bounded flow of `removeEdge` (residual components, contraction, order by connectivity, building of paths and cycles) | the residual components of a maximum flow are the classes no minimum cut separates; the minimum cuts form a chain, so the contracted graph is ordered along it and no cycle arises; the built path has the same cuts |
| C43 | `allCutsPrTests12`, `allCutsPrTests34` and the loop of reductions in `internalRecursiveCactus`, with the contractions in place | tests 3/4 are shown equal to the proved ones of `prTests34`; for tests 1/2 an invariant bounds the estimated class degrees by cut value and degree sum, and submodularity of cuts shows what can be lost; invariant over the rounds |
| C44 | `balanced_cut_dfs` (the recursive search, the window over a cycle) and `most_balanced_minimum_cut::findCutFromCactus` on a given cactus | the search is described by a ghost tree (sets found from each vertex); every cut of weight c of a cactus leaves a bridge of the tree or an arc of one cycle; the window meets an arc at least as balanced as any given one; the breadth-first search marks exactly the side |
| C45 | `find_articulation_points` (stack-based search with late finishing, low points, `terminalsOnBothSides`) and its pass in `kernelization` | invariant of the search loop (path = ancestors, stack entries carry their parent, low points exact for finished vertices) gives a depth-first forest; subtrees with a high low point are closed up to the vertex, so reported = non-first cut vertices; the contraction stays inside a terminal-free part that hangs on one vertex; relabelling that part never costs (minimal counterexample over the number of bichromatic edges) |
| C46 | `multiterminal_cut::multicut` and `splitConnectedComponents` (component labels from C21, `extract_block` from C26, contraction of the terminal areas) | the weight of a labelling is the sum over components; contracting areas = not separating them; separating first vertices without separating areas = keeping the areas up to renaming blocks; invariant of the loop over components; the branch-and-bound invariant of C41 is generalised to first problems with merged areas |
| C47 | the loop that writes the solution, with `nodeProblemMapping`, `positionInProblem`, `globalTerminalIndex`, `oneTermIDs` | loop invariant; under the condition on the numbers each lookup is the right one; without it some component number is not below the number of problems (counting), so the lookup is out of bounds |
| C48 | `addSurroundingAreaToTerminals` with its queue, mapping and counter | loop invariant of the search around one terminal (area connected, counted, closed except for the queue), then induction over the terminals; the measure queue + free vertices decreases |
| C49 | `distantTerminals` with the random vertex as a parameter | invariant of a breadth-first search with several start vertices against the true distances; pigeonhole for the repetitions |
| C50 | `readVector` as a loop over the states of the stream, `writeVector` | induction over the lines; the state at a comment is a fixed point of the loop body |
| C51 | `terminalsByID`, `presetFileTerminals`, `orderFileTerminals` | exact characterisation of the resulting assignment |
| C52 | `removeHeavyEdges`, `reInsertVertices` | a cut of value c never separates the ends of a heavier edge; deleting a leaf removes one split; attaching it restores it; invariants over the marks and groups through all contractions |
| C53 | `contractCycleEdges`, `reInsertCycles` (`none` = `exit(1)`) | case analysis of the cuts of value c around a vertex with two neighbours; subdivision of a cactus edge preserves cut values; induction over the loop with a composition lemma for undo steps |
| C54 | `mergeGraphs`, `canonizeCactus` (search with fuel, `none` = `exit(1)` or a loop that does not end) | gluing: cut values of the union are sums; contraction: every minimum cut has a twin that does not cut the tree edge; triangle: cost of a junction as a function of the side of its centre; pairs: submodularity gives one cut with both partners, at most two cycle neighbours fit into one cut; the search ends by induction on the distance and the place in the queue |
| C55 | `prTests12`, `prTests34` with several threads: one access to shared memory per step, calls of `Union` are programs of the concurrent union-find (Model/ParallelUF) | invariants over all schedules: every call has a cause that holds in the graph; tests 3 and 4: the pairs of successful claims are disjoint, so one minimum cut can be moved off all of them; counterexamples for 32-bit degrees and parallel edges |
| C56 | `contractGraphSparse`, `contractGraphFullMesh`, `fromUnionFind` with several threads: hash table operations, atomic increments, compare-and-swap loops and the writes of the edges as single steps; hash table assumed linearizable | invariants: table entry + pending updates = total weight; positions reserved so far + keys still to place = degree; every reserved position has the right content or a thread that still has to write it; potential function for lock-freedom |
| C57 | `recursiveCactus`, `internalRecursiveCactus`, `mergeCactusWithComponent`, `findFlowEdge`, `maximumWeightedFlowEdge`; flow edges, iteration orders and reductions are parameters | counterexample for the lists; uncrossing: a minimum cut respects the components of the residual graph or lies inside one of them; merge by C54, leaves and cycles by C52, C53. `findSTCactus`: prefixes of the flow order are minimum cuts, so by uncrossing every other one is an interval; the queue order is the flow order with its tail reversed (last-in-first-out ties), which keeps this shape; cycles are the maximal runs of minimum intervals, and the cuts of the built chain are counted segment by segment. Shape: a graph with edges of weight c and c / 2, no lighter cut than c and every two vertices separated by a cut of weight c is a cactus (three edges are too heavy for such a cut) |
| C58 | the five edge selection rules of `recursive_cactus` with their fallbacks, exits and 32-bit maxima (Model/FlowEdge), on top of `bfsDistances` | invariant of the maximum search; the walk from the farthest vertex stays on a shortest path (C34); composition with C57 for every rule; refutation of the weighted rule for degrees from 2^32 on |
| C59 | `findEdgeSingleBranch` with all rules, 16-bit counters and the fallback `(0, 0)` (Model/EdgeSelection) | invariants of the maximum searches; prefix sums as a bijection between random numbers and edges; composition with C24; refutations for `connection` and `distance` |
| C60 | `_write_cactus_graphml_file` as the characters of the file (Model/CactusFile), with an independent reader of the format (Spec/CactusFile) | splitting at separators that occur in no written number; the edges of the file between two vertices counted and summed; composition with C37 |
| C61 | `readTemporalGraph`, `readDimacs` on the characters of the file (Model/TemporalIO); files described by their lines (Spec/TemporalIO); `std::sort` is any sorted permutation | induction over the lines; each line parsed column by column with the lemmas for `fast_atoi` |
| C62 | `writeCut` and the calls of the program `mincut` for the algorithms `noi` and `vc` (Model/CutFile), with a reader of the format (Spec/CutFile) | composition of C40, C02, C04, C12 on `mutable_graph` with the lines of the file |
| C63 | `app/temporal_largest_cc.cpp` from the events on (Model/LargestComponent), components of the graph of events (Spec/LargestComponent) | the edges of the built graph are those of the events; C21 for the components; loop invariants for the largest one and the numbering; C61 for reading the written file |

Deviations found while reading are recorded in the section "Disagreements" below as they are proved.

## Modelled code

| file in /repo/lib | modelled in | not modelled |
|---|---|---|
| data_structure/union_find.h | Model/UnionFind | – |
| data_structure/priority_queues/* | Model/BucketPQ, Model/NodeHeap, Model/PQInterface | `vecMaxNodeHeap` internals other than those cited |
| data_structure/mutable_graph.h | Model/MutableGraph, MutableHistory, Convert, Tools (flow fields) | printing, partition index setters |
| data_structure/graph_access.h | Model/GraphAccess | second partition index, node weights, printing |
| coarsening/contract_graph.h | Model/Contract, MutableContract, Inexact (`findTrivialCuts`) | `deleteEdge` |
| parallel/coarsening/contract_graph.h (`contractGraphSparse`, `contractGraphFullMesh`, `fromUnionFind` for `graph_access`) | Model/ParallelContract | choice of the contested pair (arbitrary in the model), the hash table library, `contractGraphSparseNoHash`, `findTrivialCuts` with threads; `contractGraphVtxset` is the sequential one (Model/MutableContract) |
| coarsening/contraction_tests.h | Model/PRTests | – |
| parallel/coarsening/contraction_tests.h (`prTests12`, `prTests34`) | Model/ParallelPR | `findHeavyEdges`, `findHeavyTriangles` with threads |
| coarsening/label_propagation.h | Model/Inexact | `certify_clusters` (not called) |
| algorithms/global_mincut/{padberg_rinaldi,matula_approx,viecut}.h | Model/Inexact | timers, logging; for `mutable_graph` contracted in place (padberg_rinaldi, matula) only the returned value |
| algorithms/global_mincut/ks_minimum_cut.h | Model/Inexact | saved cut, `sample_contractible_weighted` (not called) |
| algorithms/global_mincut/noi_minimum_cut.h | Model/Capforest, NOI, NOIMutable | timers, logging |
| algorithms/global_mincut/minimum_cut_helpers.h | Model/NOI, Tools (`remap_cluster`), Cactus (`setVertexLocations`) | – |
| algorithms/global_mincut/cactus/cactus_mincut.h | Model/Cactus: `findAllMincuts`; Model/CactusRun: `findAllRun`, `findAllRunM`; Model/CactusFile: `writeCactus` | the choice of a most balanced cut, opening the file, the variant without `save_cut`; `recursive_cactus` is a parameter with specification `RCSpec`, which is satisfiable (`rcSpec_met`), or the modelled recursion (Model/CactusRun: `findAllRun`) |
| algorithms/misc/graph_algorithms.h | Model/Tools (`bfsDistances`, `find_top_k`) | `checkGraphValidity` (its conditions are the specification `Consistent`) |
| tools/graph_extractor.h | Model/Tools | – |
| tools/random_functions.h | Model/Random | the generator itself (arbitrary stream), `nextDouble` |
| algorithms/multicut/measurements.h | Model/Tools (`flowValue`), Model/BranchBound (`getSolution`) | the check of `getSolution` in debug mode |
| algorithms/misc/strongly_connected_components.h | Model/SCC | repeated use of one object (`m_blocksizes` is not cleared) |
| algorithms/misc/core_decomposition.h | Model/KCore | 32-bit overflow of degrees; the construction loop of `createCoreGraph` is the one of `extract_block` |
| algorithms/multicut/multicut_problem.h | Model/Multicut (`Problem`) | `finished_blockpairs`, path strings, ordering |
| algorithms/multicut/graph_contraction.h | Model/Multicut | – |
| algorithms/multicut/kernelization_criteria.h | Model/Multicut (passes, `contractIfImproved`), Model/KernelNOI (connectivity pass), Model/Articulation (articulation-point pass) | bookkeeping of the active vectors (any `active` is allowed) |
| algorithms/misc/equal_neighborhood.h | Model/Multicut | the hash function (any function; hypothesis: no collision between vertices of different degree) |
| algorithms/multicut/maximum_flow.h | Model/Multicut (`flowUnions`), Model/MulticutBounds (`maximumIsolatingFlow`, `maximumSTFlow`) | choice of the flow vertices, the flow itself (C14), the parallel mode (which stores the i-th future in block i even if some terminals had no flow) |
| algorithms/multicut/edge_selection.h | Model/Branching (`findHeavyVertex`, `findEdgeMultiBranch`), Model/EdgeSelection (`findEdgeSingleBranch` and its rules) | `mostTerminalNeighbours` (not called); that the priority edge is reset |
| algorithms/flow/push_relabel.h | Model/PushRelabel | the threshold for global relabelling is an arbitrary predicate of the work counter, the queue is any lawful priority queue (instantiated with `maxNodeHeap`), flows are unbounded integers, logging; the flows stored under the problem id are an input `flow0` |
| algorithms/global_mincut/cactus/heavy_edges.h | Model/HeavyEdges: all functions; iteration orders of the hash containers are parameters, `exit(1)` is `none` | logging |
| algorithms/global_mincut/cactus/graph_modification.h | Model/GraphModification: all functions; the queue is a list, loops with fuel, `exit(1)` is `none` | logging, assertions |
| algorithms/multicut/multiterminal_cut.h | Model/MulticutDriver: `multicut`, `splitConnectedComponents`; Model/Terminals: `addSurroundingAreaToTerminals`, `distantTerminals`, `terminalsByID`, `presetFileTerminals`, `orderFileTerminals`, the choice in `setOriginalTerminals` | random numbers (parameters), parsing of option strings, the division by the number of terminals, logging, the debug check; `write_solution` is assumed to be set |
| algorithms/multicut/branch_multicut.h | Model/BranchBound: `find_multiterminal_cut`, `pollWork` (bounds), `solveProblem`, `branchOnEdge` as steps of a task pool; every access of `findBestSolution` in `Call` | MPI with several processes, ILP, `inexact`, timeout, memory limit, the triangle, NOI and articulation point passes |
| algorithms/multicut/local_search.h | Model/LocalSearch | `inexact = true` (`movedToNewBlock`), the choice of block pairs (any list of pairs is allowed), the timeout, logging, the exit on "DIFFERENT" (not reached under `FlowSpec`); the flow routine is a parameter specified by `FlowSpec`, which push-relabel satisfies (`C14_local_search`) |
| algorithms/multicut/problem_management.h | Model/Branching (`multiBranch`, `singleBranch`, `degreeThreeContraction`) (`processNewProblem`, `findBestSolution`: Model/BranchBound) | waiting and notification of threads |
| parallel/data_structure/union_find.h | Model/ParallelUF (one step per access to shared memory, sequentially consistent) | weak memory orders (the code uses the default `seq_cst` for the compare-and-swap and plain accesses for the rest, modelled as atomic); `n()` |
| parallel/algorithm/exact_parallel_minimum_cut.h | Model/ParallelCapforest (one step per access to `visited`), Model/ParallelMinCut (driver) | `bfsStartNodes` (not called), timers; the union-find returned by a parallel round is any one compatible with C28 |
| algorithms/multicut/problem_queues/per_thread_problem_queue.h | Model/WorkQueue: `prepareQueue`, `pullProblem`, `addProblem`, `size` (one step per shared access, lock or unlock) | the computation of `min_index` (it reads all sizes without a lock, so it is an arbitrary queue index), the flag `sizes[i].second` (only used for `min_index`), the comparison functions (`top` is an arbitrary choice of an element); memory is sequentially consistent |
| algorithms/multicut/mpi_communication.h | Model/Transmit: contents of the messages of `sendProblem`, `recvProblem` | MPI itself, message sizes, the search for a receiver, bounds exchange |
| io/graph_io.h | Model/GraphIO: `readGraphWeighted` (both graph types), `writeGraphWeighted`, `writeGraph`, `fast_atoi`; Model/VectorIO: `readVector`, `writeVector`; Model/TemporalIO: `readTemporalGraph`, `readDimacs`; Model/CutFile: `writeCut` | opening files, signs and numbers of more than 64 bits in the header, the negation of the smallest 64-bit weight, `writeGraphDimacsKS` |
| app/mincut.cpp | Model/CutFile: reading, the algorithms `noi` and `vc`, writing the cut | command line, other algorithms, several iterations and threads, logging |
| app/temporal_largest_cc.cpp | Model/LargestComponent: all but reading (Model/TemporalIO) | `to_graph_access` (it copies the adjacency lists), opening files |
| algorithms/global_mincut/dynamic/dynamic_mincut.h, dynamic/cactus_path.h | Model/Dynamic: `initialize`, `addEdge`, `removeEdge`, `putIntoCache`, `buildCactusFromCache`, cache of insertions, `findPath` with its breadth first search | the called routines (`cactus_mincut`, `noi_minimum_cut`, `push_relabel`, `recursive_cactus`) are an environment with specification `Env.Spec`; the parts for the bounded flow and the exact cut are proved of the modelled routines (`C30_flow`, `C30_noi`), that for the rebuild after a removal too (`C30_rebuild`), that for the first cactus is assumed; run time bounds, timers, verbose output |
| algorithms/global_mincut/cactus/all_cut_local_red.h | Model/AllCutRed: `allCutsPrTests12`, `allCutsPrTests34` | – |
| algorithms/global_mincut/cactus/balanced_cut_dfs.h, most_balanced_minimum_cut.h | Model/BalancedCut: all functions | logging, writing the cut to a file, the early return without `set_node_in_cut`; 64-bit wrap-around of sums |
| algorithms/misc/find_articulation_points.h | Model/Articulation: all functions | logging; 32-bit wrap-around of the step counter (at most one step per vertex). find_bridges.h is included by the kernelization but never called and is not modelled |
| algorithms/global_mincut/cactus/recursive_cactus.h | Model/STCactus: `decrementalRebuild`, `findSTCactus` (all branches, including cycles); Model/AllCutRed: the loop of reductions in `internalRecursiveCactus`; Model/RecursiveCactus: `recursiveCactus`, `internalRecursiveCactus`, `mergeCactusWithComponent`, `maximumWeightedFlowEdge`, `findFlowEdge`; Model/FlowEdge: `maximumFlowEdge`, `maximumWeightedFlowEdge`, `centralFlowEdge`, the choice by configuration | reallocation of the bucket array |

## Observations from reading that are not proved

These lie outside the modelled code or were not turned into theorems.

* `parallel_cactus.h:88-98`: the test on the known value seems to be inverted. Without a known value `mincut` is set to `UNDEFINED_NODE`; with a
  known value it is replaced by the result of `viecut`.
* `recursive_cactus.h:52`: the constructor without arguments leaves `problem_id` uninitialised.
* `parallel/coarsening/contract_graph.h:315` reads `el[1]` also if there is only one coarse vertex.
* `ks_minimum_cut` on a graph with one vertex runs no iteration and returns the largest 64-bit number.
* `graph_io.h:41-66`: `readDimacs` skips two characters of every line without looking at them, so a comment line `c ...` after the
  header is read as an edge.

## Disagreements between code and property

* **C07**: `contractEdge` / `contractEdgeSparseTarget` on a graph with parallel edges between the endpoints leave a
  self loop (`C07_parallel_counterexample`). The theorems require `NoParallel` for these calls.
* **C09**: `deleteVertex` does not shrink `contained_in_this`; a vertex appended afterwards by `new_empty_node`
  inherits a stale list, so an original vertex is listed twice (`C09_new_vertex_counterexample`). `new_node` beyond the
  announced size gives the new vertex a list of zeros (`C09_new_node_counterexample`).
* **C10**: `build_from_metis(_weighted)` with a self loop calls `setEdgeWeight` on an id that does not exist
  (`C10_metis_self_loop_undefined`); the positive theorem requires rows without self loops.
* **C11**: `prTests12` keeps degrees in 32 bits (`C11_prTests12_truncation`); `prTests34` counts parallel edges
  repeatedly (`C11_prTests34_parallel`). `findHeavyTriangles` (not called) is modelled but unsound: `sort3` sorts copies.
* **C12**: on more than 10000 vertices `viecut` does not lift the cut found by its final exact run to the input, and the
  partition indices ignore the changes made by `findTrivialCuts`; the saved cut is claimed only without coarsening.
* **C13**: not a `2+ε` approximation for small cuts (`C13_matula_tight`: result 3 for minimum cut 1).
* **C36**: `ks_minimum_cut` may loop forever on a disconnected graph (`C36_disconnected_diverges`).
* **C15**: the flow fields keep one problem id per edge; two problems whose calls are interleaved disturb each other
  (`C15_interleaved_lost`). The property is stated for problems that run one after the other with different ids.
  `push_relabel::solve_max_flow_min_cut` draws its default id at random, so the ids are different only with high probability.
* **C14**: if the (random) default problem id of a run equals that of an earlier run on the same graph, the old flow is
  still stored and the value is too small (`C14_repeated_problem_id`). The positive theorems are about runs that start
  with zero flow.
* **C16**: `serialize`/`deserialize` mix vertex markers (`num_edges + n`) and neighbour ids in one stream; if a
  neighbour id is at least `num_edges` it is read as a marker (`C16_isolated_ambiguous`). The positive theorem requires
  that all neighbour ids are smaller, which holds if every vertex has an edge (`C16_no_isolated`). In-cut flags and flows are not
  transmitted.
* **C17**: the received problem has `priority_edge = (0, 0)` instead of "undefined", so it looks as if an edge had been selected, and the
  finished block pairs are lost (`C17_priority_edge`); `invalid_flow` of every terminal is set. Where the graph encoding is
  ambiguous (C16), an edge is lost and the received problem has a smaller optimum (`C17_edge_lost`). `recvProblem` stores the
  message size in an `int` although the count is sent with `MPI_LONG`; the model has no size limit.
* **C19**: `readGraphWeighted` skips a self-loop target but not its weight, so in a weighted file the rest of the line is read out
  of step (`C19_weighted_false`). Without edge weights the claim is proved.
* **C40**: format codes 10 and 11 are accepted but vertex weights are read as neighbours (`C40_vertex_weights_misread`); two separators
  in a row end the line (`C40_double_space_misread`).
* **C30**: false (`C30_wrong_value`). `findPath` leaves the common vertex of two consecutive cycles out of the path, the contracted graph
  is then no cactus, and later insertions do not notice that the minimum cut has grown. `C30_exact_partial` therefore assumes that every
  reached cactus still separates all its vertices, and that no removal stores a value that is already in the cache: `putIntoCache` counts
  such a value twice and forgets insertions that larger cached values need, after which `buildCactusFromCache` extends a vector it is
  iterating over (the model has no result there). Histories of removals are exact without assumption (`C30_removals`).
* **C37**: `findAllMincuts` replaces the known minimum cut by the minimum cut of the kernel. If all minimum cuts are pendant edges that were
  put aside and the loop stops because a round removed less than one percent of the vertices, the returned value is too large
  (`C37_wrong_value`: 2 instead of 1). `C37_partial` shows that this cannot happen up to 100 vertices, and that the
  returned graph represents all minimum cuts whenever the value is right. It also assumes `RCSpec` of `recursive_cactus`.
* **C38**: `from_graph_access` adds repeated edges from both sides (`C38_from_graph_access_overcounts`).
* **C39**: cached degrees are not invalidated by `setEdgeWeight` (`C39_degree_stale`).
* **C22**: four of the passes can raise the optimum. `lowDegreeContraction` contracts a *terminal* of degree three that
  has a leaf into its heavier other neighbour (`C22_low_degree_unsound`, optimum 3 becomes 100);
  `triangleDetection` merges two of three triangle vertices although with three terminals all three may end up in
  different blocks (`C22_triangle_unsound`); `nonTerminalFlow` merges overlapping source sets of different vertices
  (`C22_nonterminal_flow_unsound`); the connectivity pass takes the degree of
  a terminal for its isolating cut, but the high-degree pass moves a vertex into a terminal and the edges to other terminals
  are then deleted, so on a graph with six vertices (all isolating cuts already contracted) two terminals are merged although
  a solution better than the upper bound exists (`C22_noi_unsound`; a proved bound shows that degrees up to twice the
  isolating cut are harmless, `C22_noi_partial`). The positive theorems cover low-degree contraction without such terminals, disjoint
  source sets, high-degree contraction, equal neighbourhoods, isolating blocks and deletion of terminal edges.
* **C24**: with `multibranch = false`, `singleBranch` calls `degreeThreeContraction` with the terminal end of the branching
  edge in the role of the degree-three vertex; both created problems can be worse than the parent
  (`C24_degree_three_unsound`). `C24_single_branch_partial` excludes this case; branching on a vertex (the default) is proved.
* **C41**: several deviations. (1) Contraction keeps the label of the merged vertex with the smaller number, and
  `branchOnEdge` reads the labels of an earlier isolating flow: on a graph with five vertices the process ends with
  `exit(1)` ("Empty block 1") although a minimum cut exists (`C41_exit_reachable`). (2) `findBestSolution` compares and
  writes the bounds without a lock, so two threads can end with the heavier solution (`C41_race`). (3) The main thread records
  the solution of the first bound while the workers already run; if a worker records a heavier solution first, the main
  solution is not stored although its weight is the final bound (`C41_lost_update`). (4) The announced bound starts as
  `UNDEFINED_NODE` (2^32−1) and is taken over as upper bound, so heavier cuts are discarded (`C41_announced_bound`).
  `C41_minimum_partial` proves optimality for all runs in which `findBestSolution` is not interrupted, the process does
  not exit, the minimum is below 2^32−1 and none of the three situations marked `stray` occurs. That recorded solutions
  are feasible holds without these conditions (`C41_recorded_solution`).
* **C43**: `allCutsPrTests12` keeps an estimate of the degree of every class of merged vertices: when two classes are merged it subtracts twice
  the weight of the single edge that caused it, not of all edges between them. The estimate is an upper bound of the degree, so a class whose
  degree is the minimum cut can look heavier (`degree > limit`) and is then merged with a neighbour. In a graph with five vertices the
  minimum cut {0, 1, 2} is lost (`C43_prTests12_loses`), also after the whole loop for some start vertices (`C43_loses`). What is proved: a vertex
  whose degree is the minimum cut is never merged, and a lost minimum cut has a side inside one class (`C43_prTests12_partial`,
  `C43_reduce_partial`). Consequently the cactus that `recursive_cactus` returns need not represent all minimum cuts.
* **C42**: `findSTCactus` orders the classes with a bucket queue whose keys are computed in 32 bits, so it is proved for minimum cuts
  below 2^31−1 only; it resets the positions with `setOriginalNodes(original_nodes)`, and a vertex that was appended with `new_node` after
  `start_construction` is beyond this number. `C42_rebuild_partial` assumes both away. The id under which the flow is stored must
  differ from all earlier ids for which an edge still carries flow; `removeEdge` increments it for each call.
* **C27**: `addProblem` tests `haveSendProblem` before it locks `send_problem_mutex` and does not test it again, so two threads
  can both put their problem into the slot and the first one is lost (`C27_lost_problem`). When a problem is moved out of the slot
  the mutex is unlocked twice: undefined behaviour even with one thread (`C27_double_unlock`), and with an `unlock` that frees
  the mutex of another thread, one problem is returned twice (`C27_duplicated_problem`) or the program exits with a
  null problem (`C27_null_problem`). `C27_conserved_partial` proves the claim for all schedules in which neither happens,
  `C27_serial` for all schedules in which calls do not overlap, and `C27_no_deadlock` for all schedules.
* **C28**: `Union` reads the two ranks after the two roots, and `UpdateRoot` overwrites the rank of the element that stops
  being a root. Two overlapping unions can link 1 below 2 and 2 below 1 (`C28_cycle`), and path halving by two concurrent
  finds then separates the two elements again although both unions reported success (`C28_lost_union`). Soundness holds for
  all schedules; completeness is proved when unions do not overlap (`C28_complete_partial`). A `Find` that meets the cycle
  terminates when it runs alone (`C28_obstruction_free`); termination under every fair schedule is not claimed.
* **C29**: `visited[tgt]` is read twice per edge. If another thread sets it in between, `r_v[tgt]` is raised although `tgt` is
  not queued, and a later edge merges a pair that a lighter cut separates (`C29_race_unsound`). Without this race every merge is
  safe and the algorithm is exact (`C29_safe_partial`, `C29_exact_partial`).
* **C47**: `nodeProblemMapping` stores the number of the component but is used as the number of the problem. As soon as a
  component with fewer than two terminals comes before one with at least two, `solutions[pr]` is read out of bounds
  (`C47_out_of_bounds`, for all graphs; `C47_not_written` is an instance). With no terminals at all, `blocksize[0]` is
  written although the vector is empty (the theorem requires at least one terminal).
* **C49**: all terminals are taken from the component of the random start vertex, and from a component with `c` vertices at
  most `c` different ones (`C49_repeats`); `C49_distinct_false` shows three times the same terminal. A number of a terminal
  that is given twice has no vertex (`C48_repeated`), so the cut found separates fewer terminals than wanted.
  `randomTerminals` and `terminalsByID` do not exclude repetitions either.
* **C50**: a comment line is recognised, but `continue` is reached without reading the next line, so the loop never ends
  (`C50_comment_hangs`, for every file with a comment). A last line without newline is ignored (`C50_read_partial`), which
  differs from how graph files are read (`C40_final_newline`). Numbers go through `double` (`C50_large`).
* **C51**: numbers above the number of terminals in a block file are not rejected and are used as an index
  (`C51_out_of_bounds`).
* **C54**: the theorems ask that the lists of `G1` hold exactly the vertices of the level. When `G2` has one vertex, `mergeGraphs`
  returns `G1` as it is, so list entries of `v1` left over from an outer level stay (`C54_stale_entries`); they would be filtered if
  `G2` had more vertices. For an odd minimum cut an empty vertex with three tree edges would get a triangle of weights rounded down
  (`C54_odd_triangle`); the hypothesis that the splits are minimum cuts of a graph excludes this.
* **C55**: the degrees are stored in 32 bits (`NodeWeight`), so a vertex of degree `2^32` looks like one of degree 0 and its edges pass
  the second test (`C55_truncation`). With parallel edges the sum over common neighbours counts an edge too often
  (`C55_parallel_edges`). Both happen with one thread too; no further failure comes from concurrency.
* **C57**: `findSTCactus` lists every original vertex whose stored position is below the number of vertices, also vertices that were
  taken out as leaves before and have a stale position. When the graph of that component has one vertex, `mergeGraphs` keeps the list, and
  the leaf is later put back at its own vertex: it is listed twice (`C57_listed_twice`). This happens with the random choice of flow
  edges (`findFlowEdge`); the positions are right, the lists are not.
* **C58**: `maximumWeightedFlowEdge` keeps the largest degree in a `NodeWeight` of 32 bits. With a degree of 2^32 + 5 the rule takes the vertex
  of smallest degree (`C58_truncation`); the edge still exists, so only the running time suffers. An unknown rule is not rejected: source,
  edge and target stay 0, and a flow from vertex 0 to itself is computed (`C58_unknown_rule`).
* **C59**: the rule `connection` sums weights in 16 bits; with two edges of weight 2^16 it returns an edge between two vertices that are no
  terminals (`C59_connection_wraps`). The rule `distance` returns edge 0 of vertex 0 if no neighbour of a terminal has another edge; that edge
  need not exist (`C59_distance_no_edge`).
* **C57**: `canonizeCactus` deletes an empty vertex with three tree edges with `deleteVertex`, which does not shrink
  `contained_in_this`. The list of the last vertex stays behind, and the next `new_empty_node` (of `setVertexLocations`, for instance)
  starts with it instead of an empty list: `C57_stale_list`. `C37_run_cactus_partial` and `C44_run_partial` therefore assume that the
  graph returned by the recursion has no vertices in the lists behind that of its last vertex. Whether a whole run can reach this state was
  not settled.
* **C61**: A dynamic graph file with a header `p` loses every edge whose larger vertex is written first (`C61_dimacs_dropped`); for
  files that list both directions this is harmless. Events of the same time are sorted with `std::sort`, which leaves their order open, so an
  insertion and a removal of an edge at the same time may be swapped (`C61_ties_open`).
