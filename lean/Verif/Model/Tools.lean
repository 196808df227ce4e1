import Verif.Model.Convert
import Mathlib.Logic.Function.Iterate

/-! # Models of small tools: cluster renaming, block extraction, top-k selection, breadth-first search, flow fields -/

namespace VieCut
open Function

/-! ### `remap_cluster` -/

/-- Local variables of `remap_cluster` (minimum_cut_helpers.h:122-128). -/
structure RemapState where
  part : Nat → Option Nat
  cnt : Nat
  mapping : List Nat
  rev : List (List Nat)

/-- Loop body (minimum_cut_helpers.h:131-144); the partition index written with `save_cut` equals `mapping`. -/
def remapStep (cluster : Nat → Nat) (s : RemapState) (v : Nat) : RemapState :=
  match s.part (cluster v) with
  | none =>
    { part := update s.part (cluster v) (some s.cnt), cnt := s.cnt + 1, mapping := s.mapping ++ [s.cnt],
      rev := (s.rev ++ [[]]).modify s.cnt (fun l => l ++ [v]) }
  | some i => { s with mapping := s.mapping ++ [i], rev := s.rev.modify i (fun l => l ++ [v]) }

/-- `remap_cluster(G, cluster_id)` (minimum_cut_helpers.h:117-147) on `n` vertices; `part` has `n` entries, a cluster
id beyond that is undefined behaviour (`none`). -/
def remapCluster (n : Nat) (cluster : Nat → Nat) : Option (List Nat × List (List Nat)) :=
  if ∀ v < n, cluster v < n then
    let s := (List.range n).foldl (remapStep cluster) { part := fun _ => none, cnt := 0, mapping := [], rev := [] }
    some (s.mapping, s.rev)
  else none

/-! ### `extract_block` -/

/-- `reverse_mapping` and the number of vertices of the block (graph_extractor.h:36-45, 76-87). -/
def exStep (n : Nat) (inB : Nat → Bool) (s : List Nat × Nat) (v : Nat) : List Nat × Nat :=
  if inB v then (s.1 ++ [s.2], s.2 + 1) else (s.1 ++ [n + 1], s.2)

/-- The loop that fills `reverse_mapping`. -/
def exMap (n : Nat) (inB : Nat → Bool) : List Nat × Nat := (List.range n).foldl (exStep n inB) ([], 0)

/-- The edges of `v` inside the block, renamed (graph_extractor.h:52-60, 94-102). -/
def exRow (G : Graph) (inB : Nat → Bool) (rev : Nat → Nat) (v : Nat) : List (Nat × Nat) :=
  ((G.edges v).filter (fun e => inB e.1)).map (fun e => (rev e.1, e.2))

/-- Loop body over the vertices (graph_extractor.h:49-62); `new_node()` returns the number of earlier calls. -/
def exNode (G : Graph) (inB : Nat → Bool) (rev : Nat → Nat) (h : Option CSR) (v : Nat) : Option CSR :=
  if inB v then h.bind fun h => (exRow G inB rev v).foldl (CSR.copyEdge h.node) (some h.newNode) else h

/-- `extract_block(G, block)` for `graph_access` (graph_extractor.h:31-66); `inB v` is
`getPartitionIndex(v) == block`. -/
def extractBlock (G : Graph) (inB : Nat → Bool) : Option (CSR × List Nat) :=
  let m := exMap G.n inB
  (((List.range G.n).foldl (exNode G inB (fun v => m.1.getD v 0)) (some (CSR.start m.2))).map CSR.finish).map
    fun h => (h, m.1)

/-- Loop body for `mutable_graph` (graph_extractor.h:91-104). -/
def exNodeM (G : Graph) (inB : Nat → Bool) (rev : Nat → Nat) (h : MGraph) (v : Nat) : MGraph :=
  if inB v then (exRow G inB rev v).foldl (fun g e => g.newEdge h.lastNode e.1 e.2) h.newNode else h

/-- `extract_block(G, block, components)` for `mutable_graph` (graph_extractor.h:68-108): the extracted graph, the
list of extracted vertices, and the reverse mapping. -/
def extractBlockM (g : MGraph) (inB : Nat → Bool) : MGraph × List Nat × List Nat :=
  let m := exMap g.n inB
  (((List.range g.n).foldl (exNodeM g.toGraph inB (fun v => m.1.getD v 0)) (MGraph.start m.2)).finishConstruction,
    (List.range g.n).filter inB, m.1)

/-! ### Top-k degrees -/

/-- `find_top_k(in, k)` (graph_algorithms.h:215-227), given the rearrangement `out` produced by `std::nth_element`;
`in.end() - k` needs `k ≤ in.size()`. -/
def findTopK (out : List (Nat × Nat)) (k : Nat) : Option (List Nat) :=
  if k ≤ out.length then some ((out.drop (out.length - k)).map (·.1)) else none

/-- The list of all vertices with their degrees (graph_algorithms.h:28-56). -/
def allDegrees (n : Nat) (deg : Nat → Nat) : List (Nat × Nat) := (List.range n).map fun v => (v, deg v)

/-- Effect of `std::nth_element(first, nth, last, comp by second)` ([alg.nth.element]): a rearrangement in which no
entry before position `m` is larger and no entry after it is smaller than the entry at `m`. -/
structure NthElement (inp out : List (Nat × Nat)) (m : Nat) : Prop where
  perm : out.Perm inp
  low : ∀ i j a b, i ≤ m → m ≤ j → out[i]? = some a → out[j]? = some b → a.2 ≤ b.2

/-! ### Breadth-first search -/

/-- Local variables of `bfsDistances` (graph_algorithms.h:184-192). -/
structure BFS where
  queue : List Nat
  parent : Nat → Option Nat
  dist : Nat → Nat
  disc : Nat → Bool
  vtcs : Nat
  last : Nat
  done : Bool

/-- Loop body for one edge to `t` (graph_algorithms.h:198-208); `done` is the early return. -/
def bfsEdge (n top : Nat) (s : BFS) (t : Nat) : BFS :=
  if s.done ∨ s.disc t then s
  else
    let s1 := { s with disc := update s.disc t true, parent := update s.parent t (some top),
                       dist := update s.dist t (s.dist top + 1), vtcs := s.vtcs + 1 }
    if s1.vtcs = n then { s1 with done := true, last := t } else { s1 with queue := s1.queue ++ [t] }

/-- One iteration of the while loop (graph_algorithms.h:194-210). -/
def bfsStep (G : Graph) (s : BFS) : BFS :=
  if s.done then s
  else match s.queue with
    | [] => s
    | top :: q => ((G.edges top).map (·.1)).foldl (bfsEdge G.n top) { s with queue := q, last := top }

/-- Initial state (graph_algorithms.h:184-192). -/
def bfsInit (start : Nat) : BFS :=
  { queue := [start], parent := fun _ => none, dist := fun _ => 0, disc := fun v => v == start, vtcs := 1,
    last := 2 ^ 32 - 1, done := false }

/-- `bfsDistances(G, start)` (graph_algorithms.h:182-213): at most one iteration per vertex. -/
def bfsDistances (G : Graph) (start : Nat) : BFS := (bfsStep G)^[G.n] (bfsInit start)

/-! ### Flow fields -/

/-- Calls of the flow interface of `mutable_graph` on edge `e` of vertex `u`; the problem id is passed separately. -/
inductive FlowOp
  | set (u e : Nat) (flow : Int)
  | add (u e : Nat) (flow : Int)
  | get (u e : Nat)
deriving Repr, DecidableEq

namespace MGraph

/-- `setEdgeFlow` (mutable_graph.h:183-186). -/
def setEdgeFlow (g : MGraph) (u e : Nat) (f : Int) (pid : Nat) : MGraph :=
  g.setEdge u e { g.edge u e with flow := f, pid := pid }

/-- `addEdgeFlow` (mutable_graph.h:188-195). -/
def addEdgeFlow (g : MGraph) (u e : Nat) (f : Int) (pid : Nat) : MGraph :=
  if (g.edge u e).pid = pid then g.setEdge u e { g.edge u e with flow := (g.edge u e).flow + f }
  else g.setEdge u e { g.edge u e with flow := f, pid := pid }

/-- `getEdgeFlow(node, edge, problem)` (mutable_graph.h:197-205): a read of a stale field resets it. -/
def getEdgeFlow (g : MGraph) (u e : Nat) (pid : Nat) : Int × MGraph :=
  if (g.edge u e).pid = pid then ((g.edge u e).flow, g)
  else (0, g.setEdge u e { g.edge u e with flow := 0, pid := pid })

/-- Effect of a flow call on the graph and the list of values read so far. -/
def applyFlow (pid : Nat) (s : MGraph × List Int) : FlowOp → MGraph × List Int
  | .set u e f => (s.1.setEdgeFlow u e f pid, s.2)
  | .add u e f => (s.1.addEdgeFlow u e f pid, s.2)
  | .get u e => ((s.1.getEdgeFlow u e pid).2, s.2 ++ [(s.1.getEdgeFlow u e pid).1])

/-- A flow problem: all its calls carry the id `p.1`; result: the graph afterwards and the values read. -/
def runProblem (g : MGraph) (p : Nat × List FlowOp) : MGraph × List Int := p.2.foldl (applyFlow p.1) (g, [])

/-- Consecutive flow problems on one graph; result: the values read, per problem. -/
def runProblems : MGraph → List (Nat × List FlowOp) → List (List Int)
  | _, [] => []
  | g, p :: ps => (g.runProblem p).2 :: runProblems (g.runProblem p).1 ps

end MGraph

/-! ### Value of a multiterminal solution -/

/-- `flowValue(sol)` (measurements.h:61-96): twice the crossing weight is accumulated and halved.  Fails (the program
exits) if some block is empty or does not contain exactly one terminal; block ids must be smaller than the number of
terminals. -/
def flowValue (g : Graph) (terminals : List Nat) (sol : Nat → Nat) : Option Nat :=
  if (∀ v < g.n, sol v < terminals.length) ∧
     (∀ i < terminals.length, ((List.range g.n).filter (fun v => sol v == i)).length ≠ 0 ∧
       (terminals.filter (fun t => sol t == i)).length = 1) then
    some ((((List.range g.n).map fun v =>
      ((g.edges v).map fun e => if sol v ≠ sol e.1 then e.2 else 0).sum).sum) / 2)
  else none

end VieCut
