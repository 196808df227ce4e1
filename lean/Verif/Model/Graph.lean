import Mathlib.Data.List.Basic

/-!
# The graph view shared by `graph_access` and `mutable_graph`

All global minimum cut algorithms are templates over the graph class and read it only through
`nodes()`, `edges_of(n)`, `getEdgeTarget(n, e)`, `getEdgeWeight(n, e)` and degree queries.
A `Graph` is this read-only view: for every vertex the list of its edges in iteration order.
-/

namespace VieCut

/-- View of lib/data_structure/graph_access.h:289-646 and lib/data_structure/mutable_graph.h (class
`mutable_graph`) through `edges_of`: entry `n` lists `(target, weight)` in iteration order. -/
structure Graph where
  adj : List (List (Nat × Nat))
deriving DecidableEq, Repr

namespace Graph

/-- `number_of_nodes()` (graph_access.h:69-74, mutable_graph.h `n()`). -/
def n (G : Graph) : Nat := G.adj.length

/-- The edges visited by `for (e : G->edges_of(u))` (graph_access.h:330-333, mutable_graph.h:165-168).
Only used with `u < n`; the real code has undefined behaviour otherwise. -/
def edges (G : Graph) (u : Nat) : List (Nat × Nat) := G.adj.getD u []

/-- `getWeightedNodeDegree(u)` (graph_access.h:437-448; cached value of lines 470-495). -/
def deg (G : Graph) (u : Nat) : Nat := ((G.edges u).map (·.2)).sum

/-- `getMinDegree()` (graph_access.h:470-495, 517-523): minimum over all vertices, starting from
`UNDEFINED_EDGE = 2^64 - 1`. -/
def minDegree (G : Graph) : Nat :=
  (List.range G.n).foldl (fun m u => if G.deg u < m then G.deg u else m) (2 ^ 64 - 1)

/-- `getMaxDegree()` (graph_access.h:450-456, 470-495). -/
def maxDegree (G : Graph) : Nat :=
  (List.range G.n).foldl (fun m u => if G.deg u > m then G.deg u else m) 0

/-- Total weight of the edges from `u` to `v` (specification-level weight matrix of the view; not a
function of the code). -/
def wt (G : Graph) (u v : Nat) : Nat := (((G.edges u).filter (fun e => e.1 == v)).map (·.2)).sum

/-- Sum of all weighted degrees (`sumOfEdgeWeights()`, graph_access.h:497-507). -/
def totalWeight (G : Graph) : Nat := ((List.range G.n).map G.deg).sum

/-- A well-formed undirected graph: edge targets are vertices, no self loops, the weight from `u` to `v`
equals the weight from `v` to `u`.  Parallel edges are allowed.  `graph_access` drops self loops at
insertion (graph_access.h:126-128). -/
structure WF (G : Graph) : Prop where
  tgt_lt : ∀ u, ∀ e ∈ G.edges u, e.1 < G.n
  no_loop : ∀ u, ∀ e ∈ G.edges u, e.1 ≠ u
  symm : ∀ u v, u < G.n → v < G.n → G.wt u v = G.wt v u

end Graph
end VieCut
