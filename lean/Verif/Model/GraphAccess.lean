import Verif.Model.Graph
import Mathlib.Logic.Function.Basic

/-!
# Model of the construction and access interface of `lib/data_structure/graph_access.h`
-/

namespace VieCut

/-- `basicGraph` (graph_access.h:58-187) and the degree cache of `graph_access` (graph_access.h:640-646).
`first i` is `m_nodes[i].firstEdge` (`i ≤ n`, value-initialised to 0), `srcs` is `m_last_source + 1`
(`m_last_source` starts at `-1`), `node` counts the calls of `new_node`. -/
structure CSR where
  n : Nat
  first : Nat → Nat
  edges : List (Nat × Nat)
  srcs : Nat
  node : Nat
  degComputed : Bool
  degree : Nat → Nat
  minDeg : Nat
  maxDeg : Nat

namespace CSR
open Function

/-- `start_construction(n, m)` on a new object (graph_access.h:85-98, 305-308). -/
def start (n : Nat) : CSR :=
  { n := n, first := fun _ => 0, edges := [], srcs := 0, node := 0, degComputed := false,
    degree := fun _ => 0, minDeg := 0, maxDeg := 0 }

/-- `new_node()` (graph_access.h:148-151). -/
def newNode (g : CSR) : CSR := { g with node := g.node + 1 }

/-- `new_edge(source, target, weight)` (graph_access.h:123-146): returns the edge id and the new state.  A self
loop is ignored.  The loop that fills the entries of isolated sources writes `m_nodes[i]` for
`m_last_source + 1 < i ≤ source`. -/
def newEdge (g : CSR) (s t w : Nat) : Nat × CSR :=
  if s = t then (g.edges.length, g)
  else
    let first := update g.first (s + 1) (g.edges.length + 1)
    (g.edges.length,
      { g with
        edges := g.edges ++ [(t, w)]
        first := if g.srcs < s then fun i => if g.srcs < i ∧ i ≤ s then first g.srcs else first i else first
        srcs := s + 1 })

/-- `finish_construction()` (graph_access.h:153-171, 370-373): fills the entries of isolated vertices at the end;
`(unsigned)m_last_source != node - 1` is `srcs ≠ node`. -/
def finish (g : CSR) : CSR :=
  { g with
    first := if g.srcs ≠ g.node then fun i => if g.srcs < i ∧ i ≤ g.node then g.first g.srcs else g.first i
             else g.first }

/-- `edges_of(n)` with `getEdge` (graph_access.h:330-333, 547-553): the edge ids of a vertex and their contents. -/
def edgeIds (g : CSR) (v : Nat) : List Nat := (List.range (g.first (v + 1) - g.first v)).map (fun i => g.first v + i)

/-- `getEdge(e)` (graph_access.h:551-553). -/
def getEdge (g : CSR) (e : Nat) : Nat × Nat := g.edges.getD e (0, 0)

/-- Adjacency list of `v` as iterated by the algorithms. -/
def adj (g : CSR) (v : Nat) : List (Nat × Nat) := (g.edgeIds v).map g.getEdge

/-- The adjacency-list view used by the algorithm models. -/
def toGraph (g : CSR) : Graph := ⟨(List.range g.n).map g.adj⟩

/-- `getEdgeSource(edge)` (graph_access.h:338-346); `std::lower_bound` returns the first position whose entry
does not satisfy `firstEdge <= edge`. -/
def getEdgeSource (g : CSR) (e : Nat) : Nat :=
  ((List.range (g.n + 1)).takeWhile (fun i => decide (g.first i ≤ e))).length - 1

/-- `setEdgeWeight(edge, weight)` (graph_access.h:567-573); out-of-range ids are undefined behaviour (`none`). -/
def setEdgeWeight (g : CSR) (e w : Nat) : Option CSR :=
  if h : e < g.edges.length then some { g with edges := g.edges.set e ((g.edges[e]).1, w) } else none

/-- `computeDegrees()` (graph_access.h:470-495). -/
def computeDegrees (g : CSR) : CSR :=
  if g.degComputed then g
  else
    { g with
      degComputed := true
      degree := fun v => ((g.adj v).map (·.2)).sum
      minDeg := g.toGraph.minDegree
      maxDeg := g.toGraph.maxDegree }

/-- `getWeightedNodeDegree(node)` (graph_access.h:437-448). -/
def weightedDegree (g : CSR) (v : Nat) : Nat :=
  if g.degComputed then g.degree v else ((g.adj v).map (·.2)).sum

/-- A construction call. -/
inductive Op
  | newNode
  | newEdge (s t w : Nat)
deriving Repr

/-- Effect of a construction call. -/
def Op.apply (g : CSR) : Op → CSR
  | .newNode => g.newNode
  | .newEdge s t w => (g.newEdge s t w).2

/-- `start_construction`, a sequence of construction calls, `finish_construction`. -/
def build (n : Nat) (ops : List Op) : CSR := (ops.foldl Op.apply (start n)).finish

/-- `copy()` (graph_access.h:752-767): rebuilds the graph vertex by vertex; `new_edge` with weight 1 followed by
`setEdgeWeight` on the returned id. -/
def copyEdge (src : Nat) (h : Option CSR) (e : Nat × Nat) : Option CSR :=
  h.bind fun h => (h.newEdge src e.1 1).2.setEdgeWeight (h.newEdge src e.1 1).1 e.2

/-- `copy()`. -/
def copy (g : CSR) : Option CSR :=
  ((List.range g.n).foldl (fun h v => (g.adj v).foldl (copyEdge v) (h.map newNode)) (some (start g.n))).map finish

/-- `build_from_metis_weighted` (graph_access.h:731-750) on adjacency lists `rows`: the same calls, but with
targets taken from the caller. -/
def buildFromMetis (rows : List (List (Nat × Nat))) : Option CSR :=
  (rows.zipIdx.foldl (fun h r => r.1.foldl (copyEdge r.2) (h.map newNode)) (some (start rows.length))).map finish

end CSR
end VieCut
