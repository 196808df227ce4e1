import Verif.Model.Graph
import Verif.Model.MutableGraph
import Mathlib.Logic.Relation

/-! # Specification: reachability, induced subgraphs, cores -/

namespace VieCut

/-- `G` has an edge from `u` to `v`. -/
def Graph.Step (G : Graph) (u v : Nat) : Prop := ∃ w, (v, w) ∈ G.edges u

/-- `u` and `v` are reachable from each other along steps of `R`. -/
def Mutual (R : Nat → Nat → Prop) (u v : Nat) : Prop := Relation.ReflTransGen R u v ∧ Relation.ReflTransGen R v u

/-- Residual edge: some edge from `u` to `v` whose flow differs from its weight. -/
def MGraph.Residual (g : MGraph) (flow : Nat → Nat → Int) (u v : Nat) : Prop :=
  ∃ e, e < g.len u ∧ (g.edge u e).target = v ∧ flow u e ≠ ((g.edge u e).weight : Int)

/-- `H` is the subgraph of `G` induced by the vertices in the list `names`; vertex `i` of `H` is vertex `names[i]` of
`G`, and the edges of a vertex keep their order and weights. -/
structure InducedBy (G H : Graph) (names : List Nat) : Prop where
  len : H.n = names.length
  nodup : names.Nodup
  lt : ∀ v ∈ names, v < G.n
  tgt : ∀ i, ∀ e ∈ H.edges i, e.1 < H.n
  row : ∀ i, i < H.n → (H.edges i).map (fun e => (names.getD e.1 0, e.2)) =
    (G.edges (names.getD i 0)).filter (fun e => decide (e.1 ∈ names))

/-- Number of edges from `u` into the vertex set `P`. -/
def Graph.edgesInto (G : Graph) (P : Nat → Bool) (u : Nat) : Nat := ((G.edges u).filter (fun e => P e.1)).length

/-- `v` belongs to a set of vertices each of which has at least `k` edges into the set. -/
def Graph.InCore (G : Graph) (k v : Nat) : Prop :=
  ∃ P : Nat → Bool, P v = true ∧ ∀ u, u < G.n → P u = true → k ≤ G.edgesInto P u

/-- The edges between two vertices are listed equally often at both ends. -/
def Graph.Paired (G : Graph) : Prop :=
  ∀ u v, u < G.n → v < G.n →
    ((G.edges u).filter (fun e => e.1 == v)).length = ((G.edges v).filter (fun e => e.1 == u)).length

end VieCut
