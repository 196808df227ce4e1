import Verif.Model.MutableGraph

/-! # Specification: structural validity of a half-edge graph (what `checkGraphValidity` tests, graph_algorithms.h:104-180) -/

namespace VieCut.MGraph

/-- Every half edge `(u, e)` points to an existing vertex other than `u`, its partner half edge exists, points
back to `(u, e)` and has the same weight; the cached weighted degrees and the edge count agree with the lists. -/
structure Consistent (g : MGraph) : Prop where
  target : ∀ u e, u < g.n → e < g.len u → (g.edge u e).target < g.n
  noLoop : ∀ u e, u < g.n → e < g.len u → (g.edge u e).target ≠ u
  partner : ∀ u e, u < g.n → e < g.len u → (g.edge u e).rev < g.len (g.edge u e).target
  back : ∀ u e, u < g.n → e < g.len u → (g.edge (g.edge u e).target (g.edge u e).rev).target = u ∧
    (g.edge (g.edge u e).target (g.edge u e).rev).rev = e
  weight : ∀ u e, u < g.n → e < g.len u →
    (g.edge (g.edge u e).target (g.edge u e).rev).weight = (g.edge u e).weight
  degree : ∀ u, u < g.n → g.wdeg u = ((List.range (g.len u)).map fun e => (g.edge u e).weight).sum
  edges : g.numEdges = ((List.range g.n).map g.len).sum

/-- Original vertex `v` is found in exactly one place: its position is an existing vertex which lists it (once),
and no other vertex lists it. -/
def FoundOnce (g : MGraph) (v : Nat) : Prop :=
  g.pos v < g.n ∧ (g.cont (g.pos v)).count v = 1 ∧ ∀ p, p < g.n → p ≠ g.pos v → v ∉ g.cont p

end VieCut.MGraph
