import Verif.Model.Graph
import Mathlib.Algebra.BigOperators.Group.Finset.Basic

/-!
# Specification: quotient of a weighted graph

`Graph` is only used through its number of vertices `n`, its weight matrix `wt u v` (sum of the weights of the
entries of `u`'s adjacency list that lead to `v`) and `WF` (targets in range, no self loop, symmetric weights).
-/

namespace VieCut
open Finset

/-- `H` with vertex map `φ` is the quotient of `G`: `φ` maps the vertices of `G` onto the vertices of `H`, `H` is
a well-formed graph (in particular without self loops), and the weight between two different vertices of `H` is
the total weight between their members in `G`. -/
structure IsContraction (G H : Graph) (φ : Nat → Nat) : Prop where
  lt : ∀ u, u < G.n → φ u < H.n
  surj : ∀ p, p < H.n → ∃ u, u < G.n ∧ φ u = p
  wf : H.WF
  wt : ∀ p q, p < H.n → q < H.n → p ≠ q →
    H.wt p q = ∑ u ∈ range G.n, ∑ v ∈ range G.n, if φ u = p ∧ φ v = q then G.wt u v else 0

end VieCut
