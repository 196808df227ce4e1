import Mathlib.Algebra.BigOperators.Group.Finset.Basic

/-!
# Specification: cuts of a weighted undirected graph

Independent of any code.  A graph is given by its number of vertices `n` (vertices are `0, …, n-1`)
and a weight matrix `w`; a vertex subset is a Boolean function.
-/

namespace VieCut
open Finset

/-- Total weight of the edges leaving the vertex subset `S`: all pairs `u ∈ S`, `v ∉ S`. -/
def cutValue (n : Nat) (w : Nat → Nat → Nat) (S : Nat → Bool) : Nat :=
  ∑ u ∈ range n, ∑ v ∈ range n, if S u = true ∧ S v = false then w u v else 0

/-- `S` is a proper, non-empty subset of the vertices `0, …, n-1`. -/
def ProperCut (n : Nat) (S : Nat → Bool) : Prop :=
  (∃ u, u < n ∧ S u = true) ∧ (∃ v, v < n ∧ S v = false)

/-- `c` is the minimum cut value: some proper subset is left by edges of weight `c`, none by less. -/
def IsMinCut (n : Nat) (w : Nat → Nat → Nat) (c : Nat) : Prop :=
  (∃ S, ProperCut n S ∧ cutValue n w S = c) ∧ ∀ S, ProperCut n S → c ≤ cutValue n w S

end VieCut
