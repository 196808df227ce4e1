import Verif.Spec.Walk
import Mathlib.Logic.Relation

/-!
# Specification: areas of terminals, distances from a set
-/

namespace VieCut

/-- An edge between two vertices of the area `i`. -/
def Inside (G : Graph) (m : Nat → Option Nat) (i a b : Nat) : Prop :=
  b ∈ (G.edges a).map (·.1) ∧ m a = some i ∧ m b = some i

/-- `d` is the distance from the set `S` to `v`: the number of edges of a shortest walk from a vertex of `S`. -/
def IsDistFrom (G : Graph) (S : List Nat) (v d : Nat) : Prop :=
  (∃ s ∈ S, Walk G s v d) ∧ ∀ s ∈ S, ∀ k, Walk G s v k → d ≤ k

end VieCut
