import Verif.Model.Tools
import Mathlib.Algebra.BigOperators.Group.Finset.Basic

/-! # Specifications for the small tools -/

namespace VieCut
open Finset Function

/-- Reference behaviour of a flow problem: a map from edges to flows, zero at the beginning. -/
def refFlow (s : (Nat → Nat → Int) × List Int) : FlowOp → (Nat → Nat → Int) × List Int
  | .set u e f => (fun a b => if a = u ∧ b = e then f else s.1 a b, s.2)
  | .add u e f => (fun a b => if a = u ∧ b = e then s.1 u e + f else s.1 a b, s.2)
  | .get u e => (s.1, s.2 ++ [s.1 u e])

/-- The values a problem must read if all flows are zero when it starts. -/
def refProblem (ops : List FlowOp) : List Int := (ops.foldl refFlow (fun _ _ => 0, [])).2

/-- Total weight of the edges between different blocks, every unordered pair of vertices counted once. -/
def multicutValue (n : Nat) (w : Nat → Nat → Nat) (sol : Nat → Nat) : Nat :=
  ∑ v ∈ range n, ∑ u ∈ range v, if sol u ≠ sol v then w u v else 0

/-- A solution with one block per terminal: block ids are in range and every block contains exactly one terminal. -/
structure SeparatesTerminals (n : Nat) (terminals : List Nat) (sol : Nat → Nat) : Prop where
  ids : ∀ v, v < n → sol v < terminals.length
  one : ∀ i, i < terminals.length → (terminals.filter (fun t => sol t == i)).length = 1

end VieCut
