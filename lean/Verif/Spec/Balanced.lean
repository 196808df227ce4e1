import Verif.Model.MutableGraph
import Verif.Spec.Cut

/-!
# Specification: cactus graphs and most balanced cuts

Independent of the algorithm.
-/

namespace VieCut
open Finset

/-- `x` has an edge to `y`. -/
def MGraph.Adj (C : MGraph) (x y : Nat) : Prop := ∃ e, e < C.len x ∧ (C.edge x e).target = y

/-- `l` is a cycle: at least three different vertices, each adjacent to the next, the last one to the first. -/
structure IsCycle (C : MGraph) (l : List Nat) : Prop where
  three : 3 ≤ l.length
  nodup : l.Nodup
  lt : ∀ x ∈ l, x < C.n
  adj : ∀ i, i < l.length → C.Adj (l.getD i 0) (l.getD ((i + 1) % l.length) 0)

/-- `x` and `y` are neighbours on the cycle `l`. -/
def OnCycle (l : List Nat) (x y : Nat) : Prop :=
  ∃ i, i < l.length ∧ ((x = l.getD i 0 ∧ y = l.getD ((i + 1) % l.length) 0) ∨ (y = l.getD i 0 ∧ x = l.getD ((i + 1) % l.length) 0))

/-- `C` is a cactus for cuts of weight `c`: two cycles with a common edge are the same cycle, an edge of a cycle weighs `c / 2`, any other edge weighs `c`. -/
structure IsCactus (C : MGraph) (c : Nat) : Prop where
  unique : ∀ l l', IsCycle C l → IsCycle C l' → (∃ x y, OnCycle l x y ∧ OnCycle l' x y) → ∀ x y, OnCycle l x y → OnCycle l' x y
  inside : ∀ u e, u < C.n → e < C.len u → (∃ l, IsCycle C l ∧ OnCycle l u (C.edge u e).target) → 2 * (C.edge u e).weight = c
  outside : ∀ u e, u < C.n → e < C.len u → ¬ (∃ l, IsCycle C l ∧ OnCycle l u (C.edge u e).target) → (C.edge u e).weight = c

/-- The weight of the lighter of the two sides of `S`, if vertex `v` weighs `ω v`. -/
def lighterSide (n : Nat) (ω : Nat → Nat) (S : Nat → Bool) : Nat :=
  min (∑ v ∈ range n, if S v = true then ω v else 0) (∑ v ∈ range n, if S v = true then 0 else ω v)

end VieCut
