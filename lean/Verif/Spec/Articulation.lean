import Verif.Spec.Balanced
import Mathlib.Logic.Relation

/-! # Specification: cut vertices -/

namespace VieCut
namespace MGraph

/-- A walk connects `x` and `y`. -/
def Joined (g : MGraph) (x y : Nat) : Prop := Relation.ReflTransGen g.Adj x y

/-- A walk that does not meet `v` connects `x` and `y`. -/
def JoinedWithout (g : MGraph) (v x y : Nat) : Prop :=
  Relation.ReflTransGen (fun a b => g.Adj a b ∧ a ≠ v ∧ b ≠ v) x y

/-- Removing `v` separates two other vertices that are connected. -/
def CutVertex (g : MGraph) (v : Nat) : Prop :=
  v < g.n ∧ ∃ a b, a < g.n ∧ b < g.n ∧ a ≠ v ∧ b ≠ v ∧ g.Joined a b ∧ ¬ g.JoinedWithout v a b

/-- `v` is the first vertex of its connected component. -/
def FirstOfComponent (g : MGraph) (v : Nat) : Prop := ∀ u, g.Joined v u → v ≤ u

/-- `x` lies behind `v`: it is connected to `v`, but after the removal of `v` not to the first vertex `r` of the
component. -/
def Behind (g : MGraph) (v r x : Nat) : Prop := x ≠ v ∧ g.Joined v x ∧ ¬ g.JoinedWithout v r x

end MGraph
end VieCut
