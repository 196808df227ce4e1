import Mathlib.Logic.Relation
import Mathlib.Data.Finset.Card
import Mathlib.Data.Finset.Image

/-!
# Specification: the partition generated by a list of pairs
-/

namespace VieCut

/-- `a` and `b` are linked by a chain of pairs of `ps` (used in either direction). -/
def Linked (ps : List (Nat × Nat)) (a b : Nat) : Prop :=
  Relation.EqvGen (fun x y => (x, y) ∈ ps) a b

/-- `k` is the number of classes of the relation `r` on `0, …, n-1`: the vertices can be labelled so that
exactly `k` labels occur and two vertices get the same label iff they are related. -/
def NumClasses (n : Nat) (r : Nat → Nat → Prop) (k : Nat) : Prop :=
  ∃ lab : Nat → Nat, (∀ a b, a < n → b < n → (lab a = lab b ↔ r a b)) ∧
    ((Finset.range n).image lab).card = k

end VieCut
