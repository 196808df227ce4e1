import Verif.Spec.Tools
import Verif.Spec.Cut

/-!
# Specification: minimum multiterminal cuts

Vertices are `0, …, n-1`, `w` is a symmetric weight matrix, `ts` lists the terminals.  A solution labels the vertices;
`multicutValue n w f` (Spec/Tools) is the weight of the edges between different labels.
-/

namespace VieCut

/-- Different terminals get different labels. -/
def Separates (ts : List Nat) (f : Nat → Nat) : Prop := ∀ s ∈ ts, ∀ t ∈ ts, s ≠ t → f s ≠ f t

/-- `c` is the weight of a minimum multiterminal cut. -/
def IsMinMulticut (n : Nat) (w : Nat → Nat → Nat) (ts : List Nat) (c : Nat) : Prop :=
  (∃ f, Separates ts f ∧ multicutValue n w f = c) ∧ ∀ f, Separates ts f → c ≤ multicutValue n w f

/-- `c` is the weight of a minimum multiterminal cut among those that do not separate the pairs in `R`. -/
def IsMinTogether (n : Nat) (w : Nat → Nat → Nat) (ts : List Nat) (R : Nat → Nat → Prop) (c : Nat) : Prop :=
  (∃ f, Separates ts f ∧ (∀ u v, R u v → f u = f v) ∧ multicutValue n w f = c) ∧
  ∀ f, Separates ts f → (∀ u v, R u v → f u = f v) → c ≤ multicutValue n w f

/-- Vertices with the same class may be merged: every solution can be turned into one that is not heavier and does not
separate them. -/
def MergeSafe (n : Nat) (w : Nat → Nat → Nat) (ts : List Nat) (cls : Nat → Nat) : Prop :=
  ∀ f, Separates ts f → ∃ f', Separates ts f' ∧ multicutValue n w f' ≤ multicutValue n w f ∧
    ∀ u v, u < n → v < n → cls u = cls v → f' u = f' v

/-- `S` is (the source side of) a minimum cut that isolates `r` from the other terminals. -/
structure IsolatingCut (n : Nat) (w : Nat → Nat → Nat) (ts : List Nat) (r : Nat) (S : Nat → Bool) : Prop where
  source : S r = true
  sinks : ∀ t ∈ ts, t ≠ r → S t = false
  min : ∀ S' : Nat → Bool, S' r = true → (∀ t ∈ ts, t ≠ r → S' t = false) → cutValue n w S ≤ cutValue n w S'

end VieCut
