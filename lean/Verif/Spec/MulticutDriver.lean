import Verif.Spec.Tools

/-!
# Specification: multiterminal cuts with given terminal areas

Vertices are `0, …, n-1`, `w` is a symmetric weight matrix.  `term v = some t` means that vertex `v` is given to terminal
`t`.  A solution labels the vertices with terminals; `multicutValue n w f` (Spec/Tools) is the weight of the edges
between different labels.
-/

namespace VieCut

/-- Every vertex that is given to a terminal is in the block of this terminal. -/
def Keeps (n : Nat) (term : Nat → Option Nat) (f : Nat → Nat) : Prop := ∀ v, v < n → ∀ t, term v = some t → f v = t

/-- `c` is the smallest weight of the edges between different blocks. -/
def IsMinKeeping (n : Nat) (w : Nat → Nat → Nat) (term : Nat → Option Nat) (c : Nat) : Prop :=
  (∃ f, Keeps n term f ∧ multicutValue n w f = c) ∧ ∀ f, Keeps n term f → c ≤ multicutValue n w f

end VieCut
