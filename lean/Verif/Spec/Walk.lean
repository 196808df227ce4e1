import Verif.Model.Graph

/-! # Walks in a graph -/

namespace VieCut

/-- `Walk G s v k`: there is a walk with `k` edges from `s` to `v`. -/
inductive Walk (G : Graph) (s : Nat) : Nat → Nat → Prop
  | nil : Walk G s s 0
  | snoc {u v k : Nat} : Walk G s u k → v ∈ (G.edges u).map (·.1) → Walk G s v (k + 1)

/-- `d` is the distance from `s` to `v`: the number of edges of a shortest walk. -/
def IsDist (G : Graph) (s v d : Nat) : Prop := Walk G s v d ∧ ∀ k, Walk G s v k → d ≤ k

end VieCut
