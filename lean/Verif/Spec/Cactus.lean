import Verif.Model.MutableHistory
import Verif.Model.NOIMutable
import Verif.Spec.MutableGraph
import Verif.Spec.Cut

/-!
# Specification: a graph that represents all minimum cuts

Independent of the algorithm.  `C` is a graph and `p v` the vertex of `C` that contains vertex `v` of `G`.
-/

namespace VieCut

/-- `C` represents the cuts of value `c` of `G`: no cut of `C` is lighter than `c`; a cut of weight `c` of `C` stands for a cut of value `c`
of `G` (`sound`); every cut of value `c` of `G` is one of these (`complete`); no two vertices of `C` could be one
(`separating`). -/
structure RepresentsMinCuts (G : Graph) (C : MGraph) (p : Nat → Nat) (c : Nat) : Prop where
  consistent : C.Consistent
  simple : C.NoParallel
  lt : ∀ v, v < G.n → p v < C.n
  least : ∀ X, ProperCut C.n X → c ≤ cutValue C.n C.toGraph.wt X
  sound : ∀ X, ProperCut C.n X → cutValue C.n C.toGraph.wt X = c →
    ProperCut G.n (fun v => X (p v)) ∧ cutValue G.n G.wt (fun v => X (p v)) = c
  complete : ∀ S, ProperCut G.n S → cutValue G.n G.wt S = c →
    ∃ X, cutValue C.n C.toGraph.wt X = c ∧ ∀ v, v < G.n → X (p v) = S v
  separating : ∀ x y, x < C.n → y < C.n → x ≠ y → ∃ X : Nat → Bool, X x = true ∧ X y = false ∧ cutValue C.n C.toGraph.wt X = c

/-- What is assumed of the routine that computes the cactus of the kernel: for a connected graph (of class `γ`, satisfying `good`) and its minimum cut, or for a single
vertex, the result represents all minimum cuts with the positions it stores, and no vertex of it is left over from the construction. -/
def RCSpec {γ : Type} [GraphLike γ] (good : γ → Prop) (rc : γ → Nat → MGraph) : Prop :=
  ∀ K c, good K → 0 < c → 0 < (GraphLike.view K).n → (2 ≤ (GraphLike.view K).n → IsMinCut (GraphLike.view K).n (GraphLike.view K).wt c) →
    RepresentsMinCuts (GraphLike.view K) (rc K c) (rc K c).pos c ∧ (rc K c).lastNode = (rc K c).n ∧
    (rc K c).contSize = (rc K c).n ∧ (rc K c).posSize = (GraphLike.view K).n

/-- The stored lists of contained vertices are those of the stored positions. -/
def ListsMatch (C : MGraph) (n : Nat) : Prop := ∀ q, q < C.n → C.cont q = (List.range n).filter (fun v => C.pos v == q)

end VieCut
