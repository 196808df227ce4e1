import Verif.Model.Dynamic
import Verif.Spec.MutableGraph
import Verif.Model.MutableContract
import Verif.Spec.Cut

/-!
# Specification: cactus graphs and the routines used by `dynamic_mincut`

A cactus graph `C` of a graph `G` with minimum cut `c` is a smaller graph whose vertices contain the vertices of `G`.  A cut
of weight `c` of `C` stands for a minimum cut of `G`.
-/

namespace VieCut
namespace Dyn

/-- The vertices of `G` in the cactus vertices `X`. -/
def inside (C : MGraph) (X : Nat → Bool) : Nat → Bool := fun v => X (C.pos v)

/-- Every cut of `C` has weight at least `c`, and the cuts of weight `c` are cuts of weight `c` of `G`. -/
def Sound (G C : MGraph) (c : Nat) : Prop :=
  ∀ X, ProperCut C.n X → c ≤ cutValue C.n C.toGraph.wt X ∧
    (cutValue C.n C.toGraph.wt X = c → ProperCut G.n (inside C X) ∧ cutValue G.n G.toGraph.wt (inside C X) = c)

/-- Every two vertices of `C` are separated by a cut of weight `c`. -/
def Separating (C : MGraph) (c : Nat) : Prop :=
  ∀ x y, x < C.n → y < C.n → x ≠ y → ∃ X : Nat → Bool, X x = true ∧ X y = false ∧ cutValue C.n C.toGraph.wt X = c

/-- Every minimum cut of `G` is one of the cuts of weight `c` of `C`. -/
def Complete (G C : MGraph) (c : Nat) : Prop :=
  ∀ S, ProperCut G.n S → cutValue G.n G.toGraph.wt S = c →
    ∃ X, cutValue C.n C.toGraph.wt X = c ∧ ∀ v, v < G.n → inside C X v = S v

/-- `C` is a valid graph without parallel edges and with at least two vertices, and each of the `n` original vertices is in exactly one of
them. -/
structure Shape (C : MGraph) (n : Nat) : Prop where
  consistent : C.Consistent
  simple : C.NoParallel
  two : 2 ≤ C.n
  size : C.posSize = n
  found : ∀ v, v < n → C.FoundOnce v
  members : ∀ p, p < C.n → (C.cont p).Nodup ∧ ∀ v ∈ C.cont p, v < n

/-- `C` represents some minimum cuts of `G`, enough to separate its own vertices. -/
structure Represents (G C : MGraph) (c : Nat) : Prop where
  shape : Shape C G.n
  sound : Sound G C c
  separating : Separating C c

/-- The graphs handled: valid, every vertex contains itself, at least two vertices, weights that cannot overflow. -/
structure Input (G : MGraph) : Prop where
  consistent : G.Consistent
  fresh : G.Fresh
  two : 2 ≤ G.n
  fits : G.toGraph.totalWeight < 2 ^ 63

/-- The minimum weight of a cut with `s` inside and `t` outside. -/
def IsSTCut (G : MGraph) (s t c : Nat) : Prop :=
  (∃ S : Nat → Bool, S s = true ∧ S t = false ∧ cutValue G.n G.toGraph.wt S = c) ∧
  ∀ S : Nat → Bool, S s = true → S t = false → c ≤ cutValue G.n G.toGraph.wt S

/-- What `dynamic_mincut` relies on.  `findAll`: the minimum cut and a cactus, if the given value is none or the minimum
cut.  `noi`: the minimum cut.  `flow`: the minimum cut between two vertices, or the limit if that is not larger.  `rebuild`: a cactus, if all
minimum cuts separate `s` and `t`.  `ord`: the order in which a set is iterated. -/
structure Env.Spec (E : Env) : Prop where
  findAll : ∀ G k, Input G → (k = undefinedNode ∨ IsMinCut G.n G.toGraph.wt k) →
    IsMinCut G.n G.toGraph.wt (E.findAll G k).1 ∧ Represents G (E.findAll G k).2 (E.findAll G k).1
  noi : ∀ G, Input G → IsMinCut G.n G.toGraph.wt (E.noi G)
  flow : ∀ G s t limit, Input G → s < G.n → t < G.n → s ≠ t →
    IsSTCut G s t (E.flow G s t limit) ∨
    (E.flow G s t limit = limit ∧ ∀ S : Nat → Bool, S s = true → S t = false → limit ≤ cutValue G.n G.toGraph.wt S)
  rebuild : ∀ G s t c, Input G → s < G.n → t < G.n → IsMinCut G.n G.toGraph.wt c →
    (∀ S, ProperCut G.n S → cutValue G.n G.toGraph.wt S = c → S s ≠ S t) → Represents G (E.rebuild G s t c) c
  ord : ∀ l, (E.ord l).Perm l

/-- The arguments of a call are vertices. -/
def Call.Valid (n : Nat) : Call → Prop
  | .add s t _ => s < n ∧ t < n
  | .remove s t => s < n ∧ t < n

/-- The graph after a call: the edge is inserted (new_edge_order, C08), or the first edge between the vertices is deleted
(deleteEdge, C08). -/
def edited (g : MGraph) : Call → MGraph
  | .add s t w => g.newEdgeOrder s t w
  | .remove s t => match edgeTo g s t with
    | none => g
    | some e => g.deleteEdge s e

/-- Calling `c` in state `d` puts a cactus into the cache although one for the same value is there: `removeEdge` lowers
the minimum cut while the current value is cached. -/
def Reputs (E : Env) (d : State) : Call → Prop
  | .add _ _ _ => False
  | .remove s t => (removeEdge E d s t).numCached ≠ d.numCached ∧ d.cut < d.size ∧ d.caching d.cut = true

end Dyn
end VieCut
