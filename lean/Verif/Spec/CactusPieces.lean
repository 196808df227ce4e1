import Verif.Spec.Cactus

/-!
# Specification: graphs that hold a set of original vertices, and cactuses of families of splits

Independent of the algorithm.  `E` is the set of original vertices a graph holds, `g.pos e` the vertex of the graph where `e` is, and
`g.cont p` the list of the original vertices at `p`.
-/

namespace VieCut

/-- Some cut of value `c` of `g` puts the elements of `E` on the sides given by `f`. -/
def Split (g : MGraph) (E : Nat → Prop) (c : Nat) (f : Nat → Bool) : Prop :=
  ∃ X, ProperCut g.n X ∧ cutValue g.n g.toGraph.wt X = c ∧ ∀ e, E e → X (g.pos e) = f e

/-- `g` holds exactly the elements of `E`: positions and lists agree. -/
structure Held (E : Nat → Prop) (g : MGraph) : Prop where
  lt : ∀ e, E e → g.pos e < g.n
  mem : ∀ p e, p < g.n → (e ∈ g.cont p ↔ E e ∧ g.pos e = p)
  nodup : ∀ p, p < g.n → (g.cont p).Nodup

/-- An input of the recursion: a consistent graph without parallel edges and with positive weights that holds `E`, with no empty
vertex, whose cuts are at least `c`, and which is ready for `new_empty_node` (`last_node = n`).  `original_nodes` bounds `E`. -/
structure Piece (E : Nat → Prop) (g : MGraph) (c : Nat) : Prop where
  consistent : g.Consistent
  simple : g.NoParallel
  ready : g.lastNode = g.n
  room : g.n ≤ g.contSize
  positive : ∀ u b, u < g.n → b < g.len u → 0 < (g.edge u b).weight
  held : Held E g
  known : ∀ e, E e → e < g.origNodes
  full : ∀ p, p < g.n → g.cont p ≠ []
  least : ∀ X, ProperCut g.n X → c ≤ cutValue g.n g.toGraph.wt X

/-- `C` is a cactus of the family `P` of splits of `E`: its edges have weight `c` or `c / 2`, no cut is lighter than `c`, the cuts of
weight `c` split `E` exactly in the ways of `P`, and any two vertices are separated by such a cut. -/
structure CactusOf (E : Nat → Prop) (P : (Nat → Bool) → Prop) (C : MGraph) (c : Nat) : Prop where
  consistent : C.Consistent
  simple : C.NoParallel
  ready : C.lastNode = C.n
  room : C.n ≤ C.contSize
  held : Held E C
  weights : ∀ u b, u < C.n → b < C.len u → (C.edge u b).weight = c ∨ 2 * (C.edge u b).weight = c
  least : ∀ X, ProperCut C.n X → c ≤ cutValue C.n C.toGraph.wt X
  splits : ∀ f, Split C E c f ↔ P f
  separating : ∀ x y, x < C.n → y < C.n → x ≠ y → ∃ X : Nat → Bool, X x = true ∧ X y = false ∧ cutValue C.n C.toGraph.wt X = c

end VieCut
