import Verif.Proof.CyclePart
import Verif.Proof.Check

/-!
# Properties of `heavy_edges.h` (C52, C53)
-/

namespace VieCut
open HeavyEdges MGraph

/-- **C52.**  A graph that holds the original vertices `E` and has no cut below `c` is reduced by `removeHeavyEdges` to a graph that holds a
part of them; whenever `C` is a cactus of all cuts of value `c` of the reduced graph, `reInsertVertices` turns it into a cactus of all cuts of
value `c` of the graph before the reduction.  For all orders in which the maps and sets are iterated. -/
theorem C52_heavy_edges_and_leaves {E : Nat → Prop} {g : MGraph} {c : Nat} (h : Piece E g c) (hc : 0 < c)
    (ordM : List (Nat × List Nat) → List (Nat × List Nat)) (hM : ∀ l, (ordM l).Perm l) (ord : Nat → List Nat → List Nat) (hord : IsOrder ord) :
    ∃ E', (∀ e, E' e → E e) ∧ Piece E' (removeHeavyEdges c ordM ord g).1 c ∧
    ∀ C, CactusOf E' (Split (removeHeavyEdges c ordM ord g).1 E' c) C c →
      CactusOf E (Split g E c) (reInsertVertices c C (removeHeavyEdges c ordM ord g).2) c :=
  removeHeavyEdges_spec h hc hM hord

/-- **C53 (partial).**  The same for the vertices with two neighbours: whenever `C` is a cactus of all cuts of value `c` of the graph left by
`contractCycleEdges`, and `reInsertCycles` returns, the result is a cactus of all cuts of value `c` of the graph before.  Missing: that
`reInsertCycles` returns; it ends the program when the two positions are not neighbours. -/
theorem C53_cycles_partial {E : Nat → Prop} {g : MGraph} {c : Nat} (h : Piece E g c) (hc : 0 < c) :
    ∃ E', (∀ e, E' e → E e) ∧ Piece E' (contractCycleEdges c g).1 c ∧
    ∀ C C', CactusOf E' (Split (contractCycleEdges c g).1 E' c) C c → reInsertCycles c C (contractCycleEdges c g).2 = some C' →
      CactusOf E (Split g E c) C' c := by
  obtain ⟨E', u⟩ := contractCycleEdges_spec h hc
  exact ⟨E', u.sub, u.piece, u.back⟩

/-- A graph is its own cactus if its edges have the weights of a cactus and its cuts separate its vertices. -/
theorem Piece.cactus {E : Nat → Prop} {g : MGraph} {c : Nat} (h : Piece E g c)
    (hw : ∀ u b, u < g.n → b < g.len u → (g.edge u b).weight = c ∨ 2 * (g.edge u b).weight = c)
    (hs : ∀ x y, x < g.n → y < g.n → x ≠ y → ∃ X : Nat → Bool, X x = true ∧ X y = false ∧ cutValue g.n g.toGraph.wt X = c) :
    CactusOf E (Split g E c) g c :=
  ⟨h.consistent, h.simple, h.ready, h.room, h.held, hw, h.least, fun _ => Iff.rfl, hs⟩

/-- Freshly constructed graphs are pieces. -/
theorem piece_of_check {n : Nat} {ops : List MGraph.Op} {c : Nat} (hv : Valid ((MGraph.start n).run ops))
    (hsim : ((MGraph.start n).run ops).NoParallel) (hn : ((MGraph.start n).run ops).n = n)
    (hr : n ≤ ((MGraph.start n).run ops).contSize) (hcont : ∀ p, p < n → ((MGraph.start n).run ops).cont p = [p])
    (hpos : ∀ p, p < n → ((MGraph.start n).run ops).pos p = p) (ho : ((MGraph.start n).run ops).origNodes = n)
    (hp : ∀ u, u < n → ∀ b, b < ((MGraph.start n).run ops).len u → 0 < (((MGraph.start n).run ops).edge u b).weight)
    (hl : ∀ X, ProperCut n X → c ≤ cutValue n ((MGraph.start n).run ops).finishConstruction.toGraph.wt X) :
    Piece (fun e => e < n) ((MGraph.start n).run ops).finishConstruction c := by
  set g := (MGraph.start n).run ops
  have hn' : g.finishConstruction.n = n := hn
  refine ⟨consistent_iff.2 (hv.of_eq rfl rfl rfl rfl rfl), hsim, rfl, by rw [hn']; exact hr, fun u b hu hb => hp u (by rwa [hn'] at hu) b hb,
    ⟨fun e he => ?_, fun p e h => ?_, fun p h => ?_⟩, fun e he => ?_, fun p h => ?_, fun X hX => ?_⟩
  · rw [hn']; show g.pos e < n; rw [hpos e he]; exact he
  · rw [hn'] at h
    show e ∈ g.cont p ↔ e < n ∧ g.pos e = p
    rw [hcont p h, List.mem_singleton]
    constructor
    · rintro rfl; exact ⟨h, hpos e h⟩
    · rintro ⟨h1, h2⟩; rw [hpos e h1] at h2; exact h2
  · rw [hn'] at h
    show (g.cont p).Nodup
    rw [hcont p h]; simp
  · show e < g.origNodes
    rw [ho]; exact he
  · rw [hn'] at h
    show g.cont p ≠ []
    rw [hcont p h]; simp
  · rw [hn'] at hX ⊢
    exact hl X hX

/-- A heavy edge, a triangle and a leaf. -/
def heavySample : MGraph := ((MGraph.start 4).run [.newEdge 0 1 3, .newEdge 1 2 1, .newEdge 0 2 1, .newEdge 2 3 2]).finishConstruction

theorem heavySample_piece : Piece (fun e => e < 4) heavySample 2 :=
  piece_of_check ((MGraph.Valid.start 4).run _ (by decide +kernel)) (by decide +kernel) (by decide +kernel) (by decide +kernel)
    (by decide +kernel) (by decide +kernel) (by decide +kernel) (by decide +kernel) (cuts_ge_of_check (by decide +kernel))

/-- The hypotheses of `C52_heavy_edges_and_leaves` hold for a graph from which an edge is contracted and a leaf is removed. -/
example : Piece (fun e => e < 4) heavySample 2 ∧
    (let r := removeHeavyEdges 2 id (fun _ l => l) heavySample
     r.1.n = 2 ∧ r.2 = [(2, [3])] ∧ ∀ u, u < 2 → ∀ b, b < r.1.len u → (r.1.edge u b).weight = 2) :=
  ⟨heavySample_piece, by decide +kernel⟩

/-- A cycle of five vertices with edges of weight one. -/
def cycleSample : MGraph :=
  ((MGraph.start 5).run [.newEdge 0 1 1, .newEdge 1 2 1, .newEdge 2 3 1, .newEdge 3 4 1, .newEdge 0 4 1]).finishConstruction

theorem cycleSample_piece : Piece (fun e => e < 5) cycleSample 2 :=
  piece_of_check ((MGraph.Valid.start 5).run _ (by decide +kernel)) (by decide +kernel) (by decide +kernel) (by decide +kernel)
    (by decide +kernel) (by decide +kernel) (by decide +kernel) (by decide +kernel) (cuts_ge_of_check (by decide +kernel))

/-- The hypotheses of `C53_cycles_partial` hold for a cycle; two of its vertices are left, and `reInsertCycles` restores five. -/
example : Piece (fun e => e < 5) cycleSample 2 ∧
    (let r := contractCycleEdges 2 cycleSample
     r.1.n = 2 ∧ r.2.length = 3 ∧ ((reInsertCycles 2 r.1 r.2).map fun C => (C.n, (List.range C.n).map C.wdeg)) = some (5, [2, 2, 2, 2, 2])) :=
  ⟨cycleSample_piece, by decide +kernel⟩

end VieCut
