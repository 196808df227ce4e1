import Verif.Proof.CanonizeSpec
import Verif.Proof.CactusCheck
import Verif.Props.HeavyEdges

/-!
# C54: merging cactuses
-/

namespace VieCut
open GraphModification Function MGraph

/-- C54 (removal of an empty vertex).  Let `C` be a cactus of the splits `P`, all of them minimum cuts of a graph `g`, and let its vertex
`v` hold nothing.  Then `canonizeCactus` ends, does not exit, and gives a cactus of the same splits. -/
theorem C54_canonize {E : Nat → Prop} {P : (Nat → Bool) → Prop} {C g : MGraph} {v c : Nat} (hc : 0 < c) (h : CactusOf E P C c)
    (hg : Piece E g c) (hP : ∀ f, P f → Split g E c f) (hv : v < C.n) (hempty : C.cont v = [])
    (hclean : ∀ p, p < C.contSize → C.n ≤ p → C.cont p = []) :
    ∃ C' fuel₀, CactusOf E P C' c ∧ ∀ fuel, fuel₀ ≤ fuel → canonizeCactus fuel C v c = some C' :=
  canonize_spec h hc hv hempty (fun p h1 h2 => hclean p h2 h1) hg hP

/-- C54 (merge).  Let `G1` and `G2` be cactuses of the splits `P1` and `P2`, all of them minimum cuts of a graph `g`, and let all vertices
that are not at `v1` in `G1` be at `v2` in `G2`.  Then `mergeGraphs` ends, does not exit, and gives a cactus of all splits of `P1` and
`P2`, and of no others. -/
theorem C54_merge {E : Nat → Prop} {P1 P2 : (Nat → Bool) → Prop} {G1 G2 g : MGraph} {v1 v2 c : Nat} (hc : 0 < c)
    (h1 : CactusOf E P1 G1 c) (h2 : CactusOf E P2 G2 c) (hg : Piece E g c) (hP1 : ∀ f, P1 f → Split g E c f)
    (hP2 : ∀ f, P2 f → Split g E c f) (hv1 : v1 < G1.n) (hv2 : v2 < G2.n) (hout : ∀ e, E e → G1.pos e ≠ v1 → G2.pos e = v2)
    (hclean : ∀ p, p < G1.contSize → G1.n < p → G1.cont p = []) :
    ∃ M fuel₀, CactusOf E (fun f => P1 f ∨ P2 f) M c ∧ ∀ fuel, fuel₀ ≤ fuel → mergeGraphs fuel G1 v1 G2 v2 c = some M := by
  have hone : ∀ {P : (Nat → Bool) → Prop} {G : MGraph}, CactusOf E P G c → G.n = 1 → ∀ f, ¬ P f := by
    intro P G h hn f hf
    obtain ⟨X, ⟨⟨a, ha, h3⟩, ⟨b, hb, h4⟩⟩, _⟩ := (h.splits f).2 hf
    rw [show a = b by omega, h4] at h3
    simp at h3
  unfold mergeGraphs
  by_cases hn2 : G2.n = 1
  · refine ⟨G1, 0, h1.congr fun f => ?_, fun fuel _ => by rw [if_pos hn2]⟩
    have := hone h2 hn2 f
    tauto
  · by_cases hn1 : G1.n = 1
    · refine ⟨G2, 0, h2.congr fun f => ?_, fun fuel _ => by rw [if_neg hn2, if_pos hn1]⟩
      have := hone h1 hn1 f
      tauto
    · obtain ⟨k1, k2, k3, _⟩ := glue_spec hc h1 h2 (fun p a b => hclean p b a) hv1 hv2 (by omega) hout
      by_cases he : ((glue G1 v1 G2 v2).cont v1).isEmpty = true
      · obtain ⟨M, F, m1, m2⟩ := canonize_spec k1 hc k3 (List.isEmpty_iff.1 he) k2 hg (fun f hf => hf.elim (hP1 f) (hP2 f))
        refine ⟨M, F, m1, fun fuel hf => ?_⟩
        rw [if_neg hn2, if_neg hn1]
        dsimp only
        rw [if_pos he, m2 fuel hf]
      · refine ⟨_, 0, k1, fun fuel _ => ?_⟩
        rw [if_neg hn2, if_neg hn1]
        dsimp only
        rw [if_neg he]

/-- A triangle. -/
def mergeSample : MGraph := ((MGraph.start 3).run [.newEdge 0 1 1, .newEdge 1 2 1, .newEdge 0 2 1]).finishConstruction

/-- The vertex 0 against the others. -/
def mergeSample1 : MGraph := (MGraph.start 3).run [.newEdge 0 1 2, .newEdge 1 2 3, .finishConstruction, .contractEdge 1 1]

/-- The vertices 1 and 2 as leaves at the vertex 0. -/
def mergeSample2 : MGraph := (MGraph.start 3).run [.newEdge 0 1 2, .newEdge 0 2 2, .finishConstruction]

theorem mergeSample_piece : Piece (fun e => e < 3) mergeSample 2 :=
  piece_of_check ((MGraph.Valid.start 3).run _ (by decide +kernel)) (by decide +kernel) (by decide +kernel) (by decide +kernel)
    (by decide +kernel) (by decide +kernel) (by decide +kernel) (by decide +kernel) (cuts_ge_of_check (by decide +kernel))

theorem mergeSample1_cactus : CactusOf (fun e => e < 3) (Split mergeSample1 (fun e => e < 3) 2) mergeSample1 2 :=
  cactus_of_check ((MGraph.Valid.start 3).run _ (by decide +kernel)) (by decide +kernel) (by decide +kernel) (by decide +kernel)
    (by decide +kernel) (by decide +kernel) (by decide +kernel) (cuts_ge_of_check (by decide +kernel)) (by decide +kernel)

theorem mergeSample2_cactus : CactusOf (fun e => e < 3) (Split mergeSample2 (fun e => e < 3) 2) mergeSample2 2 :=
  cactus_of_check ((MGraph.Valid.start 3).run _ (by decide +kernel)) (by decide +kernel) (by decide +kernel) (by decide +kernel)
    (by decide +kernel) (by decide +kernel) (by decide +kernel) (cuts_ge_of_check (by decide +kernel)) (by decide +kernel)

/-- The hypotheses of `C54_merge` hold for two trees, and the merge gives a triangle: the empty vertex in the middle is replaced. -/
example : Piece (fun e => e < 3) mergeSample 2 ∧ CactusOf (fun e => e < 3) (Split mergeSample1 (fun e => e < 3) 2) mergeSample1 2 ∧
    CactusOf (fun e => e < 3) (Split mergeSample2 (fun e => e < 3) 2) mergeSample2 2 ∧
    (∀ f, Split mergeSample1 (fun e => e < 3) 2 f → Split mergeSample (fun e => e < 3) 2 f) ∧
    (∀ f, Split mergeSample2 (fun e => e < 3) 2 f → Split mergeSample (fun e => e < 3) 2 f) ∧
    mergeSample1.n = 2 ∧ mergeSample2.n = 3 ∧ (∀ e, e < 3 → mergeSample1.pos e ≠ 1 → mergeSample2.pos e = 0) ∧
    (∀ p, p < mergeSample1.contSize → mergeSample1.n < p → mergeSample1.cont p = []) ∧
    (mergeGraphs 5 mergeSample1 1 mergeSample2 0 2).map (fun M => (M.n, (List.range M.n).map fun u => (M.cont u, edgeSum M u, M.len u))) =
      some (3, [([0], 2, 2), ([2], 2, 2), ([1], 2, 2)]) :=
  ⟨mergeSample_piece, mergeSample1_cactus, mergeSample2_cactus, split_of_check (by decide) (by decide +kernel) (by decide +kernel),
    split_of_check (by decide) (by decide +kernel) (by decide +kernel), by decide +kernel, by decide +kernel, by decide +kernel,
    by decide +kernel, by decide +kernel⟩

/-- A vertex whose list has an entry (9) that is not one of the three vertices. -/
def staleSample : MGraph := { mergeSample1 with cont := update mergeSample1.cont 1 [1, 2, 9] }

/-- When the second graph has one vertex, entries that do not belong there stay in the list. -/
theorem C54_stale_entries : ∃ G2 : MGraph, G2.n = 1 ∧ G2.cont 0 = [0, 1, 2] ∧
    (mergeGraphs 5 staleSample 1 G2 0 2).map (fun M => M.cont 1) = some [1, 2, 9] :=
  ⟨{ MGraph.start 1 with cont := fun _ => [0, 1, 2] }, by decide +kernel⟩

/-- A vertex without content with three edges of weight `3`: the edges of the triangle get weight `1`, and cuts of weight `3` are lost.
The hypothesis of `C54_canonize` that the splits are minimum cuts of a graph excludes this. -/
theorem C54_odd_triangle : ∃ C : MGraph, C.Consistent ∧ C.cont 3 = [] ∧ edgeSum C 3 = 9 ∧
    (canonizeCactus 5 C 3 3).map (fun M => (M.n, (List.range M.n).map fun u => edgeSum M u)) = some (3, [2, 2, 2]) :=
  ⟨(MGraph.start 3).run [.finishConstruction, .newEmptyNode, .newEdge 0 3 3, .newEdge 1 3 3, .newEdge 2 3 3],
    consistent_iff.2 ((MGraph.Valid.start 3).run _ (by decide +kernel)), by decide +kernel⟩

end VieCut
