import Verif.Proof.FlowEdge
import Verif.Props.RecursiveCactus

/-!
# C58: the choice of the flow edge in the cactus computation
-/

namespace VieCut
namespace RecCactus
open MGraph

/-- **C58, existence.**  In a connected graph all of whose vertices have contents, each of the documented rules returns an edge of the graph with its target. -/
theorem C58_exists (G : MGraph) (hg : G.Consistent) (hn : 2 ≤ G.n) (hf : ∀ v, v < G.n → G.cont v ≠ [])
    (hc : ∀ X, ProperCut G.n X → 0 < cutValue G.n G.toGraph.wt X) (rnd : Nat) (hr : rnd < G.n) (es : String)
    (hes : es ∈ ["heavy", "heavy_weighted", "", "heavy_vertex", "central", "random"]) :
    ∃ s e, flowEdge es rnd G = some (s, e, (G.edge s e).target) ∧ s < G.n ∧ e < G.len s := by
  have hl : ∀ u, u < G.n → 0 < G.len u := fun u hu => (degree_pos hg hn hc hu).2
  have hw : ∀ u, u < G.n → 0 < G.wdeg u := fun u hu => (degree_pos hg hn hc hu).1
  have hwt : ∀ es : String, es ≠ "heavy" → (es = "heavy_weighted" ∨ es = "" ∨ es = "heavy_vertex") →
      ∃ s e, flowEdge es rnd G = some (s, e, (G.edge s e).target) ∧ s < G.n ∧ e < G.len s := by
    intro es h1 h2
    obtain ⟨s, e, a1, a2, a3, -⟩ := heavyFlowEdge_some hg hf (by omega) hw hl rnd
    refine ⟨s, e, ?_, a2, a3⟩
    unfold flowEdge
    simp only
    rw [if_neg h1, if_pos h2, a1]
    rfl
  simp only [List.mem_cons, List.not_mem_nil, or_false] at hes
  rcases hes with rfl | rfl | rfl | rfl | rfl | rfl
  · obtain ⟨s, e, a1, a2, a3, -⟩ := heavyFlowEdge_some hg hf (by omega) hl hl rnd
    refine ⟨s, e, ?_, a2, a3⟩
    unfold flowEdge
    simp only
    rw [if_pos trivial, a1]
    rfl
  · exact hwt _ (by decide) (by simp)
  · exact hwt _ (by decide) (by simp)
  · exact hwt _ (by decide) (by simp)
  · obtain ⟨s, e, -, -, -, a1, a2, a3, -⟩ := centralFlowEdge_spec hg hl hr
    refine ⟨s, e, ?_, a2, a3⟩
    unfold flowEdge
    simp only
    rw [if_neg (by decide), if_neg (by decide), if_pos trivial, a1]
    rfl
  · obtain ⟨a1, a2⟩ := findFlowEdge_ok' hg hf (u := 0) (by omega) (hl 0 (by omega)) rnd
    refine ⟨_, _, ?_, a1, a2⟩
    unfold flowEdge
    simp only
    rw [if_neg (by decide), if_neg (by decide), if_neg (by decide), if_pos trivial]

/-- **C58, heavy.**  The rule `heavy` takes a vertex with the most edges and its neighbour with the most edges. -/
theorem C58_heavy (G : MGraph) (hg : G.Consistent) (hn : 2 ≤ G.n) (hf : ∀ v, v < G.n → G.cont v ≠ [])
    (hc : ∀ X, ProperCut G.n X → 0 < cutValue G.n G.toGraph.wt X) (hb : ∀ v, v < G.n → G.len v < 2 ^ 32) (rnd s e t : Nat)
    (h : flowEdge "heavy" rnd G = some (s, e, t)) :
    (∀ u, u < G.n → G.len u ≤ G.len s) ∧ ∀ a, a < G.len s → G.len (G.edge s a).target ≤ G.len t := by
  have hl : ∀ u, u < G.n → 0 < G.len u := fun u hu => (degree_pos hg hn hc hu).2
  obtain ⟨s', e', a1, a2, a3, a4, a5⟩ := heavyFlowEdge_some hg hf (by omega) hl hl rnd
  have : flowEdge "heavy" rnd G = some (s', e', (G.edge s' e').target) := by
    unfold flowEdge
    simp only
    rw [if_pos trivial, a1]
    rfl
  rw [this] at h
  simp only [Option.some.injEq, Prod.mk.injEq] at h
  obtain ⟨rfl, rfl, rfl⟩ := h
  exact heavy_max hg hf hb a2 a4 a5

/-- **C58, heavy_weighted (partial: degrees below `2 ^ 32`).**  The default rule takes a vertex of largest weighted degree and its neighbour
of largest weighted degree. -/
theorem C58_weighted_partial (G : MGraph) (hg : G.Consistent) (hn : 2 ≤ G.n) (hf : ∀ v, v < G.n → G.cont v ≠ [])
    (hc : ∀ X, ProperCut G.n X → 0 < cutValue G.n G.toGraph.wt X) (hb : ∀ v, v < G.n → G.toGraph.deg v < 2 ^ 32) (rnd s e t : Nat) (es : String)
    (hes : es ∈ ["heavy_weighted", "", "heavy_vertex"]) (h : flowEdge es rnd G = some (s, e, t)) :
    (∀ u, u < G.n → G.toGraph.deg u ≤ G.toGraph.deg s) ∧ ∀ a, a < G.len s → G.toGraph.deg (G.edge s a).target ≤ G.toGraph.deg t := by
  have hl : ∀ u, u < G.n → 0 < G.len u := fun u hu => (degree_pos hg hn hc hu).2
  have hw : ∀ u, u < G.n → 0 < G.wdeg u := fun u hu => (degree_pos hg hn hc hu).1
  have hd : ∀ u, u < G.n → G.wdeg u = G.toGraph.deg u := fun u hu => Problem.Valid.wdeg_eq (consistent_iff.1 hg) hu
  obtain ⟨s', e', a1, a2, a3, a4, a5⟩ := heavyFlowEdge_some hg hf (by omega) hw hl rnd
  have : flowEdge es rnd G = some (s', e', (G.edge s' e').target) := by
    unfold flowEdge
    simp only
    simp only [List.mem_cons, List.not_mem_nil, or_false] at hes
    rw [if_neg (by rintro rfl; revert hes; decide), if_pos hes, a1]
    rfl
  rw [this] at h
  simp only [Option.some.injEq, Prod.mk.injEq] at h
  obtain ⟨rfl, rfl, rfl⟩ := h
  obtain ⟨k1, k2⟩ := heavy_max hg hf (fun v hv => by rw [hd v hv]; exact hb v hv) a2 a4 a5
  refine ⟨fun u hu => by rw [← hd u hu, ← hd s' a2]; exact k1 u hu, fun a ha => ?_⟩
  rw [← hd _ (hg.target s' a a2 ha), ← hd _ (hg.target s' e' a2 a3)]
  exact k2 a ha

/-- **C58, central.**  The rule `central` takes the middle edge of a shortest path: `v1` is farthest from the random vertex, `v2` farthest
from `v1`, and going from `v1` to `v2` over the returned edge is as short as possible, with halves that differ by at most one edge. -/
theorem C58_central (G : MGraph) (hg : G.Consistent) (hn : 2 ≤ G.n) 
    (hc : ∀ X, ProperCut G.n X → 0 < cutValue G.n G.toGraph.wt X) (rnd : Nat) (hr : rnd < G.n) (s e t : Nat)
    (h : flowEdge "central" rnd G = some (s, e, t)) :
    ∃ v1 v2 a b, (∃ k, IsDist G.toGraph rnd v1 k ∧ ∀ v l, IsDist G.toGraph rnd v l → l ≤ k) ∧
      IsDist G.toGraph v1 v2 (a + 1 + b) ∧ (∀ v l, IsDist G.toGraph v1 v l → l ≤ a + 1 + b) ∧
      IsDist G.toGraph v1 t a ∧ s ∈ (G.toGraph.edges t).map (·.1) ∧ IsDist G.toGraph s v2 b ∧ (b = a ∨ b = a + 1) := by
  have hl : ∀ u, u < G.n → 0 < G.len u := fun u hu => (degree_pos hg hn hc hu).2
  obtain ⟨s', e', v1, v2, D, a1, a2, a3, ⟨k, a4⟩, a5, a6, a7, a8, a9, a10, a11⟩ := centralFlowEdge_spec hg hl hr
  have : flowEdge "central" rnd G = some (s', e', (G.edge s' e').target) := by
    unfold flowEdge
    simp only
    rw [if_neg (by decide), if_neg (by decide), if_pos trivial, a1]
    rfl
  rw [this] at h
  simp only [Option.some.injEq, Prod.mk.injEq] at h
  obtain ⟨rfl, rfl, rfl⟩ := h
  obtain ⟨i, hi⟩ := exists_dist a4
  refine ⟨v1, v2, (D - 1) / 2, D / 2, ⟨i, hi, fun v l hv => a5 v i l hi hv⟩, ?_, ?_, a8, ?_, ⟨a9, ?_⟩, by omega⟩
  · rw [show (D - 1) / 2 + 1 + D / 2 = D by omega]
    exact a6
  · rw [show (D - 1) / 2 + 1 + D / 2 = D by omega]
    exact a7
  · have ht := hg.target s' e' a2 a3
    rw [toGraph_edges G ht, List.map_map]
    exact List.mem_map.2 ⟨(G.edge s' e').rev, List.mem_range.2 (hg.partner s' e' a2 a3), (hg.back s' e' a2 a3).1⟩
  · intro j hj
    have := a6.2 _ (a11.1.trans hj)
    omega

/-- An unknown rule leaves source, edge and target at zero, which is not an edge. -/
theorem C58_unknown_rule (G : MGraph) (rnd : Nat) (es : String)
    (hes : es ∉ ["heavy", "heavy_weighted", "", "heavy_vertex", "central", "random"]) : flowEdge es rnd G = some (0, 0, 0) := by
  simp only [List.mem_cons, List.not_mem_nil, or_false, not_or] at hes
  unfold flowEdge
  simp only
  rw [if_neg hes.1, if_neg (by tauto), if_neg (by tauto), if_neg (by tauto)]

/-- The largest degree is kept in 32 bits: here the default rule takes the vertex of smallest degree. -/
theorem C58_truncation : ∃ G : MGraph, G.Consistent ∧ (∀ v, v < G.n → G.cont v ≠ []) ∧
    (∀ X, ProperCut G.n X → 0 < cutValue G.n G.toGraph.wt X) ∧ flowEdge "heavy_weighted" 0 G = some (2, 0, 0) ∧
    G.toGraph.deg 0 = 2 ^ 32 + 5 ∧ G.toGraph.deg 2 = 5 := by
  refine ⟨(MGraph.start 3).run [.newEdge 0 1 (2 ^ 32), .newEdge 0 2 5],
    consistent_iff.2 ((MGraph.Valid.start 3).run _ (by decide +kernel)), by decide +kernel, ?_, by decide +kernel,
    by decide +kernel, by decide +kernel⟩
  intro X hX
  exact (cuts_ge_of_check (c := 1) (by decide +kernel)) X hX

/-- **C58 and C57.**  Whichever of the rules is configured, the choice is one that `C57_recursion_partial` allows. -/
theorem C58_recursion_partial {E : Nat → Prop} {G C : MGraph} {c fuel : Nat} (V : Env) (es : String)
    (hes : es ∈ ["heavy", "heavy_weighted", "", "heavy_vertex", "central", "random"]) (rnd : MGraph → Nat) (hr : ∀ H : MGraph, 0 < H.n → rnd H < H.n)
    (hpick : ∀ H s e t, flowEdge es (rnd H) H = some (s, e, t) → V.pick H = (s, e))
    (hM : ∀ l, (V.ordM l).Perm l) (hO : IsOrder V.ord) (hOC : ∀ l, (V.ordC l).Perm l) (hQ : ∀ n, ∃ K, 2 * n ≤ K ∧ Nonempty (V.P.Lawful n K))
    (hS : Steps V c) (hc : 0 < c) (hK : 2 * (c + 1) < 2 ^ 32) (hG : Piece E G c) (h : flowMincut V c fuel G = some C) :
    CactusOf E (Split G E c) C c := by
  refine C57_recursion_partial V ⟨hM, hO, hOC, fun E H hH h1 h2 => ?_, hQ⟩ hS hc hK hG h
  obtain ⟨u, hu, -⟩ := exists_edge hH h2
  obtain ⟨s, e, a1, a2, a3⟩ := C58_exists H hH.consistent (by omega) hH.full (fun X hX => lt_of_lt_of_le hc (hH.least X hX)) (rnd H)
    (hr H (by omega)) es hes
  rw [hpick H s e _ a1]
  exact ⟨a2, a3⟩

/-- The graph of `ringSample`: the choices of the rules, and the hypotheses of the theorems. -/
example : ringSample.Consistent ∧ (∀ v, v < ringSample.n → ringSample.cont v ≠ []) ∧
    (∀ X, ProperCut ringSample.n X → 0 < cutValue ringSample.n ringSample.toGraph.wt X) ∧
    flowEdge "heavy" 1 ringSample = some (3, 0, 2) ∧ flowEdge "" 1 ringSample = some (3, 0, 2) ∧
    flowEdge "central" 1 ringSample = some (2, 1, 3) ∧ flowEdge "random" 1 ringSample = some (1, 0, 0) :=
  ⟨ringSample_piece.consistent, ringSample_piece.full, fun X hX => lt_of_lt_of_le (by decide) (ringSample_piece.least X hX),
    by decide +kernel, by decide +kernel, by decide +kernel, by decide +kernel⟩

end RecCactus
end VieCut
