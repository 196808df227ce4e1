import Verif.Proof.EdgeSelection
import Verif.Props.Branching

/-!
# C59: the rules for the branching edge

`p.tpos` are the positions of the terminals of the problem.
-/

namespace VieCut
namespace Problem
open MGraph

/-- **C59, heavy.**  A heaviest edge at a terminal. -/
theorem C59_heavy (p : Problem) (h : ∃ t ∈ p.tpos, ∃ e, e < p.graph.len t ∧ 0 < (p.graph.edge t e).weight) (hp : p.prio = none) (r : Nat) :
    ∃ t e, p.findEdgeSingleBranch "heavy" r = some (t, e) ∧ t ∈ p.tpos ∧ e < p.graph.len t ∧
      ∀ s ∈ p.tpos, ∀ a, a < p.graph.len s → (p.graph.edge s a).weight ≤ (p.graph.edge t e).weight := by
  obtain ⟨h1, h2, h3⟩ := scanEdges_spec h
  refine ⟨_, _, ?_, h1, h2, h3⟩
  unfold findEdgeSingleBranch
  rw [hp]
  rfl

/-- **C59, heavy_global.**  A heaviest edge of the graph. -/
theorem C59_global (p : Problem) (h : ∃ u, u < p.graph.n ∧ ∃ e, e < p.graph.len u ∧ 0 < (p.graph.edge u e).weight) (hp : p.prio = none) (r : Nat) :
    ∃ u e, p.findEdgeSingleBranch "heavy_global" r = some (u, e) ∧ u < p.graph.n ∧ e < p.graph.len u ∧
      ∀ s, s < p.graph.n → ∀ a, a < p.graph.len s → (p.graph.edge s a).weight ≤ (p.graph.edge u e).weight := by
  obtain ⟨u, hu, h⟩ := h
  obtain ⟨h1, h2, h3⟩ := scanEdges_spec (ts := List.range p.graph.n) (len := p.graph.len) (score := fun t e => (p.graph.edge t e).weight)
    ⟨u, List.mem_range.2 hu, h⟩
  refine ⟨_, _, ?_, List.mem_range.1 h1, h2, fun s hs => h3 s (List.mem_range.2 hs)⟩
  unfold findEdgeSingleBranch
  rw [hp]
  rfl

/-- **C59, heavy_vertex and any other name.**  An edge from a terminal to a neighbour of largest weighted degree. -/
theorem C59_heavy_vertex (p : Problem) (h : ∃ t ∈ p.tpos, ∃ e, e < p.graph.len t ∧ 0 < p.graph.wdeg (p.graph.edge t e).target) (hp : p.prio = none)
    (r : Nat) (rule : String) (hr : rule ∉ ["random", "heavy", "heavy_global", "connection", "distance"]) :
    ∃ t e, p.findEdgeSingleBranch rule r = some (t, e) ∧ t ∈ p.tpos ∧ e < p.graph.len t ∧
      ∀ s ∈ p.tpos, ∀ a, a < p.graph.len s → p.graph.wdeg (p.graph.edge s a).target ≤ p.graph.wdeg (p.graph.edge t e).target := by
  obtain ⟨h1, h2, h3⟩ := heavyVertex_spec h
  refine ⟨_, _, ?_, h1, h2, h3⟩
  simp only [List.mem_cons, List.not_mem_nil, or_false, not_or] at hr
  unfold findEdgeSingleBranch
  rw [hp]
  simp only
  rw [if_neg hr.1, if_neg hr.2.1, if_neg hr.2.2.1, if_neg hr.2.2.2.1, if_neg hr.2.2.2.2]

/-- **C59, random.**  Every random number below the number of edges at terminals gives an edge at a terminal, and every such edge is given by
exactly one of these numbers: all of them are equally likely. -/
theorem C59_random (p : Problem) (hn : p.tpos.Nodup) (hp : p.prio = none) :
    (∀ r, r < (p.tpos.map p.graph.len).sum → ∃ t e, p.findEdgeSingleBranch "random" r = some (t, e) ∧ t ∈ p.tpos ∧ e < p.graph.len t) ∧
    ∀ t ∈ p.tpos, ∀ e, e < p.graph.len t → ∃! r, r < (p.tpos.map p.graph.len).sum ∧ p.findEdgeSingleBranch "random" r = some (t, e) := by
  have hrule : ∀ r, p.findEdgeSingleBranch "random" r = p.findRandomEdge r := fun r => by
    unfold findEdgeSingleBranch
    rw [hp]
    rfl
  have hall : p.prefixLen p.tpos.length = (p.tpos.map p.graph.len).sum := by unfold prefixLen; rw [List.take_length]
  have hget : ∀ i, i < p.tpos.length → p.tpos.getD i 0 ∈ p.tpos := fun i hi => by
    rw [List.getD_eq_getElem?_getD, List.getElem?_eq_getElem hi]
    exact List.getElem_mem hi
  refine ⟨fun r hr => ?_, fun t ht e he => ?_⟩
  · rw [← hall] at hr
    obtain ⟨i, e, a, b, c⟩ := exists_prefix _ r (le_refl _) hr
    exact ⟨_, e, by rw [hrule]; exact findRandomEdge_iff a b c, hget i a, b⟩
  · obtain ⟨i, hi, rfl⟩ := List.mem_iff_getElem.1 ht
    have hg : p.tpos.getD i 0 = p.tpos[i] := by rw [List.getD_eq_getElem?_getD, List.getElem?_eq_getElem hi]; rfl
    rw [← hg] at he
    refine ⟨p.prefixLen i + e, ⟨?_, ?_⟩, ?_⟩
    · rw [← hall]
      have := prefixLen_mono (p := p) (i := i + 1) (j := p.tpos.length) (by omega) (le_refl _)
      rw [prefixLen_succ hi] at this
      omega
    · show p.findEdgeSingleBranch "random" (p.prefixLen i + e) = _
      rw [hrule, findRandomEdge_iff hi he rfl, hg]
    · rintro r ⟨hr, hre⟩
      rw [← hall] at hr
      obtain ⟨j, a, j1, j2, j3⟩ := exists_prefix _ r (le_refl _) hr
      rw [hrule, findRandomEdge_iff j1 j2 j3] at hre
      simp only [Option.some.injEq, Prod.mk.injEq] at hre
      have hgj : p.tpos.getD j 0 = p.tpos[j] := by rw [List.getD_eq_getElem?_getD, List.getElem?_eq_getElem j1]; rfl
      have hij : j = i := by
        have := hre.1
        rw [hgj] at this
        exact (List.Nodup.getElem_inj_iff hn).1 this
      rw [j3, hij, hre.2]

/-- **C59, connection (partial: weights to terminals below `2 ^ 16`).**  A vertex with the largest total weight to terminals, and its heaviest
edge to a terminal. -/
theorem C59_connection_partial (p : Problem) (hg : p.graph.Consistent) (ht : ∀ t ∈ p.tpos, t < p.graph.n)
    (hw : ∀ u e, u < p.graph.n → e < p.graph.len u → 0 < (p.graph.edge u e).weight)
    (hb : ∀ v, (p.tpos.map fun t => p.graph.toGraph.wt t v).sum < 2 ^ 16) (he : ∃ t ∈ p.tpos, 0 < p.graph.len t) (hp : p.prio = none) (r : Nat) :
    ∃ t e, p.findEdgeSingleBranch "connection" r = some (t, e) ∧ t ∈ p.tpos ∧ e < p.graph.len t ∧
      (∀ v, (p.tpos.map fun t => p.graph.toGraph.wt t v).sum ≤ (p.tpos.map fun s => p.graph.toGraph.wt s (p.graph.edge t e).target).sum) ∧
      ∀ s ∈ p.tpos, ∀ a, a < p.graph.len s → (p.graph.edge s a).target = (p.graph.edge t e).target →
        (p.graph.edge s a).weight ≤ (p.graph.edge t e).weight := by
  obtain ⟨t, e, h1, h2⟩ := many_spec hg ht hw hb he
  refine ⟨t, e, ?_, h2⟩
  unfold findEdgeSingleBranch
  rw [hp, ← h1]
  rfl

/-- **C59, distance (partial: some neighbour of a terminal has another edge).**  An edge from a terminal to a neighbour with the largest
weight of other edges. -/
theorem C59_distance_partial (p : Problem)
    (h : ∃ t ∈ p.tpos, ∃ e, e < p.graph.len t ∧ 0 < p.graph.wdeg (p.graph.edge t e).target - (p.graph.edge t e).weight) (hp : p.prio = none) (r : Nat) :
    ∃ t e, p.findEdgeSingleBranch "distance" r = some (t, e) ∧ t ∈ p.tpos ∧ e < p.graph.len t ∧
      ∀ s ∈ p.tpos, ∀ a, a < p.graph.len s → p.graph.wdeg (p.graph.edge s a).target - (p.graph.edge s a).weight ≤
        p.graph.wdeg (p.graph.edge t e).target - (p.graph.edge t e).weight := by
  obtain ⟨h1, h2, h3⟩ := scanEdges_spec h
  refine ⟨_, _, ?_, h1, h2, h3⟩
  unfold findEdgeSingleBranch
  rw [hp]
  rfl

/-- **C59, priority edge.**  An edge that a reduction has asked for is chosen before all rules. -/
theorem C59_priority (p : Problem) (q : Nat × Nat) (hp : p.prio = some q) (rule : String) (r : Nat) :
    p.findEdgeSingleBranch rule r = some q := by
  unfold findEdgeSingleBranch
  rw [hp]

example : ({ branchSample with prio := some (1, 0) } : Problem).findEdgeSingleBranch "random" 7 = some (1, 0) := by decide +kernel

/-- **C59 and C24.**  With the rules `random`, `heavy`, `heavy_vertex` and the default, for problems with positive edge weights that have been
through `deleteTermEdges`: an edge at a terminal is chosen, and branching on it loses no optimal solution that is better than the global
upper bound (unless `degreeThreeContraction` applies, see `C24_degree_three_unsound`). -/
theorem C59_branch_partial (ots : List Nat) (p : Problem) (h : Ok ots p) (hc : Current ots p)
    (hclean : ∀ t ∈ p.tpos, ∀ e, e < p.graph.len t → (p.graph.edge t e).target ∉ p.spots ots)
    (hw : ∀ u e, u < p.graph.n → e < p.graph.len u → 0 < (p.graph.edge u e).weight) (he : ∃ t ∈ p.tpos, 0 < p.graph.len t) (hp : p.prio = none)
    (gub r : Nat) (hr : r < (p.tpos.map p.graph.len).sum) (rule : String) (hrule : rule ∉ ["heavy_global", "connection", "distance"]) :
    ∃ t e, p.findEdgeSingleBranch rule r = some (t, e) ∧ t ∈ p.tpos ∧ e < p.graph.len t ∧
      (d3Applies p.graph t e = false → ∀ c, Optimum ots p c → (c < gub → ∃ q ∈ p.singleBranch ots gub t e, Optimum ots q c) ∧
        ∀ q ∈ p.singleBranch ots gub t e, Ok ots q ∧ ∀ d, Optimum ots q d → c ≤ d) := by
  obtain ⟨t0, ht0, hl0⟩ := he
  have hlt : ∀ t ∈ p.tpos, t < p.graph.n := fun t ht => h.spot_lt _ (hc.spots t ht)
  have key : ∀ t e, p.findEdgeSingleBranch rule r = some (t, e) → t ∈ p.tpos → e < p.graph.len t →
      ∃ t e, p.findEdgeSingleBranch rule r = some (t, e) ∧ t ∈ p.tpos ∧ e < p.graph.len t ∧
      (d3Applies p.graph t e = false → ∀ c, Optimum ots p c → (c < gub → ∃ q ∈ p.singleBranch ots gub t e, Optimum ots q c) ∧
        ∀ q ∈ p.singleBranch ots gub t e, Ok ots q ∧ ∀ d, Optimum ots q d → c ≤ d) := fun t e h1 h2 h3 =>
    ⟨t, e, h1, h2, h3, fun hd3 => C24_single_branch_partial ots p h gub t e (hlt t h2) h3 (fun hb => hclean t h2 e h3 hb.2) hd3⟩
  by_cases h1 : rule = "random"
  · subst h1
    obtain ⟨t, e, a, b, c⟩ := (C59_random p hc.nodup hp).1 r hr
    exact key t e a b c
  by_cases h2 : rule = "heavy"
  · subst h2
    obtain ⟨t, e, a, b, c, -⟩ := C59_heavy p ⟨t0, ht0, 0, hl0, hw t0 0 (hlt t0 ht0) hl0⟩ hp r
    exact key t e a b c
  · have hv := h.consistent
    have ht := hv.target t0 0 (hlt t0 ht0) hl0
    obtain ⟨t, e, a, b, c, -⟩ := C59_heavy_vertex p ⟨t0, ht0, 0, hl0, by
      have k1 := hv.partner t0 0 (hlt t0 ht0) hl0
      rw [hv.degree _ ht]
      refine lt_of_lt_of_le (hw _ _ ht k1) (List.single_le_sum (fun _ _ => Nat.zero_le _) _ ?_)
      exact List.mem_map.2 ⟨_, List.mem_range.2 k1, rfl⟩⟩ hp r rule (by
        simp only [List.mem_cons, List.not_mem_nil, or_false, not_or] at hrule ⊢
        exact ⟨h1, h2, hrule⟩)
    exact key t e a b c

/-- The map of `findEdgeWithManyTerminals` holds 16 bits.  Vertex 3 is the only neighbour of the terminals 1 and 2, with edges of weight
`2 ^ 16`; its entry is 0, and an edge between two vertices that are no terminals is returned. -/
theorem C59_connection_wraps : ∃ p : Problem, Ok [1, 2] p ∧ Current [1, 2] p ∧ (∃ t ∈ p.tpos, 0 < p.graph.len t) ∧
    p.findEdgeSingleBranch "connection" 0 = some (0, 0) ∧ 0 ∉ p.tpos ∧ (p.graph.edge 0 0).target ∉ p.tpos := by
  obtain ⟨h1, h2, -⟩ := C24_precondition [1, 2] (sample 4 [(1, 3, 2 ^ 16), (2, 3, 2 ^ 16), (0, 3, 1)])
    (ok_of_check (by decide +kernel) (by decide +kernel) (by decide +kernel) (by decide +kernel) (by decide +kernel))
  exact ⟨_, h1, h2, by decide +kernel, by decide +kernel, by decide +kernel, by decide +kernel⟩

/-- If the neighbours of the terminals have no other edges, `findVertexWithHighDistance` returns edge 0 of vertex 0, which need not exist. -/
theorem C59_distance_no_edge : ∃ p : Problem, Ok [1, 2] p ∧ Current [1, 2] p ∧ (∃ t ∈ p.tpos, 0 < p.graph.len t) ∧
    p.findEdgeSingleBranch "distance" 0 = some (0, 0) ∧ p.graph.len 0 = 0 := by
  obtain ⟨h1, h2, -⟩ := C24_precondition [1, 2] (sample 5 [(1, 3, 1), (2, 4, 1)])
    (ok_of_check (by decide +kernel) (by decide +kernel) (by decide +kernel) (by decide +kernel) (by decide +kernel))
  exact ⟨_, h1, h2, by decide +kernel, by decide +kernel, by decide +kernel⟩

/-- The rules on a problem that meets the hypotheses. -/
example : Ok [0, 1, 2] branchSample ∧ Current [0, 1, 2] branchSample ∧ branchSample.prio = none ∧ branchSample.tpos.Nodup ∧
    (∀ t ∈ branchSample.tpos, t < branchSample.graph.n) ∧
    (∀ u, u < branchSample.graph.n → ∀ e, e < branchSample.graph.len u → 0 < (branchSample.graph.edge u e).weight) ∧
    (∃ t ∈ branchSample.tpos, ∃ e, e < branchSample.graph.len t ∧
      0 < branchSample.graph.wdeg (branchSample.graph.edge t e).target - (branchSample.graph.edge t e).weight) ∧
    (["heavy", "heavy_global", "heavy_vertex", "connection", "distance", "random"].map fun s => branchSample.findEdgeSingleBranch s 2) =
      [some (0, 0), some (3, 2), some (0, 0), some (0, 0), some (0, 0), some (2, 0)] := by
  obtain ⟨h1, h2, -⟩ := C24_precondition [0, 1, 2] (sample 5 [(0, 3, 2), (1, 3, 2), (3, 4, 5), (2, 4, 2)])
    (ok_of_check (by decide +kernel) (by decide +kernel) (by decide +kernel) (by decide +kernel) (by decide +kernel))
  refine ⟨h1, h2, by decide +kernel, by decide +kernel, by decide +kernel, by decide +kernel, by decide +kernel, by decide +kernel⟩

end Problem
end VieCut
