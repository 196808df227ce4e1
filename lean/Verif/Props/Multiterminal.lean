import Verif.Proof.MulticutCheck

/-!
# Multiterminal cuts: reductions, bounds, branching

C22: what one pass of the kernelization followed by `contractIfImproved` does to the optimum.
-/

namespace VieCut
namespace Problem
open MGraph

/-! ### C22 -/

/-- Edges between terminals are paid for and removed; nothing else changes. -/
theorem C22_delete_terminal_edges (ots : List Nat) (p : Problem) (h : Ok ots p) :
    Ok ots (p.deleteTermEdges ots) ∧ (∀ c, Optimum ots p c ↔ Optimum ots (p.deleteTermEdges ots) c) ∧
    (p.deleteTermEdges ots).spots ots = p.spots ots ∧
    (∀ s ∈ p.spots ots, ∀ t ∈ p.spots ots, (p.deleteTermEdges ots).graph.toGraph.wt s t = 0) :=
  ⟨(deleteTermEdges_ok h).1, (deleteTermEdges_ok h).2.1, (deleteTermEdges_ok h).2.2.1, (deleteTermEdges_ok h).2.2.2.2⟩

/-- The high-degree pass (heavy edges and heavy terminal edges) keeps the optimum, whatever vertices are active. -/
theorem C22_high_degree (ots : List Nat) (ord : Nat → List Nat → List Nat) (active : Nat → Bool) (p : Problem)
    (h : Ok ots p) (ho : IsOrder ord) :
    let p1 := p.setTerminals ots
    let p2 := p1.contractIfImproved ots ord (p1.highDegree active)
    Ok ots p2 ∧ ∀ c, Optimum ots p c ↔ Optimum ots p2 c := by
  obtain ⟨h1, h2, h3⟩ := highDegree_safe h active
  have hk := contractIfImproved_ok (setTerminals_ok h) ho h1 h2 h3
  exact ⟨hk.1, fun c => (setTerminals_optimum (ots := ots) (p := p) c).symm.trans (hk.2 c)⟩

/-- The equal-neighbourhood pass keeps the optimum if the hash separates vertices of different degree. -/
theorem C22_equal_neighborhoods (ots : List Nat) (ord : Nat → List Nat → List Nat) (hash : List Nat → Nat) (bound : Nat)
    (active : Nat → Bool) (p : Problem) (h : Ok ots p) (ho : IsOrder ord)
    (hh : ∀ u v, u < p.graph.n → v < p.graph.n →
      hash (((p.graph.toGraph.edges u).map Prod.fst).insertionSort (· ≤ ·)) =
        hash (((p.graph.toGraph.edges v).map Prod.fst).insertionSort (· ≤ ·)) →
      p.graph.len u = p.graph.len v) :
    let p1 := p.setTerminals ots
    let p2 := p1.contractIfImproved ots ord (p1.equalNeighborhoods hash bound active)
    Ok ots p2 ∧ ∀ c, Optimum ots p c ↔ Optimum ots p2 c := by
  obtain ⟨h1, h2, h3⟩ := equalNeighborhoods_safe h hh bound active
  have hk := contractIfImproved_ok (setTerminals_ok h) ho h1 h2 h3
  exact ⟨hk.1, fun c => (setTerminals_optimum (ots := ots) (p := p) c).symm.trans (hk.2 c)⟩

/-- The low-degree pass keeps the optimum if no terminal of degree three has a non-terminal neighbour of degree one.
Without that condition it does not (`C22_low_degree_unsound`). -/
theorem C22_low_degree_partial (ots : List Nat) (ord : Nat → List Nat → List Nat) (p : Problem)
    (h : Ok ots p) (ho : IsOrder ord)
    (hn : ∀ t ∈ p.spots ots, p.graph.len t = 3 → ∀ e, e < 3 → p.graph.len (p.graph.edge t e).target = 1 →
      (p.graph.edge t e).target ∈ p.spots ots) :
    let p1 := p.setTerminals ots
    let p2 := p1.contractIfImproved ots ord p1.lowDegree
    Ok ots p2 ∧ ∀ c, Optimum ots p c ↔ Optimum ots p2 c := by
  have hns : NoSpur p.graph (p.setTerminals ots).isTerm := by
    intro t ht htt hl e he
    by_contra hc
    have hc' : leaf p.graph (p.setTerminals ots).isTerm (p.graph.edge t e).target = true := by simpa using hc
    unfold leaf at hc'
    simp only [Bool.and_eq_true, decide_eq_true_eq, Bool.not_eq_true'] at hc'
    have hs : t ∈ p.spots ots := (mem_tpos_setTerminals.1 (by simpa [isTerm] using htt)).1
    rcases spots_isTerm h _ (hn t hs hl e he hc'.1.2) with h' | h'
    · rw [hc'.1.1] at h'; exact absurd h' (by simp)
    · omega
  obtain ⟨h1, h2, h3⟩ := lowDegree_safe h hns
  have hk := contractIfImproved_ok (setTerminals_ok h) ho h1 h2 h3
  exact ⟨hk.1, fun c => (setTerminals_optimum (ots := ots) (p := p) c).symm.trans (hk.2 c)⟩

/-- The unions made from flows of non-terminals keep the optimum if the source sets are minimum cuts that separate
their vertex from all terminals and are pairwise disjoint.  For overlapping sets this fails
(`C22_nonterminal_flow_unsound`). -/
theorem C22_nonterminal_flow_partial (ots : List Nat) (ord : Nat → List Nat → List Nat) (flows : List (Nat × List Nat))
    (p : Problem) (h : Ok ots p) (ho : IsOrder ord)
    (hlt : ∀ q ∈ flows, q.1 < p.graph.n ∧ ∀ x ∈ q.2, x < p.graph.n)
    (hcut : ∀ q ∈ flows, IsolatingCut p.graph.n p.graph.toGraph.wt (p.spots ots) q.1 (fun x => decide (x ∈ q.2)))
    (hdis : flows.Pairwise (fun q q' => ∀ x ∈ q.2, x ∉ q'.2)) :
    let p2 := p.contractIfImproved ots ord (flowUnions p.graph.n flows)
    Ok ots p2 ∧ ∀ c, Optimum ots p c ↔ Optimum ots p2 c := by
  obtain ⟨h1, h2, h3⟩ := flowUnions_safe h flows hlt hcut hdis
  exact contractIfImproved_ok h ho h1 h2 h3

/-- Contracting the isolating cuts of the terminals (overlapping vertices stay with the first block) keeps the
optimum. -/
theorem C22_isolating_blocks (ots : List Nat) (ord : Nat → List Nat → List Nat) (Q : List (Nat × List Nat))
    (p : Problem) (h : Ok ots p) (ho : IsOrder ord) (hts : ∀ q ∈ Q, q.1 ∈ p.spots ots) (hnd : (Q.map Prod.fst).Nodup)
    (hblk : ∀ q ∈ Q, q.2.Nodup ∧ ∀ x ∈ q.2, x < p.graph.n)
    (hcut : ∀ q ∈ Q, IsolatingCut p.graph.n p.graph.toGraph.wt (p.spots ots) q.1 (fun x => decide (x ∈ q.2))) :
    let p2 := p.contractIsolatingBlocks ord (Q.map Prod.snd)
    Ok ots p2 ∧ ∀ c, Optimum ots p c ↔ Optimum ots p2 c :=
  contractIsolatingBlocks_ok h ho Q hts hnd hblk hcut

/-! ### Where the passes lose optimal solutions -/

/-- Terminals 0 and 4; vertex 1 is a leaf at terminal 0, which has degree three and whose heavier other edge leads to
vertex 2, next to terminal 4. -/
def lowWitness : Problem := sample 5 [(0, 1, 1), (0, 2, 2), (0, 3, 1), (2, 4, 100), (2, 3, 1)]

/-- The low-degree pass raises the optimum from at most 3 to at least 100. -/
theorem C22_low_degree_unsound : ∃ (ots : List Nat) (p : Problem), Ok ots p ∧ ∃ c c',
    Optimum ots p c ∧
    Optimum ots ((p.setTerminals ots).contractIfImproved ots (fun _ l => l) (p.setTerminals ots).lowDegree) c' ∧
    c ≤ 3 ∧ 100 ≤ c' := by
  refine ⟨[0, 4], lowWitness, ?_, ?_⟩
  · exact ok_of_check (by decide +kernel) (by decide +kernel) (by decide +kernel) (by decide +kernel) (by decide +kernel)
  · obtain ⟨c, hc⟩ := optimum_exists [0, 4] lowWitness
    obtain ⟨c', hc'⟩ := optimum_exists [0, 4] ((lowWitness.setTerminals [0, 4]).contractIfImproved [0, 4]
      (fun _ l => l) (lowWitness.setTerminals [0, 4]).lowDegree)
    refine ⟨c, c', hc, hc', ?_, ?_⟩
    · refine (optimum_le hc (f := fun x => if x = 0 ∨ x = 1 then 0 else 1) ?_).trans (by decide +kernel)
      unfold Separates
      decide +kernel
    · refine le_optimum hc' fun f _ => Nat.le_trans ?_ (Nat.le_add_right _ _)
      decide +kernel

/-- Vertices 0, 1, 2 form a triangle of weight 1; 0 and 1 are connected to terminals 3 and 4 by weight 2, vertex 2 to
terminal 5 by weight 10. -/
def triWitness : Problem :=
  sample 6 [(0, 1, 1), (0, 2, 1), (1, 2, 1), (0, 3, 2), (1, 4, 2), (2, 5, 10)]

/-- The triangle pass raises the optimum from at most 3 to at least 4. -/
theorem C22_triangle_unsound : ∃ (ots : List Nat) (p : Problem), Ok ots p ∧ ∃ c c',
    Optimum ots p c ∧
    Optimum ots ((p.setTerminals ots).contractIfImproved ots (fun _ l => l)
      ((p.setTerminals ots).triangle fun _ => true)) c' ∧ c ≤ 3 ∧ 4 ≤ c' := by
  refine ⟨[3, 4, 5], triWitness, ?_, ?_⟩
  · exact ok_of_check (by decide +kernel) (by decide +kernel) (by decide +kernel) (by decide +kernel) (by decide +kernel)
  · obtain ⟨c, hc⟩ := optimum_exists [3, 4, 5] triWitness
    obtain ⟨c', hc'⟩ := optimum_exists [3, 4, 5] ((triWitness.setTerminals [3, 4, 5]).contractIfImproved [3, 4, 5]
      (fun _ l => l) ((triWitness.setTerminals [3, 4, 5]).triangle fun _ => true))
    refine ⟨c, c', hc, hc', ?_, ?_⟩
    · refine (optimum_le hc (f := fun x => x % 3) ?_).trans (by decide +kernel)
      unfold Separates
      decide +kernel
    · refine le_optimum hc' fun f hf => Nat.le_trans ?_ (Nat.le_add_left _ _)
      exact multicuts_ge_of_check (by decide +kernel) (by decide +kernel) f hf

/-- The path 0 –3– 1 –1– 2 –1– 3 –3– 4 with terminals 0 and 4. -/
def flowWitness : Problem := sample 5 [(0, 1, 3), (1, 2, 1), (2, 3, 1), (3, 4, 3)]

/-- Two overlapping source sets, both minimum cuts: the optimum rises from 1 to 3. -/
theorem C22_nonterminal_flow_unsound : ∃ (ots : List Nat) (p : Problem) (flows : List (Nat × List Nat)), Ok ots p ∧
    (∀ q ∈ flows, q.1 < p.graph.n ∧ q.1 ∉ p.spots ots ∧
      IsolatingCut p.graph.n p.graph.toGraph.wt (p.spots ots) q.1 (fun x => decide (x ∈ q.2))) ∧ ∃ c c',
    Optimum ots p c ∧
    Optimum ots (p.contractIfImproved ots (fun _ l => l) (flowUnions p.graph.n flows)) c' ∧ c ≤ 1 ∧ 3 ≤ c' := by
  refine ⟨[0, 4], flowWitness, [(1, [1, 2]), (3, [3, 2])], ?_, ?_, ?_⟩
  · exact ok_of_check (by decide +kernel) (by decide +kernel) (by decide +kernel) (by decide +kernel) (by decide +kernel)
  · intro q hq
    rcases List.mem_cons.1 hq with rfl | hq
    · exact ⟨by decide +kernel, by decide +kernel, isolatingCut_of_check (by decide +kernel) (by decide +kernel)
        (by decide +kernel) (by decide +kernel) (by decide +kernel)⟩
    · rw [List.mem_singleton] at hq
      subst hq
      exact ⟨by decide +kernel, by decide +kernel, isolatingCut_of_check (by decide +kernel) (by decide +kernel)
        (by decide +kernel) (by decide +kernel) (by decide +kernel)⟩
  · obtain ⟨c, hc⟩ := optimum_exists [0, 4] flowWitness
    obtain ⟨c', hc'⟩ := optimum_exists [0, 4] (flowWitness.contractIfImproved [0, 4] (fun _ l => l)
      (flowUnions flowWitness.graph.n [(1, [1, 2]), (3, [3, 2])]))
    refine ⟨c, c', hc, hc', ?_, ?_⟩
    · refine (optimum_le hc (f := fun x => if x ≤ 1 then 0 else 1) ?_).trans (by decide +kernel)
      unfold Separates
      decide +kernel
    · refine le_optimum hc' fun f hf => Nat.le_trans ?_ (Nat.le_add_left _ _)
      exact multicuts_ge_of_check (by decide +kernel) (by decide +kernel) f hf

/-! ### Non-vacuity -/

/-- Terminals 0, 3, 6; vertices 1 and 2 are twins, 4 and 5 hang on the rest. -/
def sampleProblem : Problem :=
  sample 7 [(0, 1, 2), (0, 2, 2), (1, 3, 2), (2, 3, 2), (0, 3, 1), (4, 6, 5), (0, 4, 1), (3, 4, 1), (4, 5, 1), (1, 6, 1),
    (2, 6, 1)]

theorem sampleProblem_ok : Ok [0, 3, 6] sampleProblem :=
  ok_of_check (by decide +kernel) (by decide +kernel) (by decide +kernel) (by decide +kernel) (by decide +kernel)

example : Ok [0, 3, 6] sampleProblem ∧ (sampleProblem.deleteTermEdges [0, 3, 6]).deleted = 1 ∧
    ((sampleProblem.setTerminals [0, 3, 6]).contractIfImproved [0, 3, 6] (fun _ l => l)
      ((sampleProblem.setTerminals [0, 3, 6]).highDegree fun _ => true)).graph.n = 5 ∧
    ((sampleProblem.setTerminals [0, 3, 6]).contractIfImproved [0, 3, 6] (fun _ l => l)
      ((sampleProblem.setTerminals [0, 3, 6]).equalNeighborhoods (fun l => l.length) 50 fun _ => true)).graph.n = 6 ∧
    ((sampleProblem.setTerminals [0, 3, 6]).contractIfImproved [0, 3, 6] (fun _ l => l)
      (sampleProblem.setTerminals [0, 3, 6]).lowDegree).graph.n = 6 := by
  refine ⟨sampleProblem_ok, ?_⟩
  decide +kernel

/-- The hypotheses of `C22_low_degree_partial` and `C22_equal_neighborhoods` hold for the sample. -/
example : (∀ t ∈ sampleProblem.spots [0, 3, 6], sampleProblem.graph.len t = 3 → ∀ e, e < 3 →
      sampleProblem.graph.len (sampleProblem.graph.edge t e).target = 1 →
      (sampleProblem.graph.edge t e).target ∈ sampleProblem.spots [0, 3, 6]) ∧
    ∀ u v, u < sampleProblem.graph.n → v < sampleProblem.graph.n →
      (((sampleProblem.graph.toGraph.edges u).map Prod.fst).insertionSort (· ≤ ·)).length =
        (((sampleProblem.graph.toGraph.edges v).map Prod.fst).insertionSort (· ≤ ·)).length →
      sampleProblem.graph.len u = sampleProblem.graph.len v := by
  refine ⟨by decide +kernel, fun u v hu hv h => ?_⟩
  rw [List.length_insertionSort, List.length_insertionSort, List.length_map, List.length_map, length_edges hu,
    length_edges hv] at h
  exact h

/-- Disjoint flows, and isolating blocks of two terminals that overlap. -/
example : Ok [0, 4] flowWitness ∧
    IsolatingCut 5 flowWitness.graph.toGraph.wt [0, 4] 1 (fun x => decide (x ∈ [1, 2])) ∧
    IsolatingCut 5 flowWitness.graph.toGraph.wt [0, 4] 0 (fun x => decide (x ∈ [0, 1, 2])) ∧
    IsolatingCut 5 flowWitness.graph.toGraph.wt [0, 4] 4 (fun x => decide (x ∈ [4, 3, 2])) ∧
    (flowWitness.contractIsolatingBlocks (fun _ l => l) [[0, 1, 2], [4, 3, 2]]).graph.n = 2 :=
  ⟨ok_of_check (by decide +kernel) (by decide +kernel) (by decide +kernel) (by decide +kernel) (by decide +kernel),
    isolatingCut_of_check (by decide +kernel) (by decide +kernel) (by decide +kernel) (by decide +kernel) (by decide +kernel),
    isolatingCut_of_check (by decide +kernel) (by decide +kernel) (by decide +kernel) (by decide +kernel) (by decide +kernel),
    isolatingCut_of_check (by decide +kernel) (by decide +kernel) (by decide +kernel) (by decide +kernel) (by decide +kernel),
    by decide +kernel⟩

end Problem
end VieCut
