import Verif.Proof.BranchChoice
import Verif.Props.Multiterminal

/-!
# C24: branching loses no optimal solution

`Optimum ots p c` (Spec/MulticutProblem) says that `c` is the weight already paid for plus the weight of a minimum
multiterminal cut of the remaining graph.
-/

namespace VieCut
namespace Problem
open MGraph

variable {ots : List Nat} {p : Problem}

/-- Branching on a vertex: the problem `p` has been through `deleteTermEdges` (so the recorded terminals are current
and no edge joins two of them) and a terminal still has a neighbour of positive degree.  The optimum of `p` is the
minimum of the optima of the created problems, which are all smaller. -/
theorem C24_multi_branch (ots : List Nat) (p : Problem) (h : Ok ots p) (hc : Current ots p)
    (hclean : ∀ t ∈ p.tpos, ∀ e, e < p.graph.len t → (p.graph.edge t e).target ∉ p.spots ots)
    (hedge : ∃ t ∈ p.tpos, ∃ e, e < p.graph.len t ∧ 0 < p.graph.wdeg (p.graph.edge t e).target) :
    (∀ c, Optimum ots p c → (∃ q ∈ p.multiBranch ots, Optimum ots q c) ∧
      ∀ q ∈ p.multiBranch ots, ∀ d, Optimum ots q d → c ≤ d) ∧
    ∀ q ∈ p.multiBranch ots, Ok ots q ∧
      (q.graph.n < p.graph.n ∨ (q.graph.n = p.graph.n ∧ q.graph.numEdges < p.graph.numEdges)) := by
  obtain ⟨h1, q, hq, h2⟩ := multiBranch_ok h hc hclean hedge
  exact ⟨fun c hc => ⟨⟨q, hq, h2 c hc⟩, fun q hq d hd => (h1 q hq).2.1 c d hc hd⟩, fun q hq => ⟨(h1 q hq).1, (h1 q hq).2.2⟩⟩

/-- `deleteTermEdges` establishes the conditions on the terminals. -/
theorem C24_precondition (ots : List Nat) (p : Problem) (h : Ok ots p) :
    Ok ots (p.deleteTermEdges ots) ∧ Current ots (p.deleteTermEdges ots) ∧
    ∀ t ∈ (p.deleteTermEdges ots).tpos, ∀ e, e < (p.deleteTermEdges ots).graph.len t →
      ((p.deleteTermEdges ots).graph.edge t e).target ∉ (p.deleteTermEdges ots).spots ots :=
  ⟨(deleteTermEdges_ok h).1, deleteTermEdges_clean h⟩

/-- Branching on an edge that does not join two terminals.  Missing: the case in which `degreeThreeContraction` applies
(see `C24_degree_three_unsound`).  Solutions that are not better than the global upper bound `gub` may be lost. -/
theorem C24_single_branch_partial (ots : List Nat) (p : Problem) (h : Ok ots p) (gub v e : Nat) (hv : v < p.graph.n)
    (he : e < p.graph.len v) (hst : ¬ (v ∈ p.spots ots ∧ (p.graph.edge v e).target ∈ p.spots ots))
    (hd3 : d3Applies p.graph v e = false) :
    ∀ c, Optimum ots p c → (c < gub → ∃ q ∈ p.singleBranch ots gub v e, Optimum ots q c) ∧
      ∀ q ∈ p.singleBranch ots gub v e, Ok ots q ∧ ∀ d, Optimum ots q d → c ≤ d := by
  obtain ⟨h1, h2⟩ := singleBranch_ok h (gub := gub) hv he hst hd3
  exact fun c hc => ⟨h2 c hc, fun q hq => ⟨(h1 q hq).1, fun d hd => (h1 q hq).2 c d hc hd⟩⟩

/-- Terminal 0 with neighbours 1, 2, 3 and terminal 4 behind vertex 1. -/
def d3Witness : Problem := sample 5 [(0, 1, 2), (0, 2, 1), (0, 3, 1), (1, 4, 1)]

/-- `singleBranch` branches on an edge of a terminal, but `degreeThreeContraction` treats the end of the branching edge
that is the terminal as the vertex of degree three: it pays for the other edges of the terminal.  Here the optimum is
1, and the created problems have optima 2 and 3. -/
theorem C24_degree_three_unsound : Ok [0, 4] d3Witness ∧ d3Applies d3Witness.graph 0 0 = true ∧
    Optimum [0, 4] d3Witness 1 ∧
    ∀ q ∈ d3Witness.singleBranch [0, 4] 100 0 0, ∀ d, Optimum [0, 4] q d → 2 ≤ d := by
  refine ⟨ok_of_check (by decide +kernel) (by decide +kernel) (by decide +kernel) (by decide +kernel) (by decide +kernel),
    by decide +kernel, ?_, ?_⟩
  · refine ⟨1, ⟨⟨fun v => if v = 4 then 1 else 0, ?_, by decide +kernel⟩, ?_⟩, by decide +kernel⟩
    · rw [show d3Witness.spots [0, 4] = [0, 4] by decide +kernel]
      intro s hs t ht
      revert s t
      decide
    · exact multicuts_ge_of_check (by decide +kernel) (by decide +kernel)
  · intro q hq d hd
    have h2 : ∀ q ∈ d3Witness.singleBranch [0, 4] 100 0 0, 2 ≤ q.deleted := by decide +kernel
    obtain ⟨d', _, rfl⟩ := hd
    exact (h2 q hq).trans (Nat.le_add_right _ _)

/-- Terminals 0, 1, 2 around the edge between 3 and 4. -/
def branchSample : Problem := (sample 5 [(0, 3, 2), (1, 3, 2), (3, 4, 5), (2, 4, 2)]).deleteTermEdges [0, 1, 2]

/-- A problem that meets the conditions of `C24_multi_branch`: three children, one of them for "no adjacent terminal". -/
example : Ok [0, 1, 2] branchSample ∧ Current [0, 1, 2] branchSample ∧
    (∀ t ∈ branchSample.tpos, ∀ e, e < branchSample.graph.len t →
      (branchSample.graph.edge t e).target ∉ branchSample.spots [0, 1, 2]) ∧
    (∃ t ∈ branchSample.tpos, ∃ e < branchSample.graph.len t, 0 < branchSample.graph.wdeg (branchSample.graph.edge t e).target) ∧
    branchSample.findEdgeMultiBranch = (3, [none, some 0, some 1]) := by
  obtain ⟨h1, h2, h3⟩ := C24_precondition [0, 1, 2] (sample 5 [(0, 3, 2), (1, 3, 2), (3, 4, 5), (2, 4, 2)])
    (ok_of_check (by decide +kernel) (by decide +kernel) (by decide +kernel) (by decide +kernel) (by decide +kernel))
  exact ⟨h1, h2, h3, by decide +kernel, by decide +kernel⟩

/-- An edge of the sample problem that meets the conditions of `C24_single_branch_partial`. -/
example : Ok [0, 3, 6] sampleProblem ∧ 0 < sampleProblem.graph.n ∧ 0 < sampleProblem.graph.len 0 ∧
    ¬ (0 ∈ sampleProblem.spots [0, 3, 6] ∧ (sampleProblem.graph.edge 0 0).target ∈ sampleProblem.spots [0, 3, 6]) ∧
    d3Applies sampleProblem.graph 0 0 = false ∧ (sampleProblem.singleBranch [0, 3, 6] 10 0 0).length = 2 :=
  ⟨sampleProblem_ok, by decide +kernel, by decide +kernel, by decide +kernel, by decide +kernel, by decide +kernel⟩

end Problem
end VieCut
