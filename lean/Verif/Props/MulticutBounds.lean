import Verif.Proof.MulticutBounds
import Verif.Props.Multiterminal

/-!
# C23: bounds of a multiterminal problem

The flow computations are inputs here: the block of each terminal is assumed to be (the source side of) a minimum cut
isolating it; C14 is about the algorithm that computes it.
-/

namespace VieCut
namespace Problem
open MGraph

/-- Isolating flows: the optimum of the problem lies between the bounds, which are half the sum of the isolating cuts,
rounded up, and the sum without the largest.  The problem is only contracted, its optimum is unchanged, and the
recorded partition indices are a solution within the upper bound that gives the `i`-th terminal block `i`. -/
theorem C23_isolating_bounds (ots : List Nat) (p : Problem) (h : Ok ots p) (ord : Nat → List Nat → List Nat)
    (ho : IsOrder ord) (flow : Nat → List Nat)
    (hflow : ∀ (i : Nat) (t : Terminal), (p.setTerminals ots).terminals[i]? = some t →
      (if t.invalid then flow i else [t.position]).Nodup ∧
      (∀ x ∈ (if t.invalid then flow i else [t.position]), x < p.graph.n) ∧
      IsolatingCut p.graph.n p.graph.toGraph.wt (p.spots ots) t.position
        (fun x => decide (x ∈ (if t.invalid then flow i else [t.position])))) :
    let p' := p.maximumIsolatingFlow ots ord flow
    let cuts := ((p.setTerminals ots).isoBlocks flow).map
      (fun b => cutValue p.graph.n p.graph.toGraph.wt (fun x => decide (x ∈ b)))
    Ok ots p' ∧ (∀ c, Optimum ots p c ↔ Optimum ots p' c) ∧
    (∀ c, Optimum ots p c → p'.lower ≤ c ∧ (c : Int) ≤ p'.upper) ∧
    p'.upper = (p.deleted : Int) + cuts.sum - cuts.foldr max 0 ∧
    p'.lower = (p.deleted : Int) + ((cuts.sum + 1) / 2 : Nat) ∧
    (∀ i (hi : i < ots.length), p'.graph.part (p'.at' ots[i]) = i) ∧
    Separates (p'.spots ots) p'.graph.part ∧
    (p'.deleted : Int) + multicutValue p'.graph.n p'.graph.toGraph.wt p'.graph.part ≤ p'.upper := by
  obtain ⟨h1, h2, _, h4, h5, h6, h7, _, h9, h10⟩ := maximumIsolatingFlow_ok h ho flow hflow
  refine ⟨h1, h2, fun c hc => ⟨h6 c hc, ?_⟩, h4, h5, h9, h7, h10⟩
  obtain ⟨d, hd, rfl⟩ := (h2 c).1 hc
  have := hd.2 _ h7
  omega

/-- Two terminals: the upper bound is the optimum, and the recorded partition indices attain it. -/
theorem C23_two_terminals (ots : List Nat) (p : Problem) (h : Ok ots p) (t0 t1 : Terminal)
    (ht : (p.setTerminals ots).terminals = [t0, t1]) (block : List Nat) (hlt : ∀ x ∈ block, x < p.graph.n)
    (hcut : IsolatingCut p.graph.n p.graph.toGraph.wt (p.spots ots) t0.position (fun x => decide (x ∈ block))) :
    let flow := cutValue p.graph.n p.graph.toGraph.wt (fun x => decide (x ∈ block))
    let p' := (p.setTerminals ots).maximumSTFlow ots flow block
    (∀ c, Optimum ots p c ↔ p'.upper = c) ∧
    (∀ i (hi : i < ots.length), p'.graph.part (p'.at' ots[i]) = i) ∧
    Separates (p'.spots ots) p'.graph.part ∧
    (p'.deleted : Int) + multicutValue p'.graph.n p'.graph.toGraph.wt p'.graph.part = p'.upper := by
  obtain ⟨_, h2, h3, h4, h5, h6, h7, h8, h9, h10⟩ := maximumSTFlow_ok h ht block hlt hcut
  refine ⟨fun c => ?_, h9, by rw [h3]; exact h8, ?_⟩
  · rw [h6]
    constructor
    · rintro ⟨d, hd, rfl⟩
      obtain ⟨d', hd', e⟩ := h7
      have := isMinMulticut_unique hd hd'
      omega
    · intro e
      have : c = p.deleted + cutValue p.graph.n p.graph.toGraph.wt (fun x => decide (x ∈ block)) := by omega
      rw [this]; exact h7
  · rw [h4, h5, h10, h6, h2]; push_cast; rfl

/-- The three terminals of the sample have isolating cuts of weight 6, 6 and 4. -/
example : Ok [0, 3, 6] sampleProblem ∧
    (∀ (i : Nat) (t : Terminal), (sampleProblem.setTerminals [0, 3, 6]).terminals[i]? = some t →
      (if t.invalid then [[0], [3], [6, 4, 5]].getD i [] else [t.position]).Nodup ∧
      (∀ x ∈ (if t.invalid then [[0], [3], [6, 4, 5]].getD i [] else [t.position]), x < sampleProblem.graph.n) ∧
      IsolatingCut sampleProblem.graph.n sampleProblem.graph.toGraph.wt (sampleProblem.spots [0, 3, 6]) t.position
        (fun x => decide (x ∈ (if t.invalid then [[0], [3], [6, 4, 5]].getD i [] else [t.position])))) ∧
    (sampleProblem.maximumIsolatingFlow [0, 3, 6] (fun _ l => l) (fun i => [[0], [3], [6, 4, 5]].getD i [])).lower = 8 ∧
    (sampleProblem.maximumIsolatingFlow [0, 3, 6] (fun _ l => l) (fun i => [[0], [3], [6, 4, 5]].getD i [])).upper = 10 := by
  refine ⟨sampleProblem_ok, ?_, by decide +kernel, by decide +kernel⟩
  have ht : (sampleProblem.setTerminals [0, 3, 6]).terminals = [⟨0, 0, true⟩, ⟨3, 1, true⟩, ⟨6, 2, true⟩] := by
    decide +kernel
  intro i t hi
  rw [ht] at hi
  match i, hi with
  | 0, hi => cases hi; exact ⟨by decide +kernel, by decide +kernel, isolatingCut_of_check (by decide +kernel)
      (by decide +kernel) (by decide +kernel) (by decide +kernel) (by decide +kernel)⟩
  | 1, hi => cases hi; exact ⟨by decide +kernel, by decide +kernel, isolatingCut_of_check (by decide +kernel)
      (by decide +kernel) (by decide +kernel) (by decide +kernel) (by decide +kernel)⟩
  | 2, hi => cases hi; exact ⟨by decide +kernel, by decide +kernel, isolatingCut_of_check (by decide +kernel)
      (by decide +kernel) (by decide +kernel) (by decide +kernel) (by decide +kernel)⟩
  | i + 3, hi => simp at hi

/-- Two terminals, one of them with an isolating block of three vertices. -/
example : Ok [0, 4] flowWitness ∧ (flowWitness.setTerminals [0, 4]).terminals = [⟨0, 0, true⟩, ⟨4, 1, true⟩] ∧
    IsolatingCut 5 flowWitness.graph.toGraph.wt [0, 4] 0 (fun x => decide (x ∈ [0, 1, 2])) ∧
    ((flowWitness.setTerminals [0, 4]).maximumSTFlow [0, 4] 1 [0, 1, 2]).upper = 1 :=
  ⟨ok_of_check (by decide +kernel) (by decide +kernel) (by decide +kernel) (by decide +kernel) (by decide +kernel),
    by decide +kernel,
    isolatingCut_of_check (by decide +kernel) (by decide +kernel) (by decide +kernel) (by decide +kernel) (by decide +kernel),
    by decide +kernel⟩

end Problem
end VieCut
