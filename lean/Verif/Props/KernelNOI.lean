import Verif.Proof.KernelNOI
import Verif.Props.Multiterminal

/-!
# Multiterminal cuts: the connectivity pass of the kernelization

C22 for the contraction of vertices whose connectivity exceeds what a better solution can cut.
-/

namespace VieCut
namespace Problem
open MGraph

/-- If the degree of every terminal is at most twice the weight of any cut that isolates it, the connectivity pass keeps
the optimum whenever it is better than the upper bound.  Without that condition it may merge terminals
(`C22_noi_unsound`). -/
theorem C22_noi_partial (ots : List Nat) (ord : Nat → List Nat → List Nat) (p : Problem) (h : Ok ots p) (ho : IsOrder ord)
    (kind : PQKind) (limited : Bool) (start ub c : Nat)
    (hfit : PQFits kind p.graph.n (if limited then (p.setTerminals ots).noiLimit ots ub else p.graph.toGraph.maxDegree))
    (hstart : start < p.graph.n) (hub : ub < 2 ^ 64)
    (hdeg : ∀ t ∈ p.spots ots, ∀ S : Nat → Bool, S t = true → (∀ t' ∈ p.spots ots, t' ≠ t → S t' = false) →
      p.graph.wdeg t ≤ 2 * cutValue p.graph.n p.graph.toGraph.wt S)
    (hc : Optimum ots p c) (hlt : c < ub) :
    let p2 := (p.setTerminals ots).noiPass ots ord kind limited start ub
    Ok ots p2 ∧ Optimum ots p2 c := by
  have hG := h.valid.wf
  have hn : p.graph.toGraph.n = p.graph.n := toGraph_n _
  obtain ⟨K, ⟨lp⟩, hK⟩ := selectPQ_lawful (G := p.graph.toGraph) (L := (p.setTerminals ots).noiLimit ots ub)
    (limited := limited) (kind := kind) (by rw [hn]; exact hfit)
  have hs : start < p.graph.toGraph.n := by rw [hn]; exact hstart
  have hi := capforest_inv (L := (p.setTerminals ots).noiLimit ots ub) lp hG hK hs
  rw [hn] at lp hi
  have hk := contractIfImproved_ok (setTerminals_ok h) ho hi.1 hi.2 (noi_safe h hdeg hub hc hlt fun a b e S hab => by
    have := capforest_safe (L := (p.setTerminals ots).noiLimit ots ub) (P := (selectPQ kind limited p.graph.n
      ((p.setTerminals ots).noiLimit ots ub) p.graph.toGraph.maxDegree).toPQ) (by rw [hn]; exact lp) hG hK hs e S hab
    rwa [hn] at this)
  exact ⟨hk.1, (hk.2 c).1 ((setTerminals_optimum c).2 hc)⟩

/-! ### Where the pass merges terminals -/

/-- Terminals 0, 1, 2.  Vertex 3 belongs to terminal 0 but has heavy edges to the other two; vertex 5 is between
terminals 1 and 2. -/
def noiWitness : Problem :=
  sample 6 [(0, 3, 14), (0, 4, 4), (1, 3, 9), (2, 3, 9), (3, 4, 4), (4, 5, 1), (1, 5, 19), (2, 5, 19)]

/-- The first passes of a round of `kernelization` (kernelization_criteria.h:53-64), all vertices active. -/
def firstPasses (ots : List Nat) (p : Problem) : Problem :=
  let p0 := (p.setTerminals ots).contractIfImproved ots (fun _ l => l) (p.setTerminals ots).lowDegree
  let p1 := p0.contractIfImproved ots (fun _ l => l) (p0.highDegree fun _ => true)
  p1.contractIfImproved ots (fun _ l => l) (p1.triangle fun _ => true)

/-- One round of the kernelization on a problem in which every terminal alone is a minimum isolating cut: the high-degree
pass moves the degree of terminal 0 far above its isolating cut, the connectivity pass then merges terminals 1 and 2,
although there is a solution better than the upper bound. -/
theorem C22_noi_unsound : ∃ (ots : List Nat) (p : Problem) (c ub : Nat), Ok ots p ∧
    (∀ t ∈ p.spots ots, IsolatingCut p.graph.n p.graph.toGraph.wt (p.spots ots) t fun x => decide (x = t)) ∧
    Optimum ots p c ∧ c < ub ∧ Ok ots (firstPasses ots p) ∧ Optimum ots (firstPasses ots p) c ∧
    ∃ o1 ∈ ots, ∃ o2 ∈ ots, o1 ≠ o2 ∧ p.at' o1 ≠ p.at' o2 ∧
      ((firstPasses ots p).noiPass ots (fun _ l => l) .default true 0 ub).at' o1 =
      ((firstPasses ots p).noiPass ots (fun _ l => l) .default true 0 ub).at' o2 := by
  have hok : Ok [0, 1, 2] noiWitness :=
    ok_of_check (by decide +kernel) (by decide +kernel) (by decide +kernel) (by decide +kernel) (by decide +kernel)
  have hok' : Ok [0, 1, 2] (firstPasses [0, 1, 2] noiWitness) :=
    ok_of_check (by decide +kernel) (by decide +kernel) (by decide +kernel) (by decide +kernel) (by decide +kernel)
  have opt : ∀ (q : Problem) (d : Nat) (f : Nat → Nat), Separates (q.spots [0, 1, 2]) f →
      multicutValue q.graph.n q.graph.toGraph.wt f = d →
      (∀ t ∈ q.spots [0, 1, 2], t < q.graph.n) →
      (∀ l ∈ labelLists q.graph.n, (∀ s ∈ q.spots [0, 1, 2], ∀ t ∈ q.spots [0, 1, 2], s ≠ t → l.getD s 0 ≠ l.getD t 0) →
        d ≤ multicutValue q.graph.n q.graph.toGraph.wt (fun u => l.getD u 0)) →
      Optimum [0, 1, 2] q (q.deleted + d) := fun q d f h1 h2 h3 h4 =>
    ⟨d, ⟨⟨f, h1, h2⟩, multicuts_ge_of_check h3 h4⟩, rfl⟩
  refine ⟨[0, 1, 2], noiWitness, 38, 39, hok, ?_, ?_, by decide, hok', ?_, ?_⟩
  · intro t ht
    have hs : noiWitness.spots [0, 1, 2] = [0, 1, 2] := by decide +kernel
    rw [hs] at ht ⊢
    simp only [List.mem_cons, List.not_mem_nil, or_false] at ht
    rcases ht with rfl | rfl | rfl
    · exact isolatingCut_of_check (by decide +kernel) (by decide +kernel) (by decide +kernel) (by decide +kernel)
        (by decide +kernel)
    · exact isolatingCut_of_check (by decide +kernel) (by decide +kernel) (by decide +kernel) (by decide +kernel)
        (by decide +kernel)
    · exact isolatingCut_of_check (by decide +kernel) (by decide +kernel) (by decide +kernel) (by decide +kernel)
        (by decide +kernel)
  · have := opt noiWitness 38 (fun x => if x = 0 ∨ x = 3 ∨ x = 4 then 0 else if x = 2 then 2 else 1)
      (by unfold Separates; decide +kernel) (by decide +kernel) (by decide +kernel) (by decide +kernel)
    exact this
  · have hd : (firstPasses [0, 1, 2] noiWitness).deleted = 18 := by decide +kernel
    have := opt (firstPasses [0, 1, 2] noiWitness) 20
      (fun x => if x = (firstPasses [0, 1, 2] noiWitness).at' 0 ∨ x = (firstPasses [0, 1, 2] noiWitness).at' 4 then 0
        else if x = (firstPasses [0, 1, 2] noiWitness).at' 2 then 2 else 1)
      (by unfold Separates; decide +kernel) (by decide +kernel) (by decide +kernel) (by decide +kernel)
    rw [hd] at this
    exact this
  · exact ⟨1, by decide, 2, by decide, by decide, by decide +kernel, by decide +kernel⟩

/-- Terminals 0, 1, 2 around the heavy edge between 3 and 4. -/
def noiSample : Problem := sample 5 [(0, 3, 2), (1, 4, 2), (2, 3, 2), (3, 4, 10)]

/-- The hypotheses of `C22_noi_partial` for the sample with optimum 4 and upper bound 5; the pass merges 3 and 4. -/
example : Ok [0, 1, 2] noiSample ∧
    PQFits .default noiSample.graph.n (if true then (noiSample.setTerminals [0, 1, 2]).noiLimit [0, 1, 2] 5 else
      noiSample.graph.toGraph.maxDegree) ∧
    (∀ t ∈ noiSample.spots [0, 1, 2], ∀ S : Nat → Bool, S t = true → (∀ t' ∈ noiSample.spots [0, 1, 2], t' ≠ t → S t' = false) →
      noiSample.graph.wdeg t ≤ 2 * cutValue noiSample.graph.n noiSample.graph.toGraph.wt S) ∧
    Optimum [0, 1, 2] noiSample 4 ∧
    ((noiSample.setTerminals [0, 1, 2]).noiPass [0, 1, 2] (fun _ l => l) .default true 0 5).graph.n = 4 := by
  refine ⟨ok_of_check (by decide +kernel) (by decide +kernel) (by decide +kernel) (by decide +kernel) (by decide +kernel),
    by unfold PQFits; decide +kernel, ?_, ⟨4, ⟨⟨fun x => if x = 1 then 1 else if x = 2 then 2 else 0, by unfold Separates; decide +kernel,
      by decide +kernel⟩, multicuts_ge_of_check (by decide +kernel) (by decide +kernel)⟩, rfl⟩, by decide +kernel⟩
  have hs : noiSample.spots [0, 1, 2] = [0, 1, 2] := by decide +kernel
  rw [hs]
  intro t ht S h1 h2
  have key : ∀ t ∈ [0, 1, 2], IsolatingCut noiSample.graph.n noiSample.graph.toGraph.wt [0, 1, 2] t fun x => decide (x = t) := by
    intro t ht
    simp only [List.mem_cons, List.not_mem_nil, or_false] at ht
    rcases ht with rfl | rfl | rfl <;>
    exact isolatingCut_of_check (by decide +kernel) (by decide +kernel) (by decide +kernel) (by decide +kernel)
      (by decide +kernel)
  have hd : ∀ t ∈ [0, 1, 2], noiSample.graph.wdeg t ≤ 2 * cutValue noiSample.graph.n noiSample.graph.toGraph.wt
      fun x => decide (x = t) := by decide +kernel
  have := (key t ht).min S h1 h2
  have := hd t ht
  omega

end Problem
end VieCut
