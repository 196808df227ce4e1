import Verif.Proof.LocalFlow
import Verif.Proof.Check
import Verif.Spec.Multiterminal

/-!
# Local search on multiterminal cuts (C25)

`multicutValue G.n G.wt sol` is the total weight of the edges between different blocks of the solution `sol`
(`Spec/Tools.lean`), `G.WF` says that the rows of the graph describe an undirected graph without self-loops.
-/

namespace VieCut
open LocalSearch

/-- `gainLocalSearch`: for every graph without parallel edges, every solution, every set of fixed vertices and every
order of the vertices, the reported improvement is exactly the decrease of the weight of the solution.  It is not
negative, fixed vertices keep their block, and moved vertices go to one of the `k` blocks. -/
theorem C25_gain_exact (G : Graph) (hG : G.WF) (hsimple : ∀ u, ((G.edges u).map Prod.fst).Nodup) (k : Nat) (hk : 0 < k)
    (fixed : Nat → Bool) (perm : List Nat) (hperm : perm.Nodup) (hlt : ∀ x ∈ perm, x < G.n) (sol : Nat → Nat) :
    let r := gainLocalSearch k fixed G perm sol
    (multicutValue G.n G.wt sol : Int) - multicutValue G.n G.wt r.1 = r.2 ∧ 0 ≤ r.2 ∧
      (∀ v, fixed v = true → r.1 v = sol v) ∧ ∀ v, r.1 v = sol v ∨ r.1 v < k := by
  obtain ⟨h1, h2, h3, -, h5⟩ := gain_ok (fixed := fixed) hG hsimple hk hperm hlt sol
  refine ⟨?_, h2, h3, h5⟩
  unfold value at h1
  omega

/-- Two triangles connected by an edge. -/
def localSample : Graph := ⟨[[(1, 2), (2, 2)], [(0, 2), (2, 2)], [(0, 2), (1, 2), (3, 1)], [(2, 1), (4, 2), (5, 2)],
  [(3, 2), (5, 2)], [(3, 2), (4, 2)]]⟩

/-- Moving vertex 1 and then vertex 2 to the block of vertex 0 improves the solution by 3. -/
example : localSample.WF ∧ (∀ u, ((localSample.edges u).map Prod.fst).Nodup) ∧
    (gainLocalSearch 2 (fun v => v == 0 || v == 5) localSample [1, 2, 3, 4] (fun v => if v = 0 then 0 else 1)).2 = 3 ∧
    (List.range 6).map (gainLocalSearch 2 (fun v => v == 0 || v == 5) localSample [1, 2, 3, 4]
      (fun v => if v = 0 then 0 else 1)).1 = [0, 0, 0, 1, 1, 1] := by
  refine ⟨Graph.wf_of_check (by decide +kernel), fun u => ?_, by decide +kernel, by decide +kernel⟩
  by_cases h : u < 6
  · have : ∀ u < 6, ((localSample.edges u).map Prod.fst).Nodup := by decide +kernel
    exact this u h
  · rw [Graph.edges_of_ge (by show 6 ≤ u; omega)]; exact List.nodup_nil

/-- Vertices 1 and 2 are moved together: neither of them moves alone. -/
example : (gainLocalSearch 2 (fun v => v == 0 || v == 3)
      ⟨[[(1, 2), (2, 2)], [(0, 2), (2, 3)], [(0, 2), (1, 3), (3, 1)], [(2, 1)]]⟩ [2, 1] (fun v => if v = 0 then 0 else 1)).2 = 3 := by
  decide +kernel

/-- `flowBetweenBlocks`: if the maximum flow routine finds a minimum cut between its two terminals (`FlowSpec`), the
reported improvement is exactly the decrease of the weight, it is not negative, fixed vertices and vertices of other
blocks keep their block, and no redistribution of the non-fixed vertices of the two blocks has a smaller weight. -/
theorem C25_flow_exact (G : Graph) (hG : G.WF) (fixed : Nat → Bool) (ord : Nat → List Nat → List Nat) (ho : IsOrder ord)
    (flow : MGraph → Nat × List Nat) (hflow : FlowSpec flow) (a b : Nat) (hab : a ≠ b) (sol : Nat → Nat) :
    let r := flowBetweenBlocks G.n fixed G ord flow a b sol
    (multicutValue G.n G.wt sol : Int) - multicutValue G.n G.wt r.1 = r.2 ∧ 0 ≤ r.2 ∧
      (∀ v, fixed v = true → r.1 v = sol v) ∧
      (∀ v, r.1 v ≠ sol v → (sol v = a ∧ r.1 v = b) ∨ (sol v = b ∧ r.1 v = a)) ∧
      ∀ f : Nat → Nat, (∀ v, v < G.n → (fixed v = true ∨ (sol v ≠ a ∧ sol v ≠ b)) → f v = sol v) →
        (∀ v, v < G.n → (sol v = a ∨ sol v = b) → f v = a ∨ f v = b) →
        multicutValue G.n G.wt r.1 ≤ multicutValue G.n G.wt f := by
  obtain ⟨h1, h2, h3, -, h5, h6⟩ := flow_ok (fixed := fixed) hG ho hflow hab sol
  refine ⟨?_, h2, h3, h5, fun f hf1 hf2 => h6 f (fun v hv h => hf1 v hv (h.imp_right fun h => ?_)) (fun v hv h => hf2 v hv ?_)⟩
  · unfold value at h1; omega
  · simpa [inPair] using h
  · simpa [inPair] using h

/-- `improveSolution`: whatever permutations and block pairs are drawn, the search ends (the number of rounds of each
loop is at most the weight of the solution plus one), the reported total improvement is exactly the decrease of the
weight and not negative, and fixed vertices keep their block; so terminals that are fixed and separated stay
separated. -/
theorem C25_improve_exact (G : Graph) (hG : G.WF) (hsimple : ∀ u, ((G.edges u).map Prod.fst).Nodup) (k : Nat) (hk : 0 < k)
    (fixed : Nat → Bool) (ord : Nat → List Nat → List Nat) (ho : IsOrder ord) (flow : MGraph → Nat × List Nat)
    (hflow : FlowSpec flow) (perm1 perm2 : Nat → List Nat) (hp1 : ∀ i, (perm1 i).Nodup ∧ ∀ x ∈ perm1 i, x < G.n)
    (hp2 : ∀ i, (perm2 i).Nodup ∧ ∀ x ∈ perm2 i, x < G.n) (pairs : Nat → List (Nat × Nat))
    (hpairs : ∀ i, ∀ ab ∈ pairs i, ab.1 < ab.2 ∧ ab.2 < k) (sol : Nat → Nat) (fuel : Nat)
    (hfuel : multicutValue G.n G.wt sol < fuel) :
    ∃ r, improveSolution fuel k G.n fixed G ord flow perm1 perm2 pairs sol = some r ∧
      (multicutValue G.n G.wt sol : Int) - multicutValue G.n G.wt r.1 = r.2 ∧ 0 ≤ r.2 ∧
      (∀ v, fixed v = true → r.1 v = sol v) ∧ (∀ v, r.1 v = sol v ∨ r.1 v < k) ∧
      ∀ ts : List Nat, (∀ t ∈ ts, fixed t = true) → Separates ts sol → Separates ts r.1 := by
  have h0 : RoundOk G k fixed sol (sol, 0) :=
    ⟨by simp, Int.le_refl _, fun _ _ => rfl, fun _ _ => rfl, fun _ => Or.inl rfl⟩
  obtain ⟨r1, e1, o1, l1⟩ := rounds_ok (round := fun i s => gainLocalSearch k fixed G (perm1 i) s)
    (fun i s => gain_ok hG hsimple hk (hp1 i).1 (hp1 i).2 s) fuel 0 sol 0 h0 hfuel
  obtain ⟨r2, e2, o2, l2⟩ := rounds_ok (round := fun i s => flowLocalSearch G.n fixed G ord flow (pairs i) s)
    (fun i s => flowSearch_ok hG ho hflow (pairs i) s (hpairs i)) fuel 0 r1.1 r1.2 o1 (Nat.lt_of_le_of_lt l1 hfuel)
  obtain ⟨r3, e3, o3, l3⟩ := rounds_ok (round := fun i s => gainLocalSearch k fixed G (perm2 i) s)
    (fun i s => gain_ok hG hsimple hk (hp2 i).1 (hp2 i).2 s) fuel 0 r2.1 r2.2 o2
    (Nat.lt_of_le_of_lt (Nat.le_trans l2 l1) hfuel)
  refine ⟨r3, ?_, ?_, o3.2.1, o3.2.2.1, o3.2.2.2.2, ?_⟩
  · unfold improveSolution
    rw [e1, Option.bind_some, e2, Option.bind_some, e3]
  · have := o3.1
    unfold value at this
    omega
  · intro ts hts hsep s hs t ht hne
    rw [o3.2.2.1 s (hts s hs), o3.2.2.1 t (hts t ht)]
    exact hsep s hs t ht hne

/-- The assumption on the flow routine can be met. -/
example : ∃ flow, FlowSpec flow := flowSpec_exists

end VieCut
