import Verif.Proof.NOI
import Verif.Proof.Check

/-! # C02, C03, C04, C05: the Nagamochi–Ono–Ibaraki minimum cut -/

namespace VieCut
open Graph

/-! ## C03: CAPFOREST -/

/-- Vertices put into the same set by `modified_capforest(G, L)` are separated by no vertex subset whose cut value
is below `L`.  All queue classes selectable by the configuration, limiting on or off, any start vertex. -/
theorem C03_capforest_safe (G : Graph) (hG : G.WF) (kind : PQKind) (limited : Bool) (L start : Nat)
    (hfit : PQFits kind G.n (if limited then L else G.maxDegree)) (hstart : start < G.n) (a b : Nat)
    (hmerged :
      ((capforest (selectPQ kind limited G.n L G.maxDegree).toPQ limited G L start).find a).1 =
      ((capforest (selectPQ kind limited G.n L G.maxDegree).toPQ limited G L start).find b).1)
    (S : Nat → Bool) (hsep : S a ≠ S b) : L ≤ cutValue G.n G.wt S := by
  obtain ⟨K, ⟨lp⟩, hK⟩ := selectPQ_lawful hfit
  have hi := capforest_inv (L := L) lp hG hK hstart
  rw [UF.find_fst hi.1, UF.find_fst hi.1] at hmerged
  exact capforest_safe lp hG hK hstart hmerged S hsep

/-- The same for *any* queue that keeps a map and extracts some element of maximum key: every tie-breaking
order is covered. -/
theorem C03_capforest_safe_any_queue (G : Graph) (hG : G.WF) (P : PQ) (K : Nat) (lp : P.Lawful G.n K)
    (limited : Bool) (L start : Nat) (hK : K < 2 ^ 32) (hle : if limited then L ≤ K else G.maxDegree ≤ K)
    (hstart : start < G.n) (a b : Nat)
    (hmerged : ((capforest P limited G L start).find a).1 = ((capforest P limited G L start).find b).1)
    (S : Nat → Bool) (hsep : S a ≠ S b) : L ≤ cutValue G.n G.wt S := by
  have hi := capforest_inv (L := L) (limited := limited) lp hG ⟨hK, hle⟩ hstart
  rw [UF.find_fst hi.1, UF.find_fst hi.1] at hmerged
  exact capforest_safe lp hG ⟨hK, hle⟩ hstart hmerged S hsep

/-- If the bound is positive and at most every degree, at least two vertices are merged. -/
theorem C03_capforest_progress (G : Graph) (hG : G.WF) (kind : PQKind) (limited : Bool) (L start : Nat)
    (hfit : PQFits kind G.n (if limited then L else G.maxDegree)) (hstart : start < G.n)
    (hL : 0 < L) (hdeg : ∀ u, u < G.n → L ≤ G.deg u) :
    (capforest (selectPQ kind limited G.n L G.maxDegree).toPQ limited G L start).cnt < G.n := by
  obtain ⟨K, ⟨lp⟩, hK⟩ := selectPQ_lawful hfit
  exact capforest_progress lp hG hK hstart hL hdeg

/-- The main loop ends because the queue is empty (at most one iteration per vertex). -/
theorem C03_capforest_terminates (G : Graph) (hG : G.WF) (kind : PQKind) (limited : Bool) (L start : Nat)
    (hfit : PQFits kind G.n (if limited then L else G.maxDegree)) (hstart : start < G.n) :
    (selectPQ kind limited G.n L G.maxDegree).empty
      (cfFinal (selectPQ kind limited G.n L G.maxDegree).toPQ limited G L start).pq = true := by
  obtain ⟨K, ⟨lp⟩, hK⟩ := selectPQ_lawful hfit
  obtain ⟨_, _, _, he⟩ := cfFinal_inv (L := L) lp hG hK hstart
  exact he

/-- Non-vacuity: on the sample graph with bound 5 a merge happens. -/
example : sampleGraph.WF ∧ PQFits .default sampleGraph.n (if true then 5 else sampleGraph.maxDegree) ∧
    0 < sampleGraph.n ∧ (∀ u, u < sampleGraph.n → 5 ≤ sampleGraph.deg u) ∧
    (capforest (selectPQ .default true 6 5 13).toPQ true sampleGraph 5 0).cnt = 4 := by
  refine ⟨sampleGraph_wf, by unfold PQFits; decide, by decide, ?_, by decide +kernel⟩
  have : ∀ u ∈ List.range sampleGraph.n, 5 ≤ sampleGraph.deg u := by decide
  intro u hu; exact this u (by simpa using hu)

/-! ## C05: contraction -/

/-- `contraction::fromUnionFind` on `graph_access` returns the quotient graph by the partition that was
requested: one vertex per class, no self loops, symmetric, and every cut value of the coarse graph
is the value of the corresponding cut of the input graph. -/
theorem C05_fromUnionFind (G : Graph) (hG : G.WF) (ops : List UF.Op) (hok : ∀ o ∈ ops, o.ok G.n)
    (ord : Nat → List Nat → List Nat) (hord : IsOrder ord) :
    (fromUnionFind G (UF.run G.n ops) ord).1.WF ∧
    NumClasses G.n (Linked (UF.reqs ops)) (fromUnionFind G (UF.run G.n ops) ord).1.n ∧
    (∀ u, u < G.n → (fromUnionFind G (UF.run G.n ops) ord).2 u < (fromUnionFind G (UF.run G.n ops) ord).1.n) ∧
    (∀ u v, u < G.n → v < G.n →
      ((fromUnionFind G (UF.run G.n ops) ord).2 u = (fromUnionFind G (UF.run G.n ops) ord).2 v ↔
        Linked (UF.reqs ops) u v)) ∧
    ∀ T : Nat → Bool,
      cutValue (fromUnionFind G (UF.run G.n ops) ord).1.n (fromUnionFind G (UF.run G.n ops) ord).1.wt T =
      cutValue G.n G.wt (fun v => T ((fromUnionFind G (UF.run G.n ops) ord).2 v)) := by
  obtain ⟨hr, hs⟩ := UF.run_rep G.n ops hok
  obtain ⟨h1, h2, h3⟩ := fromUnionFind_spec hG hr.inv hs ord hord
  refine ⟨h1.wf, ?_, h1.lt, ?_, cutValue_quotient h1.lt h1.wt⟩
  · rw [h2]
    refine ⟨(UF.run G.n ops).root, fun a b _ _ => hr.iff a b, ?_⟩
    rw [← UF.image_root_card hr.inv, hs]
  · intro u v hu hv
    rw [h3 u v hu hv, hr.iff]

/-- Non-vacuity: merging one triangle and the pair `3-4` of the sample graph. -/
example : (fromUnionFind sampleGraph (UF.run 6 [.union 0 1, .union 2 1, .union 3 4]) (fun _ l => l)).1
    = ⟨[[(2, 2), (1, 1)], [(0, 1), (2, 11)], [(1, 11), (0, 2)]]⟩ := by decide +kernel

/-! ## C02, C04: the minimum cut -/

/-- `noi_minimum_cut<graphAccessPtr>::perform_minimum_cut` returns the minimum cut value. -/
theorem C02_noi_exact (G : Graph) (hG : G.WF) (hn : 2 ≤ G.n) (hb : G.totalWeight < 2 ^ 64) (cfg : NOICfg)
    (hfit : PQFits cfg.kind G.n (if cfg.limited then G.minDegree else G.totalWeight))
    (ord : Nat → Nat → List Nat → List Nat) (hord : ∀ l, IsOrder (ord l)) :
    IsMinCut G.n G.wt (noiMinimumCut cfg ord G) := by
  obtain ⟨h1, h2⟩ := NOIInv.loop hG hb (cfg := cfg) hfit (fun l => fromUnionFind_ok (hord l)) G.n 0 _
    (NOIInv.init hG rfl hG hn hb cfg.save (fun _ => false)) (le_refl _)
  exact h1.final h2

/-- The outer loop stops by its own condition after at most `n` contractions. -/
theorem C02_noi_terminates (G : Graph) (hG : G.WF) (hn : 2 ≤ G.n) (hb : G.totalWeight < 2 ^ 64) (cfg : NOICfg)
    (hfit : PQFits cfg.kind G.n (if cfg.limited then G.minDegree else G.totalWeight))
    (ord : Nat → Nat → List Nat → List Nat) (hord : ∀ l, IsOrder (ord l)) (inCut0 : Nat → Bool) :
    ¬ ((noiFinal cfg (fun lvl H uf => fromUnionFind H uf (ord lvl)) G inCut0).cur.n > 2 ∧
       (noiFinal cfg (fun lvl H uf => fromUnionFind H uf (ord lvl)) G inCut0).mincut > 0) :=
  (NOIInv.loop hG hb (cfg := cfg) hfit (fun l => fromUnionFind_ok (hord l)) G.n 0 _
    (NOIInv.init hG rfl hG hn hb cfg.save inCut0) (le_refl _)).2

/-- With `save_cut`, the flags left on the input graph are a proper cut whose value is the returned value
(which by `C02_noi_exact` is minimum), whatever the flags were before. -/
theorem C04_saved_cut (G : Graph) (hG : G.WF) (hn : 2 ≤ G.n) (hb : G.totalWeight < 2 ^ 64) (cfg : NOICfg)
    (hsave : cfg.save = true)
    (hfit : PQFits cfg.kind G.n (if cfg.limited then G.minDegree else G.totalWeight))
    (ord : Nat → Nat → List Nat → List Nat) (hord : ∀ l, IsOrder (ord l)) (inCut0 : Nat → Bool) :
    ProperCut G.n (noiSavedCut cfg ord G inCut0) ∧
    cutValue G.n G.wt (noiSavedCut cfg ord G inCut0) = noiMinimumCut cfg ord G := by
  have hinit : noiInit cfg.save G inCut0 = noiInit cfg.save G (fun _ => false) := by
    simp [noiInit, hsave]
  have h := (NOIInv.loop hG hb (cfg := cfg) hfit (fun l => fromUnionFind_ok (hord l)) G.n 0 _
    (NOIInv.init hG rfl hG hn hb cfg.save (fun _ => false)) (le_refl _)).1.flags hsave
  have e1 : noiSavedCut cfg ord G inCut0 =
      (noiLoop cfg (fun lvl H uf => fromUnionFind H uf (ord lvl)) G.n 0 (noiInit cfg.save G fun _ => false)).inCut := by
    unfold noiSavedCut noiFinal
    rw [hinit]; rfl
  rw [e1]
  exact h

/-- Non-vacuity: all hypotheses hold for the sample graph and the returned value is 3, found after a contraction
(the minimum degree is 5). -/
example : sampleGraph.WF ∧ 2 ≤ sampleGraph.n ∧ sampleGraph.totalWeight < 2 ^ 64 ∧ sampleGraph.minDegree = 5 ∧
    PQFits .default sampleGraph.n (if true then sampleGraph.minDegree else sampleGraph.totalWeight) ∧
    noiMinimumCut ⟨.default, true, true, fun _ => 0⟩ (fun _ _ l => l) sampleGraph = 3 := by
  refine ⟨sampleGraph_wf, by decide, by decide, by decide, by unfold PQFits; decide, by decide +kernel⟩

end VieCut
