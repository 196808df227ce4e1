import Verif.Model.NOIMutable
import Verif.Proof.NOI
import Verif.Proof.MutableContract
import Verif.Proof.Check

/-! # C02, C04, C05 on `mutable_graph` -/

namespace VieCut
open Graph MGraph

theorem fromUnionFindM_ok {ord : Nat → List Nat → List Nat} (ho : IsOrder ord) :
    ContractOK (fun g : MGraph => Valid g ∧ Fresh g) (fun H uf => fromUnionFindM H uf true ord) := by
  intro g uf hg hu hs
  have hs' : uf.size = g.n := by rw [hs]; exact toGraph_n g
  obtain ⟨h1, h2, h3, h4, h5⟩ := fromUnionFindM_copy_spec hg.1 hg.2 hu hs' ho
  refine ⟨⟨h1, h2⟩, h3, (toGraph_n _).trans h4, ?_⟩
  intro u v hu' hv'
  have e : (GraphLike.view g).n = g.n := toGraph_n g
  exact h5 u v (by rw [← e]; exact hu') (by rw [← e]; exact hv')

/-- `fromUnionFind` on a `mutable_graph` with `copy = true` (both the rebuilding and the set-contracting variant,
every hash iteration order): the result is a structurally valid graph with one vertex per requested class; every
cut of it has the value of the corresponding cut of the input.  The new graph's vertices are its own original
vertices again, so that the call can be iterated. -/
theorem C05_fromUnionFind_mutable (g : MGraph) (hg : Consistent g) (hf : g.Fresh) (ops : List UF.Op)
    (hok : ∀ o ∈ ops, o.ok g.n) (ord : Nat → List Nat → List Nat) (hord : IsOrder ord) :
    Consistent (g.fromUnionFindM (UF.run g.n ops) true ord).1 ∧
    (g.fromUnionFindM (UF.run g.n ops) true ord).1.Fresh ∧
    NumClasses g.n (Linked (UF.reqs ops)) (g.fromUnionFindM (UF.run g.n ops) true ord).1.n ∧
    (∀ u, u < g.n → (g.fromUnionFindM (UF.run g.n ops) true ord).2 u <
      (g.fromUnionFindM (UF.run g.n ops) true ord).1.n) ∧
    (∀ u v, u < g.n → v < g.n →
      ((g.fromUnionFindM (UF.run g.n ops) true ord).2 u = (g.fromUnionFindM (UF.run g.n ops) true ord).2 v ↔
        Linked (UF.reqs ops) u v)) ∧
    ∀ T : Nat → Bool,
      cutValue (g.fromUnionFindM (UF.run g.n ops) true ord).1.n
        (g.fromUnionFindM (UF.run g.n ops) true ord).1.toGraph.wt T =
      cutValue g.n g.toGraph.wt (fun v => T ((g.fromUnionFindM (UF.run g.n ops) true ord).2 v)) := by
  obtain ⟨hr, hs⟩ := UF.run_rep g.n ops hok
  obtain ⟨h1, h2, h3, h4, h5⟩ := fromUnionFindM_copy_spec ((consistent_iff).1 hg) hf hr.inv hs hord
  refine ⟨(consistent_iff).2 h1, h2, ?_, ?_, ?_, ?_⟩
  · rw [h4]
    refine ⟨(UF.run g.n ops).root, fun a b _ _ => hr.iff a b, ?_⟩
    rw [← UF.image_root_card hr.inv, hs]
  · intro u hu
    have := h3.lt u (by rw [toGraph_n]; exact hu)
    rwa [toGraph_n] at this
  · intro u v hu hv
    rw [h5 u v hu hv, hr.iff]
  · intro T
    have := cutValue_quotient h3.lt h3.wt T
    rwa [toGraph_n, toGraph_n] at this

/-- The in-place variant (`copy = false`) on a graph that may already have been contracted, as long as every
original vertex is located and every vertex contains one: the graph becomes the quotient, and every original
vertex is found at the image of its previous position. -/
theorem C05_fromUnionFind_inplace (g : MGraph) (hg : Consistent g) (hloc : ∀ v, v < g.posSize → FoundOnce g v)
    (hown : ∀ p, p < g.n → g.cont p ≠ [] ∧ (g.cont p).Nodup ∧ ∀ v ∈ g.cont p, v < g.posSize ∧ g.pos v = p)
    (ops : List UF.Op) (hok : ∀ o ∈ ops, o.ok g.n) (ord : Nat → List Nat → List Nat) (hord : IsOrder ord) :
    Consistent (g.fromUnionFindM (UF.run g.n ops) false ord).1 ∧
    (∀ v, v < g.posSize → FoundOnce (g.fromUnionFindM (UF.run g.n ops) false ord).1 v) ∧
    NumClasses g.n (Linked (UF.reqs ops)) (g.fromUnionFindM (UF.run g.n ops) false ord).1.n ∧
    (∀ u v, u < g.posSize → v < g.posSize →
      ((g.fromUnionFindM (UF.run g.n ops) false ord).1.pos u = (g.fromUnionFindM (UF.run g.n ops) false ord).1.pos v ↔
        Linked (UF.reqs ops) (g.pos u) (g.pos v))) ∧
    ∀ T : Nat → Bool,
      cutValue (g.fromUnionFindM (UF.run g.n ops) false ord).1.n
        (g.fromUnionFindM (UF.run g.n ops) false ord).1.toGraph.wt T =
      cutValue g.n g.toGraph.wt
        (fun p => T ((g.fromUnionFindM (UF.run g.n ops) false ord).1.pos (g.rep p))) := by
  have hL : Located g := by
    refine ⟨⟨fun p hp v hv => (hown p hp).2.2 v hv, ?_, fun p hp => (hown p hp).2.1⟩, fun v hv => (hloc v hv).1⟩
    intro v hv _
    have := (hloc v hv).2.1
    exact List.count_pos_iff.1 (by omega)
  have hr' : HasRep g := fun p hp => (hown p hp).1
  obtain ⟨hr, hs⟩ := UF.run_rep g.n ops hok
  obtain ⟨h1, h2, h3, h4, h5, h6, h7⟩ := fromUnionFindM_inplace_spec ((consistent_iff).1 hg) hL hr' hr.inv hs hord
  refine ⟨(consistent_iff).2 h1, fun v hv => h2.foundOnce (by rw [h3]; exact hv), ?_, ?_, ?_⟩
  · rw [h5]
    refine ⟨(UF.run g.n ops).root, fun a b _ _ => hr.iff a b, ?_⟩
    rw [← UF.image_root_card hr.inv, hs]
  · intro u v hu hv
    rw [h7 u hu, h7 v hv, h6 _ _ (hL.live u hu) (hL.live v hv), hr.iff]
  · intro T
    have := cutValue_quotient h4.lt h4.wt T
    rw [toGraph_n, toGraph_n] at this
    rw [this]
    refine cutValue_congr fun p hp => ?_
    have hh := rep_pos hL hr' hp
    rw [h7 _ hh.1, hh.2]

/-- `noi_minimum_cut<mutableGraphPtr>::perform_minimum_cut` returns the minimum cut value. -/
theorem C02_noi_exact_mutable (g : MGraph) (hg : Consistent g) (hf : g.Fresh) (hn : 2 ≤ g.n)
    (hb : g.toGraph.totalWeight < 2 ^ 64) (cfg : NOICfg)
    (hfit : PQFits cfg.kind g.n (if cfg.limited then g.toGraph.minDegree else g.toGraph.totalWeight))
    (ord : Nat → Nat → List Nat → List Nat) (hord : ∀ l, IsOrder (ord l)) :
    IsMinCut g.n g.toGraph.wt (noiMinimumCutM cfg ord g) := by
  have hv := (consistent_iff).1 hg
  rw [← toGraph_n g] at hfit hn
  obtain ⟨h1, h2⟩ := NOIInv.loop hv.wf hb (cfg := cfg) hfit (fun l => fromUnionFindM_ok (hord l)) g.toGraph.n 0 _
    (NOIInv.init ⟨hv, hf⟩ rfl hv.wf hn hb cfg.save (fun _ => false)) (le_refl _)
  have h3 : IsMinCut g.toGraph.n g.toGraph.wt (noiMinimumCutM cfg ord g) := h1.final h2
  rwa [toGraph_n] at h3

/-- With `save_cut` the flags left on the input describe a proper cut of the returned value, and the partition
indices written at the end put exactly the flagged vertices into block 0 and the others into block 1. -/
theorem C04_saved_cut_mutable (g : MGraph) (hg : Consistent g) (hf : g.Fresh) (hn : 2 ≤ g.n)
    (hb : g.toGraph.totalWeight < 2 ^ 64) (cfg : NOICfg) (hsave : cfg.save = true)
    (hfit : PQFits cfg.kind g.n (if cfg.limited then g.toGraph.minDegree else g.toGraph.totalWeight))
    (ord : Nat → Nat → List Nat → List Nat) (hord : ∀ l, IsOrder (ord l)) (inCut0 : Nat → Bool) :
    ProperCut g.n (noiSavedCutM cfg ord g inCut0) ∧
    cutValue g.n g.toGraph.wt (noiSavedCutM cfg ord g inCut0) = noiMinimumCutM cfg ord g ∧
    ∀ v, (retrieveMinimumCut (noiSavedCutM cfg ord g inCut0) v = 0 ∧ noiSavedCutM cfg ord g inCut0 v = true) ∨
      (retrieveMinimumCut (noiSavedCutM cfg ord g inCut0) v = 1 ∧ noiSavedCutM cfg ord g inCut0 v = false) := by
  have hv := (consistent_iff).1 hg
  rw [← toGraph_n g] at hfit hn
  have hinit : noiInit cfg.save g inCut0 = noiInit cfg.save g (fun _ => false) := by
    simp [noiInit, hsave]
  have h := (NOIInv.loop hv.wf hb (cfg := cfg) hfit (fun l => fromUnionFindM_ok (hord l)) g.toGraph.n 0 _
    (NOIInv.init ⟨hv, hf⟩ rfl hv.wf hn hb cfg.save (fun _ => false)) (le_refl _)).1.flags hsave
  have e1 : noiSavedCutM cfg ord g inCut0 =
      (noiLoop cfg (fun lvl H uf => fromUnionFindM H uf true (ord lvl)) g.toGraph.n 0
        (noiInit cfg.save g fun _ => false)).inCut := by
    unfold noiSavedCutM noiFinal
    rw [hinit]; rfl
  have h' : ProperCut g.toGraph.n (noiSavedCutM cfg ord g inCut0) ∧
      cutValue g.toGraph.n g.toGraph.wt (noiSavedCutM cfg ord g inCut0) = noiMinimumCutM cfg ord g := by
    rw [e1]; exact h
  rw [toGraph_n] at h'
  refine ⟨h'.1, h'.2, ?_⟩
  intro v
  unfold retrieveMinimumCut
  cases noiSavedCutM cfg ord g inCut0 v <;> simp

/-- The sample graph built through the `mutable_graph` interface. -/
def sampleMGraph : MGraph :=
  (MGraph.start 4).run [.newEdge 0 1 3, .newEdge 1 2 1, .newEdge 2 3 3, .newEdge 0 3 1]

/-- Non-vacuity: the hypotheses hold for a graph built with `new_edge`; both contraction variants occur (4 to 3 vertices by
contracting a set, 4 to 2 by rebuilding). -/
example : Consistent sampleMGraph ∧ sampleMGraph.Fresh ∧ 2 ≤ sampleMGraph.n ∧
    sampleMGraph.toGraph.totalWeight < 2 ^ 64 ∧
    PQFits .default sampleMGraph.n (if true then sampleMGraph.toGraph.minDegree else sampleMGraph.toGraph.totalWeight) ∧
    (sampleMGraph.fromUnionFindM (UF.run 4 [.union 0 1]) true (fun _ l => l)).1.n = 3 ∧
    (sampleMGraph.fromUnionFindM (UF.run 4 [.union 0 1, .union 2 3]) true (fun _ l => l)).1.n = 2 ∧
    (∀ v, v < sampleMGraph.posSize → FoundOnce sampleMGraph v) ∧
    noiMinimumCutM ⟨.default, true, true, fun _ => 0⟩ (fun _ _ l => l) sampleMGraph = 2 := by
  have hl : LegalHistory (MGraph.start 4) [.newEdge 0 1 3, .newEdge 1 2 1, .newEdge 2 3 3, .newEdge 0 3 1] := by
    decide +kernel
  have hfx : FixedHistory (MGraph.start 4) [.newEdge 0 1 3, .newEdge 1 2 1, .newEdge 2 3 3, .newEdge 0 3 1] := by
    decide +kernel
  have hL := (Located.start 4).run (Valid.start 4) _ hl hfx
  refine ⟨(consistent_iff).2 ((Valid.start 4).run _ hl), ?_, by decide +kernel, by decide +kernel,
    by unfold PQFits; decide +kernel, by decide +kernel, by decide +kernel, fun v hv => hL.1.foundOnce hv,
    by decide +kernel⟩
  exact ⟨by decide +kernel, by decide +kernel⟩

end VieCut
