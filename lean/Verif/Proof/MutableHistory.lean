import Verif.Proof.MutableOps
import Verif.Model.MutableHistory
import Verif.Spec.MutableGraph

namespace VieCut.MGraph
open Function Finset

theorem consistent_iff {g : MGraph} : Consistent g ↔ Valid g := by
  rw [valid_iff]
  constructor
  · intro h
    refine ⟨fun u e hu he => ⟨h.target u e hu he, h.partner u e hu he, (h.back u e hu he).1, (h.back u e hu he).2,
      h.weight u e hu he, h.noLoop u e hu he⟩, ?_, ?_⟩
    · intro u hu; rw [h.degree u hu, sum_range_list]; rfl
    · rw [h.edges, sum_range_list]
  · rintro ⟨h1, h2, h3⟩
    refine ⟨fun u e hu he => (h1 u e hu he).1, fun u e hu he => (h1 u e hu he).2.2.2.2.2,
      fun u e hu he => (h1 u e hu he).2.1, fun u e hu he => ⟨(h1 u e hu he).2.2.1, (h1 u e hu he).2.2.2.1⟩,
      fun u e hu he => (h1 u e hu he).2.2.2.2.1, ?_, ?_⟩
    · intro u hu; rw [h2 u hu, sum_range_list]; rfl
    · rw [h3, sum_range_list]

theorem cnt_card (g : MGraph) (u v : Nat) :
    g.cnt u v = ((range (g.len u)).filter (fun e => (g.edge u e).target = v)).card := by
  unfold cnt rowSum
  rw [← Finset.sum_filter, Finset.card_eq_sum_ones]

theorem simple_of_noParallel {g : MGraph} (h : g.NoParallel) : Simple g [] := by
  intro u v hu _ _ _
  rw [cnt_card, Finset.card_le_one]
  intro a ha b hb
  rw [mem_filter, mem_range] at ha hb
  exact h u hu a ha.1 b hb.1 (ha.2.trans hb.2.symm)

theorem noParallel_of_simple {g : MGraph} (hg : Valid g) (h : Simple g []) : g.NoParallel := by
  intro u hu e he e' he' ht
  have := h u (g.edge u e).target hu (by simp) ((valid_iff.1 hg).1 u e hu he).1 (by simp)
  exact cnt_le_one this he he' rfl ht.symm

theorem cnt_zero_of {g : MGraph} {u v : Nat} (h : ∀ e, e < g.len u → (g.edge u e).target ≠ v) : g.cnt u v = 0 := by
  unfold cnt rowSum
  refine Finset.sum_eq_zero fun e he => ?_
  exact if_neg (h e (mem_range.1 he))

theorem Valid.newEdge {g : MGraph} (hg : Valid g) {s t : Nat} (w : Nat) (ht : t < g.n) : Valid (g.newEdge s t w) := by
  by_cases h : s < t
  · exact (newEdge_spec hg h ht).1
  · unfold MGraph.newEdge; rw [if_neg h]; exact hg

theorem Valid.newEdgeOrder {g : MGraph} (hg : Valid g) {s t : Nat} (w : Nat) (hs : s < g.n) (ht : t < g.n) :
    Valid (g.newEdgeOrder s t w) := by
  unfold MGraph.newEdgeOrder
  split
  · exact hg.newEdge w ht
  · split
    · exact hg.newEdge w hs
    · exact hg

/-- One legal call keeps the graph valid. -/
theorem Valid.op {g : MGraph} (hg : Valid g) (o : Op) (ho : o.Legal g) : Valid (o.apply g) := by
  cases o with
  | newNode =>
    show Valid g.newNode
    unfold MGraph.newNode
    split
    · refine And.left (addVertex_spec hg ?_ ?_ ?_ ?_ ?_) <;> rfl
    · exact hg.of_eq rfl rfl rfl rfl rfl
  | newEmptyNode =>
    show Valid g.newEmptyNode
    unfold MGraph.newEmptyNode
    split
    · refine And.left (addVertex_spec hg ?_ ?_ ?_ ?_ ?_) <;> rfl
    · exact hg.of_eq rfl rfl rfl rfl rfl
  | finishConstruction => exact hg.of_eq rfl rfl rfl rfl rfl
  | newEdge s t w => exact hg.newEdge w ho.2
  | newEdgeOrder s t w => exact hg.newEdgeOrder w ho.1 ho.2
  | setEdgeWeight u e w => exact (setEdgeWeight_spec hg ho.1 ho.2 w).1
  | deleteEdge u e => exact (deleteEdge_spec hg ho.1 ho.2).1
  | contractEdge u e =>
    obtain ⟨⟨φ, h⟩, _⟩ := contractEdge_spec hg (simple_of_noParallel ho.2.2) ho.1 ho.2.1
    exact h.valid
  | contractEdgeSparseTarget u e =>
    obtain ⟨⟨φ, h⟩, _⟩ := contractEdgeSparseTarget_spec hg (simple_of_noParallel ho.2.2) ho.1 ho.2.1
    exact h.valid
  | contractSparseTargetNoEdge u v =>
    obtain ⟨⟨φ, h⟩, _⟩ := contractSparseTargetNoEdge_spec hg ho.1 ho.2.1 ho.2.2.1 (cnt_zero_of ho.2.2.2)
    exact h.valid
  | contractVertexSet S =>
    obtain ⟨⟨φ, h⟩, _⟩ := contractVertexSet_spec hg ho
    exact h.valid
  | deleteVertex v => exact (deleteVertex_spec hg ho).1

theorem Valid.run {g : MGraph} (hg : Valid g) (ops : List Op) (h : LegalHistory g ops) : Valid (g.run ops) := by
  induction ops generalizing g with
  | nil => exact hg
  | cons o ops ih => exact ih (hg.op o h.1) h.2

theorem Op.contracted {g : MGraph} (hg : Valid g) (o : Op) (ho : o.Legal g) {S : List Nat} (hS : o.mergeSet g = some S) :
    ∃ φ, Contracted g (o.apply g) S φ := by
  cases o <;> simp only [Op.mergeSet, Option.some.injEq, reduceCtorEq] at hS
  · subst hS; exact (contractEdge_spec hg (simple_of_noParallel ho.2.2) ho.1 ho.2.1).1
  · subst hS; exact (contractEdgeSparseTarget_spec hg (simple_of_noParallel ho.2.2) ho.1 ho.2.1).1
  · subst hS; exact (contractSparseTargetNoEdge_spec hg ho.1 ho.2.1 ho.2.2.1 (cnt_zero_of ho.2.2.2)).1
  · subst hS; exact (contractVertexSet_spec hg ho).1

/-- Every original vertex sits in exactly one live vertex. -/
structure Located (g : MGraph) : Prop where
  inv : PosInv g
  live : ∀ v, v < g.posSize → g.pos v < g.n

theorem Located.foundOnce {g : MGraph} (h : Located g) {v : Nat} (hv : v < g.posSize) : FoundOnce g v := by
  refine ⟨h.live v hv, ?_, ?_⟩
  · rw [List.count_eq_one_of_mem (h.inv.nodup _ (h.live v hv)) (h.inv.mem v hv (h.live v hv))]
  · intro p hp hne hm
    exact hne ((h.inv.back p hp v hm).2).symm

theorem Located.of_pframe {g g' : MGraph} (h : Located g) (hp : g'.pframe = g.pframe) : Located g' := by
  have hi := h.inv.of_pframe hp
  unfold pframe at hp
  simp only [Prod.mk.injEq] at hp
  obtain ⟨h1, h2, h3, _⟩ := hp
  refine ⟨?_, ?_⟩
  · unfold PosInv; rw [h3]; exact hi
  · rw [h1, h2, h3]; exact h.live

theorem Located.contracted {g g' : MGraph} {S : List Nat} {φ : Nat → Nat} (h : Located g) (hc : Contracted g g' S φ) :
    Located g' := by
  obtain ⟨h1, h2⟩ := hc.pos h.inv
  refine ⟨h1, ?_⟩
  intro v hv
  rw [hc.posSize] at hv
  rw [h2 v hv (h.live v hv)]
  have := hc.con.lt (g.pos v) (by rw [toGraph_n]; exact h.live v hv)
  rwa [toGraph_n] at this

theorem newEdge_pframe {g : MGraph} (hg : Valid g) {s t w : Nat} (ht : t < g.n) :
    (g.newEdge s t w).pframe = g.pframe := by
  by_cases h : s < t
  · exact (newEdge_spec hg h ht).2.1
  · unfold MGraph.newEdge; rw [if_neg h]

theorem Located.op {g : MGraph} (h : Located g) (hg : Valid g) (o : Op) (ho : o.Legal g) (hf : o.FixedVertices g) :
    Located (o.apply g) ∧ (o.apply g).posSize = g.posSize := by
  have key : ∀ g' : MGraph, g'.pframe = g.pframe → Located g' ∧ g'.posSize = g.posSize := by
    intro g' hp
    refine ⟨h.of_pframe hp, ?_⟩
    unfold pframe at hp
    simp only [Prod.mk.injEq] at hp
    exact hp.2.2.1
  rcases hS : o.mergeSet g with _ | S
  · cases o with
    | newNode =>
      refine key _ ?_
      show g.newNode.pframe = _
      unfold MGraph.newNode; rw [if_neg hf]; rfl
    | newEmptyNode =>
      refine key _ ?_
      show g.newEmptyNode.pframe = _
      unfold MGraph.newEmptyNode; rw [if_neg hf]; rfl
    | finishConstruction => exact key _ rfl
    | newEdge s t w => exact key _ (newEdge_pframe hg ho.2)
    | newEdgeOrder s t w =>
      refine key _ ?_
      show (g.newEdgeOrder s t w).pframe = _
      unfold MGraph.newEdgeOrder
      split
      · exact newEdge_pframe hg ho.2
      · split
        · exact newEdge_pframe hg ho.1
        · rfl
    | setEdgeWeight u e w => exact key _ (setEdgeWeight_spec hg ho.1 ho.2 w).2.1
    | deleteEdge u e => exact key _ (deleteEdge_spec hg ho.1 ho.2).2.1
    | deleteVertex v => exact hf.elim
    | contractEdge u e => simp [Op.mergeSet] at hS
    | contractEdgeSparseTarget u e => simp [Op.mergeSet] at hS
    | contractSparseTargetNoEdge u e => simp [Op.mergeSet] at hS
    | contractVertexSet S => simp [Op.mergeSet] at hS
  · obtain ⟨φ, hc⟩ := Op.contracted hg o ho hS
    exact ⟨h.contracted hc, hc.posSize⟩

theorem Located.run {g : MGraph} (h : Located g) (hg : Valid g) (ops : List Op) (hl : LegalHistory g ops)
    (hf : FixedHistory g ops) : Located (g.run ops) ∧ (g.run ops).posSize = g.posSize := by
  induction ops generalizing g with
  | nil => exact ⟨h, rfl⟩
  | cons o ops ih =>
    obtain ⟨h1, h2⟩ := h.op hg o hl.1 hf.1
    obtain ⟨h3, h4⟩ := ih h1 (hg.op o hl.1) hl.2 hf.2
    exact ⟨h3, h4.trans h2⟩

theorem Located.start (n : Nat) : Located (MGraph.start n) :=
  ⟨PosIn.start n, fun _ hv => hv⟩

/-- Contraction-only histories compose to one quotient, read off from the positions. -/
theorem contraction_history {g0 : MGraph} (ops : List Op) : ∀ {g : MGraph}, Valid g → Located g →
    g.posSize = g0.n → IsContraction g0.toGraph g.toGraph g.pos → OnlyContractions ops → LegalHistory g ops →
    IsContraction g0.toGraph (g.run ops).toGraph (g.run ops).pos ∧ Located (g.run ops) ∧ Valid (g.run ops) := by
  induction ops with
  | nil => intro g hv hL _ hc _ _; exact ⟨hc, hL, hv⟩
  | cons o ops ih =>
    intro g hv hL hp hc ho hl
    have hS : ∃ S, o.mergeSet g = some S := by
      have := ho o (by simp)
      cases o <;> first | exact ⟨_, rfl⟩ | exact this.elim
    obtain ⟨S, hS⟩ := hS
    obtain ⟨φ, hC⟩ := Op.contracted hv o hl.1 hS
    obtain ⟨k1, k2⟩ := hC.pos hL.inv
    refine ih hC.valid (hL.contracted hC) (hC.posSize.trans hp) ?_ (fun o' ho' => ho o' (List.mem_cons_of_mem _ ho')) hl.2
    refine (hc.comp hC.con).congr ?_
    intro u hu
    rw [toGraph_n, ← hp] at hu
    exact k2 u hu (hL.live u hu)

end VieCut.MGraph
