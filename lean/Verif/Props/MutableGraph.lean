import Verif.Proof.MutableHistory

/-! # C07, C08, C09: `mutable_graph` -/

namespace VieCut
open MGraph

/-! ## C07: structural validity -/

/-- After every history of legal calls of the public interface the graph is structurally valid. -/
theorem C07_consistent (n : Nat) (ops : List MGraph.Op) (hl : LegalHistory (MGraph.start n) ops) :
    Consistent ((MGraph.start n).run ops) :=
  consistent_iff.2 ((Valid.start n).run ops hl)

/-- The same from any valid graph, e.g. one produced by a conversion. -/
theorem C07_consistent_from (g : MGraph) (hg : Consistent g) (ops : List MGraph.Op) (hl : LegalHistory g ops) :
    Consistent (g.run ops) :=
  consistent_iff.2 ((consistent_iff.1 hg).run ops hl)

/-- Consequently the view that the algorithms read is a well-formed undirected graph without self loops, and the
cached degree is the degree of the view. -/
theorem C07_view (n : Nat) (ops : List MGraph.Op) (hl : LegalHistory (MGraph.start n) ops) :
    ((MGraph.start n).run ops).toGraph.WF ∧
    ∀ u, u < ((MGraph.start n).run ops).n →
      ((MGraph.start n).run ops).wdeg u = ((MGraph.start n).run ops).toGraph.deg u := by
  have h := (Valid.start n).run ops hl
  exact ⟨h.wf, fun u hu => by rw [toGraph_deg _ hu]; exact h.wdeg u hu (by simp)⟩

/-- Contracting an edge keeps a graph without parallel edges free of parallel edges, so that contractions can be
iterated. -/
theorem C07_contract_no_parallel (g : MGraph) (hg : Consistent g) (hs : g.NoParallel) (o : MGraph.Op) (S : List Nat)
    (hS : o.mergeSet g = some S) (hl : o.Legal g) : (o.apply g).NoParallel := by
  have hv := consistent_iff.1 hg
  have hsi := simple_of_noParallel hs
  refine noParallel_of_simple (hv.op o hl) ?_
  cases o <;> simp only [MGraph.Op.mergeSet, Option.some.injEq, reduceCtorEq] at hS
  · exact (contractEdge_spec hv hsi hl.1 hl.2.1).2.1
  · exact (contractEdgeSparseTarget_spec hv hsi hl.1 hl.2.1).2.1
  · exact (contractSparseTargetNoEdge_spec hv hl.1 hl.2.1 hl.2.2.1 (cnt_zero_of hl.2.2.2)).2.1 hsi
  · exact (contractVertexSet_spec hv hl).2.1 hsi

/-- A history used to show that the hypotheses of the theorems of this file can be met. -/
def sampleOps : List MGraph.Op :=
  [.newEdge 0 1 3, .newEdge 0 2 2, .newEdge 1 2 2, .newEdgeOrder 3 2 1, .setEdgeWeight 0 1 7, .newEdge 0 3 4,
   .deleteEdge 0 0, .contractEdge 1 0]

example : LegalHistory (MGraph.start 4) sampleOps ∧ FixedHistory (MGraph.start 4) sampleOps ∧
    ((MGraph.start 4).run sampleOps).toGraph = ⟨[[(2, 4), (1, 7)], [(2, 1), (0, 7)], [(1, 1), (0, 4)]]⟩ := by
  decide +kernel

/-! ### Why `NoParallel` is required for contracting an edge -/

/-- With two parallel edges between the endpoints, `contractEdge` leaves a self loop. -/
theorem C07_parallel_counterexample :
    ∃ ops : List MGraph.Op, LegalHistory (MGraph.start 2) ops ∧
      ¬ Consistent ((MGraph.Op.contractEdge 0 0).apply ((MGraph.start 2).run ops)) := by
  refine ⟨[.newEdge 0 1 1, .newEdge 0 1 1], by decide +kernel, ?_⟩
  intro h
  have := h.noLoop 0 0 (by decide +kernel) (by decide +kernel)
  exact this (by decide +kernel)

/-! ## C08: contraction adds up weights -/

/-- Every contraction call that asks to merge the vertices `S` produces the quotient graph: there is a renumbering
`φ` of the vertices onto the new vertices that identifies exactly the members of `S`, the weight between two
different new vertices is the sum of the weights between their members before, nothing else changes, and original
vertices move along with `φ`. -/
theorem C08_contract (g : MGraph) (hg : Consistent g) (o : MGraph.Op) (S : List Nat) (hS : o.mergeSet g = some S)
    (hl : o.Legal g) :
    ∃ φ : Nat → Nat,
      IsContraction g.toGraph (o.apply g).toGraph φ ∧
      (∀ u v, u < g.n → v < g.n → (φ u = φ v ↔ u = v ∨ (u ∈ S ∧ v ∈ S))) ∧
      ((∀ v, v < g.posSize → FoundOnce g v) → (∀ p, p < g.n → ∀ v ∈ g.cont p, v < g.posSize) →
        (∀ p, p < g.n → (g.cont p).Nodup) →
        ∀ v, v < g.posSize → (o.apply g).pos v = φ (g.pos v)) := by
  obtain ⟨φ, h⟩ := MGraph.Op.contracted (consistent_iff.1 hg) o hl hS
  refine ⟨φ, h.con, h.ker, ?_⟩
  intro h1 h2 h3 v hv
  refine (h.pos ⟨?_, ?_, h3⟩).2 v hv (h1 v hv).1
  · intro p hp v hvm
    have hvs := h2 p hp v hvm
    refine ⟨hvs, ?_⟩
    by_contra hne
    exact (h1 v hvs).2.2 p hp (Ne.symm hne) hvm
  · intro v hv _
    exact List.count_pos_iff.1 (by rw [(h1 v hv).2.1]; decide)

/-- Number of vertices afterwards: merging a set reduces it by the size of the set minus one. -/
theorem C08_vertex_count (g : MGraph) (hg : Consistent g) (o : MGraph.Op) (S : List Nat) (hS : o.mergeSet g = some S)
    (hl : o.Legal g) : (o.apply g).n = g.n - ((S.filter (· < g.n)).length - 1) := by
  have hv := consistent_iff.1 hg
  cases o <;> simp only [MGraph.Op.mergeSet, Option.some.injEq, reduceCtorEq] at hS
  · subst hS
    have ht := hg.target _ _ hl.1 hl.2.1
    have := (contractEdge_spec hv (simple_of_noParallel hl.2.2) hl.1 hl.2.1).2.2
    simpa [MGraph.Op.apply, List.filter_cons, hl.1, ht] using this
  · subst hS
    have ht := hg.target _ _ hl.1 hl.2.1
    have := (contractEdgeSparseTarget_spec hv (simple_of_noParallel hl.2.2) hl.1 hl.2.1).2.2
    simpa [MGraph.Op.apply, List.filter_cons, hl.1, ht] using this
  · subst hS
    have := (contractSparseTargetNoEdge_spec hv hl.1 hl.2.1 hl.2.2.1 (cnt_zero_of hl.2.2.2)).2.2
    simpa [MGraph.Op.apply, List.filter_cons, hl.1, hl.2.1] using this
  · subst hS; exact (contractVertexSet_spec hv hl).2.2

/-- A whole history of contractions of a freshly built graph `g0` (original vertex `v` still sits at `v`): the
resulting graph is the quotient of `g0` by `getCurrentPosition`. -/
theorem C08_contraction_history (g0 : MGraph) (hg : Consistent g0) (hsize : g0.posSize = g0.n)
    (hpos : ∀ v, v < g0.n → g0.pos v = v) (hcont : ∀ v, v < g0.n → g0.cont v = [v])
    (ops : List MGraph.Op) (honly : OnlyContractions ops) (hl : LegalHistory g0 ops) :
    IsContraction g0.toGraph (g0.run ops).toGraph (g0.run ops).pos := by
  have hv := consistent_iff.1 hg
  have hL : Located g0 := by
    refine ⟨⟨?_, ?_, ?_⟩, ?_⟩
    · intro p hp v hvm
      rw [hcont p hp, List.mem_singleton] at hvm
      rw [hvm, hpos p hp, hsize]; exact ⟨hp, rfl⟩
    · intro v hv' _
      rw [hsize] at hv'
      rw [hpos v hv', hcont v hv']; simp
    · intro p hp; rw [hcont p hp]; simp
    · intro v hv'; rw [hsize] at hv'; rw [hpos v hv']; exact hv'
  refine (contraction_history ops hv hL hsize ?_ honly hl).1
  refine (isContraction_refl hv.wf).congr ?_
  intro u hu
  rw [toGraph_n] at hu
  exact hpos u hu

/-- Hence every cut of the contracted graph has the value of the corresponding cut of the original graph. -/
theorem C08_history_cuts (g0 : MGraph) (hg : Consistent g0) (hsize : g0.posSize = g0.n)
    (hpos : ∀ v, v < g0.n → g0.pos v = v) (hcont : ∀ v, v < g0.n → g0.cont v = [v])
    (ops : List MGraph.Op) (honly : OnlyContractions ops) (hl : LegalHistory g0 ops) (T : Nat → Bool) :
    cutValue (g0.run ops).toGraph.n (g0.run ops).toGraph.wt T =
      cutValue g0.toGraph.n g0.toGraph.wt (fun v => T ((g0.run ops).pos v)) := by
  have h := C08_contraction_history g0 hg hsize hpos hcont ops honly hl
  exact cutValue_quotient h.lt h.wt T

/-- Edge calls change exactly the weight of one pair. -/
theorem C08_newEdge (g : MGraph) (hg : Consistent g) (s t w : Nat) (hst : s < t) (ht : t < g.n) (u v : Nat) (hu : u < g.n) :
    (g.newEdge s t w).toGraph.wt u v =
      g.toGraph.wt u v + (if (u = s ∧ v = t) ∨ (u = t ∧ v = s) then w else 0) := by
  obtain ⟨h1, h2, h3⟩ := newEdge_spec (consistent_iff.1 hg) hst ht (w := w)
  have hn : (g.newEdge s t w).n = g.n := by
    unfold pframe at h2; simp only [Prod.mk.injEq] at h2; exact h2.1
  rw [toGraph_wt _ (by rw [hn]; exact hu), toGraph_wt _ hu]
  unfold W
  rw [h3]
  by_cases c1 : u = s
  · have : u ≠ t := by omega
    simp [c1, show s ≠ t by omega, eq_comm]
  · by_cases c2 : u = t
    · simp [c2, show t ≠ s by omega, eq_comm]
    · simp [c1, c2]

theorem C08_setEdgeWeight (g : MGraph) (hg : Consistent g) (u e w : Nat) (hu : u < g.n) (he : e < g.len u)
    (a b : Nat) (ha : a < g.n) :
    (g.setEdgeWeight u e w).toGraph.wt a b +
      (if (a = u ∧ b = (g.edge u e).target) ∨ (a = (g.edge u e).target ∧ b = u) then (g.edge u e).weight else 0) =
      g.toGraph.wt a b + (if (a = u ∧ b = (g.edge u e).target) ∨ (a = (g.edge u e).target ∧ b = u) then w else 0) := by
  obtain ⟨h1, h2, h3⟩ := setEdgeWeight_spec (consistent_iff.1 hg) hu he w
  have hne := hg.noLoop u e hu he
  rw [toGraph_wt _ (show a < (g.setEdgeWeight u e w).n from ha), toGraph_wt _ ha]
  have := h3 (fun x w => if x = b then w else 0) a
  unfold W
  by_cases c1 : a = u
  · subst c1
    simpa [Ne.symm hne, eq_comm] using this
  · by_cases c2 : a = (g.edge u e).target
    · rw [c2] at this ⊢
      simpa [hne, eq_comm] using this
    · simpa [c1, c2] using this

theorem C08_deleteEdge (g : MGraph) (hg : Consistent g) (u e : Nat) (hu : u < g.n) (he : e < g.len u)
    (a b : Nat) (ha : a < g.n) :
    (g.deleteEdge u e).toGraph.wt a b +
      (if (a = u ∧ b = (g.edge u e).target) ∨ (a = (g.edge u e).target ∧ b = u) then (g.edge u e).weight else 0) =
      g.toGraph.wt a b := by
  obtain ⟨h1, h2, h3⟩ := deleteEdge_spec (consistent_iff.1 hg) hu he
  have hn : (g.deleteEdge u e).n = g.n := by
    unfold pframe at h2; simp only [Prod.mk.injEq] at h2; exact h2.1
  have hne := hg.noLoop u e hu he
  rw [toGraph_wt _ (by rw [hn]; exact ha), toGraph_wt _ ha]
  have := h3 (fun x w => if x = b then w else 0) a
  unfold W
  by_cases c1 : a = u
  · subst c1
    simpa [Ne.symm hne, eq_comm] using this
  · by_cases c2 : a = (g.edge u e).target
    · rw [c2] at this ⊢
      simpa [hne, eq_comm] using this
    · simpa [c1, c2] using this

/-- Deleting a vertex leaves the graph induced by the others; the last vertex takes the freed number. -/
theorem C08_deleteVertex (g : MGraph) (hg : Consistent g) (x : Nat) (hx : x < g.n) :
    (g.deleteVertex x).n = g.n - 1 ∧
    ∀ u v, u < g.n → v < g.n → u ≠ x → v ≠ x →
      (g.deleteVertex x).toGraph.wt (if u = g.n - 1 then x else u) (if v = g.n - 1 then x else v) = g.toGraph.wt u v := by
  obtain ⟨h1, h2, h3, _⟩ := deleteVertex_spec (consistent_iff.1 hg) hx
  refine ⟨h2, ?_⟩
  intro u v hu hv hux hvx
  rw [toGraph_wt _ (by rw [h2]; split <;> omega), toGraph_wt _ hu]
  exact (h3 u v hu hv hux hvx).1

/-- Non-vacuity for the contraction history: a 4-cycle with a chord, contracted twice. -/
example : ∃ g0 ops, Consistent g0 ∧ g0.posSize = g0.n ∧ (∀ v, v < g0.n → g0.pos v = v) ∧
    (∀ v, v < g0.n → g0.cont v = [v]) ∧ OnlyContractions ops ∧ LegalHistory g0 ops ∧
    (g0.run ops).toGraph = ⟨[[(1, 6)], [(0, 6)]]⟩ ∧ (List.range 4).map (g0.run ops).pos = [0, 1, 0, 0] := by
  refine ⟨(MGraph.start 4).run [.newEdge 0 1 1, .newEdge 1 2 2, .newEdge 2 3 3, .newEdge 0 3 4, .newEdge 1 3 3],
    [.contractEdge 2 1, .contractVertexSet [0, 2]], C07_consistent 4 _ (by decide +kernel), by decide +kernel,
    by decide +kernel, by decide +kernel, ?_, by decide +kernel, by decide +kernel, by decide +kernel⟩
  intro o ho
  simp only [List.mem_cons, List.not_mem_nil, or_false] at ho
  rcases ho with rfl | rfl <;> trivial

/-! ## C09: original vertices -/

/-- After any history of calls that keep the vertex set (edge insertions, deletions, weight changes, contractions),
every original vertex is found in exactly one place. -/
theorem C09_found_once (n : Nat) (ops : List MGraph.Op) (hl : LegalHistory (MGraph.start n) ops)
    (hf : FixedHistory (MGraph.start n) ops) (v : Nat) (hv : v < n) : FoundOnce ((MGraph.start n).run ops) v := by
  obtain ⟨h1, h2⟩ := (Located.start n).run (Valid.start n) ops hl hf
  exact h1.foundOnce (by rw [h2]; exact hv)

/-- Deleting a vertex: the originals it contained get the position `n()`, i.e. none; the others follow their
vertex and are still found exactly once. -/
theorem C09_deleteVertex (n : Nat) (ops : List MGraph.Op) (hl : LegalHistory (MGraph.start n) ops)
    (hf : FixedHistory (MGraph.start n) ops) (x : Nat) (hx : x < ((MGraph.start n).run ops).n) (v : Nat) (hv : v < n) :
    (((MGraph.start n).run ops).pos v = x →
      (((MGraph.start n).run ops).deleteVertex x).pos v = (((MGraph.start n).run ops).deleteVertex x).n) ∧
    (((MGraph.start n).run ops).pos v ≠ x → FoundOnce (((MGraph.start n).run ops).deleteVertex x) v) := by
  obtain ⟨h1, h2⟩ := (Located.start n).run (Valid.start n) ops hl hf
  have hval := (Valid.start n).run ops hl
  set g := (MGraph.start n).run ops with hg
  have hvp : v < g.posSize := by rw [h2]; exact hv
  obtain ⟨d1, d2, d3, d4, d5, d6⟩ := deleteVertex_spec hval hx
  obtain ⟨e1, e2, e3⟩ := d6.1 _ h1.inv
  refine ⟨fun he => e3 v hvp he, ?_⟩
  intro hne
  have hp := e2 v hvp (h1.live v hvp) hne
  have hlt : (g.deleteVertex x).pos v < (g.deleteVertex x).n := by
    rw [hp, d2]
    have := h1.live v hvp
    unfold relab; split <;> omega
  refine ⟨hlt, ?_, ?_⟩
  · rw [List.count_eq_one_of_mem (e1.nodup _ hlt) (e1.mem v hvp hlt)]
  · intro p hpn hpe hm
    exact hpe ((e1.back p hpn v hm).2).symm

/-- Adding a vertex after a deletion breaks the property: `deleteVertex` does not shrink the list of contained
vertices, so the vertex appended next inherits a stale entry and vertex 2 is listed twice. -/
theorem C09_new_vertex_counterexample :
    ∃ ops : List MGraph.Op, LegalHistory (MGraph.start 3) ops ∧
      2 ∈ ((MGraph.start 3).run ops).cont 0 ∧ 2 ∈ ((MGraph.start 3).run ops).cont 2 ∧
      2 < ((MGraph.start 3).run ops).n := by
  refine ⟨[.finishConstruction, .deleteVertex 0, .newEmptyNode], ?_, ?_, ?_, ?_⟩ <;> decide +kernel

/-- `new_node` beyond the announced size: the new vertex lists vertex 0 (several times) instead of itself. -/
theorem C09_new_node_counterexample :
    ((MGraph.start 2).run [.finishConstruction, .newNode]).cont 2 = [0, 0] ∧
    ((MGraph.start 2).run [.finishConstruction, .newNode]).pos 0 = 0 := by
  decide +kernel

end VieCut
