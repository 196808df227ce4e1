import Verif.Spec.GraphBuild
import Verif.Proof.Convert
import Verif.Proof.Check
import Verif.Spec.MutableGraph

/-! # C10, C16, C38, C39: construction, copying, conversion and serialisation of graphs -/

namespace VieCut
open CSR

namespace CSR

theorem inserted_source (ops : List Op) : (inserted ops).map (·.1) = ops.filterMap Op.source := by
  induction ops with
  | nil => rfl
  | cons o ops ih =>
    cases o with
    | newNode => exact ih
    | newEdge s t w =>
      by_cases h : s = t
      · simp [inserted, Op.source, h]; exact ih
      · simp [inserted, Op.source, h]; exact ih

theorem inserted_row (ops : List Op) (v : Nat) :
    ((inserted ops).filter (fun x => x.1 == v)).map (·.2) = ops.filterMap (Op.row v) := by
  induction ops with
  | nil => rfl
  | cons o ops ih =>
    cases o with
    | newNode => exact ih
    | newEdge s t w =>
      by_cases h : s = t
      · subst h
        have : ¬ (s = v ∧ s ≠ v) := fun h => h.2 h.1
        simp only [inserted, if_true, List.filterMap_cons, Op.row, if_neg this]
        exact ih
      · by_cases hv : s = v
        · subst hv
          have h' : ¬ t = s := Ne.symm h
          simp [inserted, Op.row, h, h']; exact ih
        · simp [inserted, Op.row, h, hv]; exact ih

theorem InSourceOrder.sorted' {n : Nat} {ops : List Op} (h : InSourceOrder n ops) : Sorted n ops ∧ nodeCalls ops = n := by
  refine ⟨⟨?_, ?_⟩, ?_⟩
  · have := h.sorted
    rw [← inserted_source, List.pairwise_map] at this
    exact this
  · intro x hx
    apply h.lt
    rw [← inserted_source]
    exact List.mem_map_of_mem hx
  · rw [← h.nodes]
    clear h
    induction ops with
    | nil => rfl
    | cons o ops ih => cases o <;> simp [nodeCalls, ih]

end CSR

/-! ## C10 -/

/-- After construction every vertex has exactly the edges added for it, in the order of the calls. -/
theorem C10_construction (n : Nat) (ops : List Op) (h : InSourceOrder n ops) (v : Nat) (hv : v < n) :
    (build n ops).adj v = ops.filterMap (Op.row v) := by
  rw [(build_holds h.sorted'.1 h.sorted'.2).adj hv, inserted_row]

/-- `getEdgeSource` returns the vertex in whose range an edge id lies. -/
theorem C10_edge_source (n : Nat) (ops : List Op) (h : InSourceOrder n ops) (v : Nat) (hv : v < n) (e : Nat)
    (he : e ∈ (build n ops).edgeIds v) : (build n ops).getEdgeSource e = v := by
  rw [mem_edgeIds] at he
  exact (build_holds h.sorted'.1 h.sorted'.2).edgeSource hv he.1 he.2

/-- The edge ids of the vertices cover all edges: vertex ranges are consecutive, begin with 0 and end with the
number of edges. -/
theorem C10_ranges (n : Nat) (ops : List Op) (h : InSourceOrder n ops) :
    (build n ops).first 0 = 0 ∧ (∀ v, v < n → (build n ops).first v ≤ (build n ops).first (v + 1)) ∧
    (build n ops).first n = (build n ops).edges.length ∧
    (build n ops).edges.length = (ops.filterMap Op.source).length := by
  have hh := build_holds h.sorted'.1 h.sorted'.2
  have h1 : (build n ops).edges.length = (inserted ops).length := by rw [hh.edges]; simp
  refine ⟨?_, ?_, ?_, ?_⟩
  · rw [hh.first 0 (by omega)]
    unfold below
    rw [List.length_eq_zero_iff, List.filter_eq_nil_iff]
    intro x _; simp
  · intro v hv
    rw [hh.first v (by omega), hh.first (v + 1) (by omega)]
    exact below_mono _ (by omega)
  · rw [hh.first n (le_refl _), below_all hh.lt (le_refl _), h1]
  · rw [h1, ← inserted_source]; simp

/-- The id returned by `new_edge(s, t, w)` during construction is, in the finished graph, an edge of `s` leading
to `t` with weight `w`. -/
theorem C10_edge_id (n : Nat) (a b : List Op) (s t w : Nat) (hst : s ≠ t)
    (h : InSourceOrder n (a ++ .newEdge s t w :: b)) :
    ((a.foldl Op.apply (start n)).newEdge s t w).1 ∈ (build n (a ++ .newEdge s t w :: b)).edgeIds s ∧
    (build n (a ++ .newEdge s t w :: b)).getEdge ((a.foldl Op.apply (start n)).newEdge s t w).1 = (t, w) := by
  have hh := build_holds h.sorted'.1 h.sorted'.2
  have happ : ∀ x y : List Op, inserted (x ++ y) = inserted x ++ inserted y := by
    intro x y
    induction x with
    | nil => rfl
    | cons o x ih =>
      cases o with
      | newNode => simpa [inserted] using ih
      | newEdge s t w =>
        by_cases h : s = t
        · simp [inserted, h, ih]
        · simp [inserted, h, ih]
  have hL : inserted (a ++ .newEdge s t w :: b) = inserted a ++ (s, t, w) :: inserted b := by
    rw [happ]; simp [inserted, hst]
  have hp := h.sorted'.1.1
  have hlt := h.sorted'.1.2
  rw [hL] at hp hlt
  have hpa := List.pairwise_append.1 hp
  have hinv := (Inv.run a (Inv.start n) (by simpa using hpa.1)).1
  rw [List.nil_append] at hinv
  have hid : ((a.foldl Op.apply (start n)).newEdge s t w).1 = (inserted a).length := by
    unfold CSR.newEdge
    rw [if_neg hst]
    simp only
    rw [hinv.edges]; simp
  have hs : s < n := hlt (s, t, w) (by simp)
  have hle : ∀ x ∈ inserted a, x.1 ≤ s := fun x hx => hpa.2.2 x hx (s, t, w) (by simp)
  rw [hid]
  constructor
  · rw [mem_edgeIds, hh.first s (by omega), hh.first (s + 1) (by omega), hL, below_append, below_append]
    have e1 : below ((s, t, w) :: inserted b) s = 0 := by
      unfold below
      rw [List.length_eq_zero_iff, List.filter_eq_nil_iff]
      intro x hx
      rcases List.mem_cons.1 hx with rfl | hx
      · simp
      · have := (List.pairwise_cons.1 hpa.2.1).1 x hx
        simp at this ⊢; omega
    have e2 : below (inserted a) s ≤ (inserted a).length := by unfold below; exact List.length_filter_le _ _
    have e3 : below (inserted a) (s + 1) = (inserted a).length :=
      below_all (k := s + 1) (fun x hx => by have := hle x hx; omega) (le_refl _)
    have e4 : 0 < below ((s, t, w) :: inserted b) (s + 1) := by
      unfold below
      rw [List.filter_cons_of_pos (by simp)]; simp
    omega
  · unfold getEdge
    rw [hh.edges, hL]
    simp [List.getD_eq_getElem?_getD]

/-- `copy()` returns a graph with the same vertices and the same edge lists. -/
theorem C10_copy (n : Nat) (ops : List Op) (h : InSourceOrder n ops) :
    ∃ h', (build n ops).copy = some h' ∧ h'.n = n ∧ ∀ v, v < n → h'.adj v = (build n ops).adj v := by
  have hh := build_holds h.sorted'.1 h.sorted'.2
  have hn : (build n ops).n = n := hh.n_eq
  obtain ⟨h', a, b, c⟩ := rebuild_holds n (build n ops).adj (by
    intro v hv e he
    rw [C10_construction n ops h v hv, List.mem_filterMap] at he
    obtain ⟨o, _, ho⟩ := he
    cases o with
    | newNode => simp [Op.row] at ho
    | newEdge s t w =>
      unfold Op.row at ho
      simp only at ho
      by_cases hc : s = v ∧ t ≠ v
      · rw [if_pos hc, Option.some.injEq] at ho
        rw [← ho]; exact hc.2
      · rw [if_neg hc] at ho; simp at ho)
  refine ⟨h', ?_, b.n_eq, c⟩
  unfold copy
  rw [hn]; exact a

/-- `build_from_metis_weighted` on adjacency lists without self loops stores exactly these lists. -/
theorem C10_metis (rows : List (List (Nat × Nat))) (hl : ∀ v, v < rows.length → ∀ e ∈ rows.getD v [], e.1 ≠ v) :
    ∃ g, buildFromMetis rows = some g ∧ g.n = rows.length ∧ ∀ v, v < rows.length → g.adj v = rows.getD v [] := by
  obtain ⟨g, a, b, c⟩ := rebuild_holds rows.length (fun v => rows.getD v []) hl
  refine ⟨g, ?_, b.n_eq, c⟩
  unfold buildFromMetis
  rw [← a]
  congr 1
  have : rows.zipIdx = (List.range rows.length).map (fun v => (rows.getD v [], v)) := by
    apply List.ext_getElem?
    intro i
    rw [List.getElem?_zipIdx, List.getElem?_map]
    by_cases hi : i < rows.length
    · simp [List.getD_eq_getElem?_getD, hi]
    · simp [hi]
  rw [this, List.foldl_map]

/-- `build_from_metis_weighted` does not ignore a self loop: `new_edge` returns the id of the next edge, and
`setEdgeWeight` then writes past the end of the edge array (undefined behaviour), or overwrites nothing visible only
if a later edge follows. -/
theorem C10_metis_self_loop_undefined : buildFromMetis [[(1, 5), (0, 7)], [(0, 5)]] = none := by decide

/-- Non-vacuity: isolated vertices before, between and after the sources, a self loop and parallel edges. -/
example : InSourceOrder 6 [.newNode, .newNode, .newEdge 1 3 4, .newEdge 1 1 9, .newEdge 1 3 2, .newNode, .newNode,
      .newEdge 3 1 4, .newEdge 3 1 2, .newNode, .newNode] ∧
    (build 6 [.newNode, .newNode, .newEdge 1 3 4, .newEdge 1 1 9, .newEdge 1 3 2, .newNode, .newNode,
      .newEdge 3 1 4, .newEdge 3 1 2, .newNode, .newNode]).toGraph.adj = [[], [(3, 4), (3, 2)], [], [(1, 4), (1, 2)], [], []] := by
  refine ⟨⟨by decide, by decide, by decide⟩, by decide⟩

/-! ## C39: degrees -/

/-- Before any degree query is cached, and after the cache is filled, the weighted degree is the sum of the current
weights of the vertex, as long as no weight is changed in between. -/
theorem C39_degree_partial (n : Nat) (ops : List Op) (h : InSourceOrder n ops) (v : Nat) (hv : v < n) :
    (build n ops).weightedDegree v = ((ops.filterMap (Op.row v)).map (·.2)).sum ∧
    (build n ops).computeDegrees.weightedDegree v = ((ops.filterMap (Op.row v)).map (·.2)).sum := by
  have hd : (build n ops).degComputed = false := by
    have : ∀ (l : List Op) (g : CSR), g.degComputed = false → (l.foldl Op.apply g).degComputed = false := by
      intro l
      induction l with
      | nil => intro g hg; exact hg
      | cons o l ih =>
        intro g hg
        rw [List.foldl_cons]
        apply ih
        cases o with
        | newNode => exact hg
        | newEdge s t w =>
          unfold Op.apply CSR.newEdge
          by_cases hst : s = t
          · simp [hst, hg]
          · simp [hst, hg]
    exact this ops (start n) rfl
  have e := C10_construction n ops h v hv
  constructor
  · unfold weightedDegree
    rw [if_neg (by simp [hd]), e]
  · unfold computeDegrees
    rw [if_neg (by simp [hd])]
    unfold weightedDegree
    simp only [if_true]
    rw [e]

/-- Full claim of C39: after any weight change the degree is the sum of the current weights.  It is false: once
degrees are cached (any call of `getMinDegree`, …), `setEdgeWeight` leaves them unchanged. -/
theorem C39_degree_stale :
    ∃ (n : Nat) (ops : List Op) (e w : Nat) (g' : CSR), InSourceOrder n ops ∧
      (build n ops).computeDegrees.setEdgeWeight e w = some g' ∧
      g'.weightedDegree 0 ≠ ((g'.adj 0).map (·.2)).sum := by
  refine ⟨2, [.newNode, .newEdge 0 1 4, .newNode, .newEdge 1 0 4], 0, 7, _, ⟨by decide, by decide, by decide⟩, rfl, ?_⟩
  decide

/-! ## C38: conversion between the graph classes -/

/-- No vertex lists the same neighbour twice. -/
def Graph.Simple (G : Graph) : Prop := ∀ u, u < G.n → ((G.edges u).map (·.1)).Nodup

/-- `from_graph_access` on a graph without parallel edges: a consistent mutable graph, whose vertices are the
original ones, with the same weights, hence the same value for every cut. -/
theorem C38_from_graph_access_partial (G : Graph) (hG : G.WF) (hs : G.Simple) :
    (MGraph.fromGraphAccess G).Consistent ∧ (MGraph.fromGraphAccess G).Fresh ∧ (MGraph.fromGraphAccess G).n = G.n ∧
    (∀ u v, u < G.n → v < G.n → (MGraph.fromGraphAccess G).toGraph.wt u v = G.wt u v) ∧
    ∀ S, cutValue G.n (MGraph.fromGraphAccess G).toGraph.wt S = cutValue G.n G.wt S := by
  obtain ⟨a, b, c, d⟩ := MGraph.fromGraphAccess_spec hG hs
  refine ⟨(MGraph.consistent_iff).2 a, b, c, d, ?_⟩
  intro S
  unfold cutValue
  refine Finset.sum_congr rfl fun u hu => Finset.sum_congr rfl fun v hv => ?_
  rw [d u v (Finset.mem_range.1 hu) (Finset.mem_range.1 hv)]

/-- With parallel edges the full claim is false: every copy after the first is added once from each side. -/
theorem C38_from_graph_access_overcounts :
    ∃ G : Graph, G.WF ∧ G.wt 0 1 = 2 ∧ (MGraph.fromGraphAccess G).toGraph.wt 0 1 = 3 := by
  refine ⟨⟨[[(1, 1), (1, 1)], [(0, 1), (0, 1)]]⟩, Graph.wf_of_check (by decide), by decide, by decide⟩

/-- `to_graph_access` of a consistent graph stores exactly the edge lists of the mutable graph. -/
theorem C38_to_graph_access (g : MGraph) (hg : g.Consistent) :
    ∃ h, g.toGraphAccess = some h ∧ h.n = g.n ∧ ∀ v, v < g.n → h.adj v = g.toGraph.edges v := by
  have hv := (MGraph.consistent_iff).1 hg
  obtain ⟨h, a, b, c⟩ := rebuild_holds g.n g.toGraph.edges (fun v _ e he => hv.wf.no_loop v e he)
  exact ⟨h, a, b.n_eq, c⟩

/-- Converting a graph without parallel edges to a mutable graph and back keeps every weight. -/
theorem C38_round_trip_partial (G : Graph) (hG : G.WF) (hs : G.Simple) :
    ∃ h, (MGraph.fromGraphAccess G).toGraphAccess = some h ∧ h.n = G.n ∧
      ∀ u v, u < G.n → v < G.n → h.toGraph.wt u v = G.wt u v := by
  obtain ⟨a, -, c, d, -⟩ := C38_from_graph_access_partial G hG hs
  obtain ⟨h, e1, e2, e3⟩ := C38_to_graph_access _ a
  refine ⟨h, e1, e2.trans c, ?_⟩
  intro u v hu hv
  rw [← d u v hu hv]
  unfold Graph.wt
  have : h.toGraph.edges u = h.adj u := by
    simp [CSR.toGraph, Graph.edges, List.getD_eq_getElem?_getD, e2, c, hu]
  rw [this, e3 u (by omega)]

/-- Non-vacuity. -/
example : sampleGraph.WF ∧ sampleGraph.Simple := by
  refine ⟨sampleGraph_wf, ?_⟩
  have : ∀ u ∈ List.range sampleGraph.n, ((sampleGraph.edges u).map (·.1)).Nodup := by decide
  intro u hu; exact this u (by simpa using hu)

/-! ## C16: serialisation -/

/-- `deserialize(serialize(G))` for a consistent graph in which every neighbour id is smaller than the number of edge
entries (in particular if every vertex has an edge, `C16_no_isolated`) and every original vertex
is found: the same vertices, the same edges and weights (up to the order within a vertex), the same partition indices
and the same positions of original vertices.  (Missing for the full claim: graphs with so many isolated vertices that a
neighbour id is not smaller than the number of edge entries, see below.) -/
theorem C16_round_trip_partial (g : MGraph) (hg : g.Consistent)
    (hfit : ∀ u, u < g.n → ∀ e ∈ g.toGraph.edges u, e.1 < g.numEdges)
    (hpos : g.posSize = g.origNodes) (horig : g.n ≤ g.origNodes) (hloc : ∀ v, v < g.posSize → g.FoundOnce v)
    (hn : g.n < 2 ^ 32) (hb : g.n + g.numEdges < 2 ^ 64 - 1) :
    ∃ ws g', g.serialize = some ws ∧ MGraph.deserialize ws = some g' ∧ g'.Consistent ∧ g'.n = g.n ∧
      g'.numEdges = g.numEdges ∧
      (∀ u, u < g.n → (g'.toGraph.edges u).Perm (g.toGraph.edges u)) ∧
      (∀ u, u < g.n → g'.part u = g.part u) ∧ g'.partCount = g.partCount ∧ g'.origNodes = g.origNodes ∧
      (∀ v, v < g.posSize → g'.pos v = g.pos v ∧ g'.FoundOnce v) := by
  have hv := (MGraph.consistent_iff).1 hg
  obtain ⟨ws, g', a1, a2, a3, a4, a5, a6, a7, a8, a9, a10, a11, a12⟩ :=
    MGraph.serialize_roundtrip hv hfit hpos horig (fun v hv => (hloc v hv).1) hn hb
  refine ⟨ws, g', a1, a2, (MGraph.consistent_iff).2 a3, a4, a5, ?_, a7, a8, a9, ?_⟩
  · intro u hu
    exact MGraph.perm_of_rowSum (by omega) hu (fun f => a6 f u hu)
  · intro v hv'
    refine ⟨a11 v hv', ?_⟩
    have hl := (hloc v hv').1
    unfold MGraph.FoundOnce
    rw [a11 v hv', a4, a12 _ hl]
    refine ⟨hl, ?_, ?_⟩
    · have hnd : ((List.range g.posSize).filter (fun x => g.pos x == g.pos v)).Nodup := List.nodup_range.filter _
      exact List.count_eq_one_of_mem hnd (List.mem_filter.2 ⟨List.mem_range.2 hv', by simp⟩)
    · intro p hp hne hmem
      rw [a12 p hp] at hmem
      have := (List.mem_filter.1 hmem).2
      exact hne ((beq_iff_eq.1 this).symm)

/-- The condition on neighbour ids holds if every vertex has an edge. -/
theorem C16_no_isolated (g : MGraph) (hg : g.Consistent) (hiso : ∀ u, u < g.n → 0 < g.len u) :
    ∀ u, u < g.n → ∀ e ∈ g.toGraph.edges u, e.1 < g.numEdges :=
  MGraph.target_lt_numEdges ((MGraph.consistent_iff).1 hg) hiso

/-- The encoding is ambiguous when a neighbour id is not smaller than the number of edges: on five vertices with the
single edge between 0 and 4, the target 4 is read back as a vertex marker and the edge is lost. -/
theorem C16_isolated_ambiguous :
    ∃ g : MGraph, g.Consistent ∧ g.Fresh ∧ g.toGraph.wt 0 4 = 1 ∧
      ∃ ws g', g.serialize = some ws ∧ MGraph.deserialize ws = some g' ∧ g'.toGraph.wt 0 4 = 0 := by
  refine ⟨(MGraph.start 5).newEdge 0 4 1, ?_, ⟨by decide, by decide⟩, by decide, ?_⟩
  · exact (MGraph.consistent_iff).2 (MGraph.newEdge_spec (MGraph.Valid.start 5) (by omega) (by decide)).1
  · refine ⟨_, _, rfl, rfl, by decide +kernel⟩

/-- Non-vacuity: a triangle with a contracted vertex. -/
example : ∃ g : MGraph, g.Consistent ∧ (∀ u, u < g.n → 0 < g.len u) ∧ g.posSize = g.origNodes ∧ g.n ≤ g.origNodes ∧
    (∀ v, v < g.posSize → g.FoundOnce v) ∧ g.n = 3 ∧ g.origNodes = 4 := by
  have hl : MGraph.LegalHistory (MGraph.start 4) [.newEdge 0 1 3, .newEdge 1 2 1, .newEdge 2 3 3, .newEdge 0 3 1,
    .contractVertexSet [0, 1]] := by decide +kernel
  have hfx : MGraph.FixedHistory (MGraph.start 4) [.newEdge 0 1 3, .newEdge 1 2 1, .newEdge 2 3 3, .newEdge 0 3 1,
    .contractVertexSet [0, 1]] := by decide +kernel
  have hL := (MGraph.Located.start 4).run (MGraph.Valid.start 4) _ hl hfx
  refine ⟨_, (MGraph.consistent_iff).2 ((MGraph.Valid.start 4).run _ hl), ?_, ?_, ?_, fun v hv => hL.1.foundOnce hv, ?_, ?_⟩
    <;> decide +kernel

end VieCut
