import Verif.Spec.Tools
import Verif.Proof.Random
import Verif.Proof.Tools
import Verif.Proof.BFS
import Verif.Proof.Check
import Verif.Spec.MutableGraph

/-! # C15, C26, C31-C35: flow fields, solution value, block extraction, permutations, renaming, distances, top-k -/

namespace VieCut
open Finset Function

/-! ## C32 -/

/-- Every helper ends without an access out of range and leaves a rearrangement of its input (of `0, …, n-1` when asked
to initialise), whatever the random numbers `r` and whatever rearrangement `σ` each `std::shuffle` performs. -/
theorem C32_permutations (r : Nat → Nat) (init : Bool) :
    (∀ {α : Type} (l : List α), ∃ l', Rand.good r l = some l' ∧ l'.Perm l) ∧
    (∀ {α : Type} (l : List α), ∃ l', Rand.goodSmall r l = some l' ∧ l'.Perm l) ∧
    (∀ l, ∃ l', Rand.goodInit r init l = some l' ∧ l'.Perm (if init then List.range l.length else l)) ∧
    (∀ l, ∃ l', Rand.fast r init l = some l' ∧ l'.Perm (if init then List.range l.length else l)) ∧
    (∀ σ : Nat → List Nat → List Nat, (∀ k l, (σ k l).Perm l) → ∀ l,
      (Rand.local' σ init l).Perm (if init then List.range l.length else l)) ∧
    (∀ l : List Nat, 2 ≤ l.length → ∃ l', Rand.circular r l = some l' ∧ l'.Perm (List.range l.length)) :=
  ⟨fun l => Rand.good_spec r l, fun l => Rand.goodSmall_spec r l, fun l => Rand.goodInit_spec r init l,
    fun l => Rand.fast_spec r init l, fun σ hσ _ => Rand.local_go σ hσ _ 0 _ (le_refl _),
    fun l hl => Rand.circular_spec r l hl⟩

/-- The drawn numbers do matter: a non-trivial rearrangement is produced. -/
example : Rand.goodInit (fun k => k * k / 3) true [7, 7, 7, 7] = some [3, 0, 2, 1] := by decide

/-! ## C33 -/

/-- `remap_cluster` for cluster ids below `n`: the new numbers are exactly `0, …, k-1`, two vertices share one exactly
when they share a cluster, and the reverse mapping lists the vertices of every new number once, in increasing order. -/
theorem C33_remap (n : Nat) (cluster : Nat → Nat) (hc : ∀ v, v < n → cluster v < n) :
    ∃ mapping rev, remapCluster n cluster = some (mapping, rev) ∧ mapping.length = n ∧
      (∀ v, v < n → mapping.getD v 0 < rev.length) ∧
      (∀ i, i < rev.length → ∃ v, v < n ∧ mapping.getD v 0 = i) ∧
      (∀ u v, u < n → v < n → (mapping.getD u 0 = mapping.getD v 0 ↔ cluster u = cluster v)) ∧
      (∀ i, i < rev.length → rev.getD i [] = (List.range n).filter (fun v => mapping.getD v 0 == i)) := by
  have h := remap_inv cluster n
  unfold remapCluster
  rw [if_pos hc]
  refine ⟨_, _, rfl, h.len, ?_, ?_, ?_, ?_⟩
  · intro v hv; rw [h.revlen]; exact h.lt _ _ (h.some_eq v hv)
  · intro i hi; rw [h.revlen] at hi; exact h.surj i hi
  · intro u v hu hv
    constructor
    · intro he
      refine h.inj _ _ _ (h.some_eq u hu) ?_
      rw [he]; exact h.some_eq v hv
    · intro he
      have h1 := h.some_eq u hu
      rw [he, h.some_eq v hv] at h1
      exact (Option.some.inj h1).symm
  · intro i hi; rw [h.revlen] at hi; exact h.rev i hi

example : remapCluster 5 (fun v => [3, 1, 3, 0, 1].getD v 0) = some ([0, 1, 0, 2, 1], [[0, 2], [1, 4], [3]]) := by decide

/-! ## C31 -/

/-- `extract_block` on `graph_access`: the vertices of the block are numbered without gaps in their order, and the
edges of every block vertex are its edges inside the block, renamed, in the same order with the same weights. -/
theorem C31_extract_block (G : Graph) (hG : G.WF) (inB : Nat → Bool) :
    ∃ h rev, extractBlock G inB = some (h, rev) ∧ h.n = ((List.range G.n).filter inB).length ∧
      ((List.range G.n).filter inB).map (rev.getD · 0) = List.range h.n ∧
      ∀ v, v < G.n → inB v = true →
        h.adj (rev.getD v 0) = ((G.edges v).filter (fun e => inB e.1)).map (fun e => (rev.getD e.1 0, e.2)) := by
  obtain ⟨h, a, b, c⟩ := extractBlock_spec hG inB
  refine ⟨h, _, a, b, ?_, ?_⟩
  · rw [b]
    have hm : ((List.range G.n).filter inB).map (((exMap G.n inB).1.getD · 0)) =
        ((List.range G.n).filter inB).map (blockRank inB) := by
      refine List.map_congr_left fun v hv => ?_
      obtain ⟨h1, h2⟩ := List.mem_filter.1 hv
      exact exMap_getD (by simpa using h1) h2
    rw [hm]
    exact blockRank_range inB G.n
  · intro v hv hb
    rw [exMap_getD hv hb, c v hv hb]
    refine List.map_congr_left fun e he => ?_
    obtain ⟨h1, h2⟩ := List.mem_filter.1 he
    rw [exMap_getD (hG.tgt_lt v e h1) h2]

/-- `extract_block` on `mutable_graph`: a consistent graph, numbered like the returned list of vertices, in which the
edges of a block vertex are (up to order) its edges inside the block, renamed, with the same weights. -/
theorem C31_extract_block_mutable (g : MGraph) (hg : g.Consistent) (inB : Nat → Bool) :
    ∃ h mapping rev, extractBlockM g inB = (h, mapping, rev) ∧ h.Consistent ∧ h.Fresh ∧ h.n = mapping.length ∧
      mapping = (List.range g.n).filter inB ∧ mapping.map (rev.getD · 0) = List.range h.n ∧
      ∀ v, v < g.n → inB v = true →
        (h.toGraph.edges (rev.getD v 0)).Perm
          (((g.toGraph.edges v).filter (fun e => inB e.1)).map (fun e => (rev.getD e.1 0, e.2))) := by
  have hg' := MGraph.consistent_iff.1 hg
  obtain ⟨a, b, c, d⟩ := MGraph.extractBlockM_spec hg' inB
  refine ⟨_, _, _, rfl, MGraph.consistent_iff.2 a, b, c, rfl, ?_, ?_⟩
  · have hm : ((List.range g.n).filter inB).map (((exMap g.n inB).1.getD · 0)) =
        ((List.range g.n).filter inB).map (blockRank inB) := by
      refine List.map_congr_left fun v hv => ?_
      obtain ⟨h1, h2⟩ := List.mem_filter.1 hv
      exact exMap_getD (by simpa using h1) h2
    show ((List.range g.n).filter inB).map (((exMap g.n inB).1.getD · 0)) = List.range (extractBlockM g inB).1.n
    rw [hm, c]
    exact blockRank_range inB g.n
  · intro v hv hb
    show ((extractBlockM g inB).1.toGraph.edges ((exMap g.n inB).1.getD v 0)).Perm
          (((g.toGraph.edges v).filter (fun e => inB e.1)).map (fun e => ((exMap g.n inB).1.getD e.1 0, e.2)))
    have hm : ((g.toGraph.edges v).filter (fun e => inB e.1)).map (fun e => ((exMap g.n inB).1.getD e.1 0, e.2)) =
        ((g.toGraph.edges v).filter (fun e => inB e.1)).map (fun e => (blockRank inB e.1, e.2)) := by
      refine List.map_congr_left fun e he => ?_
      obtain ⟨h1, h2⟩ := List.mem_filter.1 he
      have := hg'.wf.tgt_lt v e h1
      rw [MGraph.toGraph_n] at this
      rw [exMap_getD this h2]
    rw [exMap_getD hv hb, hm]
    exact MGraph.extractM_perm hg' inB hv hb

/-- The sample graph meets the hypothesis; the extracted block has three vertices and loses the outside edges. -/
example : (extractBlock sampleGraph (fun v => v != 2)).map (fun p => (p.1.n, p.2)) =
    some (((List.range sampleGraph.n).filter (fun v => v != 2)).length,
      ((List.range sampleGraph.n).map fun v => if v < 2 then v else if v = 2 then sampleGraph.n + 1 else v - 1)) := by
  decide

/-! ## C35 -/

/-- Whatever rearrangement satisfying its specification `std::nth_element` produces, the result consists of `k`
distinct vertices, and no other vertex has a larger degree than one of them. -/
theorem C35_top_k (n : Nat) (deg : Nat → Nat) (k : Nat) (hk : k ≤ n) (out : List (Nat × Nat))
    (hout : NthElement (allDegrees n deg) out (n - k)) :
    ∃ top, findTopK out k = some top ∧ top.length = k ∧ top.Nodup ∧ (∀ u ∈ top, u < n) ∧
      ∀ u ∈ top, ∀ v, v < n → v ∉ top → deg v ≤ deg u := by
  have hl : out.length = n := by rw [hout.perm.length_eq]; simp [allDegrees]
  have hp : (out.map (·.1)).Perm (List.range n) := by
    have := hout.perm.map (·.1)
    simpa [allDegrees, List.map_map, Function.comp_def] using this
  have hd : ∀ x ∈ out, x.2 = deg x.1 ∧ x.1 < n := by
    intro x hx
    have h1 := hout.perm.mem_iff.1 hx
    unfold allDegrees at h1
    obtain ⟨v, hv, rfl⟩ := List.mem_map.1 h1
    exact ⟨rfl, by simpa using hv⟩
  unfold findTopK
  rw [if_pos (by omega), hl]
  have hnd : (out.map (·.1)).Nodup := hp.nodup_iff.2 List.nodup_range
  refine ⟨_, rfl, by rw [List.length_map, List.length_drop]; omega, ?_, ?_, ?_⟩
  · rw [List.map_drop]; exact hnd.sublist (List.drop_sublist _ _)
  · intro u hu
    obtain ⟨x, hx, rfl⟩ := List.mem_map.1 hu
    exact (hd x (List.mem_of_mem_drop hx)).2
  · intro u hu v hv hvt
    obtain ⟨x, hx, rfl⟩ := List.mem_map.1 hu
    obtain ⟨j, hj, rfl⟩ := List.mem_iff_getElem.1 hx
    have hv' : v ∈ out.map (·.1) := hp.mem_iff.2 (by simpa using hv)
    obtain ⟨y, hy, rfl⟩ := List.mem_map.1 hv'
    obtain ⟨i, hi, rfl⟩ := List.mem_iff_getElem.1 hy
    rw [List.length_drop, hl] at hj
    rw [List.getElem_drop]
    have him : i ≤ n - k := by
      by_contra hcon
      apply hvt
      rw [List.mem_map]
      refine ⟨out[i], ?_, rfl⟩
      rw [List.mem_iff_getElem]
      exact ⟨i - (n - k), by rw [List.length_drop, hl]; omega, by
        rw [List.getElem_drop]; congr 1; omega⟩
    have := hout.low i (n - k + j) out[i] (out[n - k + j]'(by omega)) him (by omega)
      (List.getElem?_eq_getElem hi) (List.getElem?_eq_getElem (by omega))
    rw [(hd _ (List.getElem_mem _)).1, (hd _ (List.getElem_mem _)).1] at this
    exact this

/-- A rearrangement that meets the hypotheses. -/
example : NthElement (allDegrees 3 (fun v => [4, 9, 6].getD v 0)) [(0, 4), (2, 6), (1, 9)] 1 :=
  ⟨by decide, by
    intro i j a b hi hj ha hb
    have hi2 : i = 0 ∨ i = 1 := by omega
    have hj3 : j < 3 := by
      by_contra hc
      rw [List.getElem?_eq_none (by simp; omega)] at hb; simp at hb
    have hj2 : j = 1 ∨ j = 2 := by omega
    rcases hi2 with rfl | rfl <;> rcases hj2 with rfl | rfl <;> simp at ha hb <;> rw [← ha, ← hb] <;> decide⟩

/-! ## C34 -/

/-- `bfsDistances(G, start)`: the loop ends; a vertex is reachable exactly if it is the start vertex or has a parent;
for reachable vertices the returned distance is that of a shortest walk, and the parent is a neighbour one step closer
to the start; unreachable vertices keep the initial values; the third component is a reachable vertex of largest
distance. -/
theorem C34_bfs (G : Graph) (hG : G.WF) (start : Nat) (hs : start < G.n) :
    let r := bfsDistances G start
    (r.done = true ∨ r.queue = []) ∧
    (∀ v, (∃ k, Walk G start v k) ↔ v = start ∨ ∃ p, r.parent v = some p) ∧
    (∀ v, (∃ k, Walk G start v k) → IsDist G start v (r.dist v)) ∧
    (∀ v p, r.parent v = some p → v ∈ (G.edges p).map (·.1) ∧ IsDist G start p (r.dist p) ∧ r.dist v = r.dist p + 1) ∧
    (∀ v, (¬ ∃ k, Walk G start v k) → r.parent v = none ∧ r.dist v = 0) ∧
    (∃ k, Walk G start r.last k) ∧ (∀ v, (∃ k, Walk G start v k) → r.dist v ≤ r.dist r.last) := by
  obtain ⟨h1, h2, h3, h4, h5⟩ := bfs_spec hG hs
  simp only
  generalize bfsDistances G start = r at *
  have hreach : ∀ v, (∃ k, Walk G start v k) ↔ r.disc v = true :=
    fun v => ⟨fun ⟨k, hk⟩ => h3 v k hk, fun hv => ⟨_, h2.sound v hv⟩⟩
  have hpar : ∀ v p, r.parent v = some p → r.disc v = true ∧ v ≠ start := by
    intro v p hp
    constructor
    · by_contra hc
      have := (h2.undisc v (by simpa using hc)).1
      rw [this] at hp; simp at hp
    · rintro rfl
      rw [h2.st.2.1] at hp; simp at hp
  refine ⟨h1, ?_, ?_, ?_, ?_, (hreach _).2 h4, ?_⟩
  · intro v
    rw [hreach]
    constructor
    · intro hv
      by_cases hvs : v = start
      · exact Or.inl hvs
      · obtain ⟨p, hp, -⟩ := h2.par v hv hvs
        exact Or.inr ⟨p, hp⟩
    · rintro (rfl | ⟨p, hp⟩)
      · exact h2.st.1
      · exact (hpar v p hp).1
  · intro v hv
    rw [hreach] at hv
    exact ⟨h2.sound v hv, h2.exact v hv⟩
  · intro v p hp
    obtain ⟨hd, hne⟩ := hpar v p hp
    obtain ⟨p', a, b, c, d⟩ := h2.par v hd hne
    rw [hp] at a
    have := Option.some.inj a
    subst this
    exact ⟨c, ⟨h2.sound p b, h2.exact p b⟩, d⟩
  · intro v hv
    rw [hreach] at hv
    exact h2.undisc v (by simpa using hv)
  · intro v hv
    rw [hreach] at hv
    exact h5 v hv

/-- A path with an isolated vertex. -/
example : (let G : Graph := ⟨[[(1, 1)], [(0, 1), (2, 1)], [(1, 1)], []]⟩
    (List.range 4).map (bfsDistances G 0).dist = [0, 1, 2, 0] ∧ (bfsDistances G 0).parent 3 = none) ∧
    Graph.WF ⟨[[(1, 1)], [(0, 1), (2, 1)], [(1, 1)], []]⟩ := ⟨by decide, Graph.wf_of_check (by decide)⟩

/-! ## C15 -/

/-- Flow problems that run one after the other with different ids, none of which is stored in the graph at the
beginning, read exactly the values they would read on a graph without any flow. -/
theorem C15_problems_independent (g : MGraph) (ps : List (Nat × List FlowOp))
    (hfresh : ∀ p ∈ ps, ∀ u e, (g.edge u e).pid ≠ p.1) (hdiff : (ps.map (·.1)).Nodup) :
    g.runProblems ps = ps.map (fun p => refProblem p.2) := by
  induction ps generalizing g with
  | nil => rfl
  | cons p ps ih =>
    obtain ⟨h1, h2⟩ := MGraph.runProblem_spec g p (hfresh p (by simp))
    rw [List.map_cons, List.nodup_cons] at hdiff
    unfold MGraph.runProblems
    rw [h1, List.map_cons, ih]
    · intro q hq u e hcon
      rcases h2 u e with h3 | h3
      · exact hfresh q (by simp [hq]) u e (h3 ▸ hcon)
      · apply hdiff.1
        rw [← h3, hcon]
        exact List.mem_map_of_mem hq
    · exact hdiff.2

/-- Flow calls never change the graph itself. -/
theorem C15_graph_unchanged (g : MGraph) (p : Nat × List FlowOp) :
    (g.runProblem p).1.n = g.n ∧ (g.runProblem p).1.toGraph = g.toGraph ∧
    (g.Consistent → (g.runProblem p).1.Consistent) := MGraph.runProblem_graph g p

/-- Problems whose calls are interleaved are not independent: the second read of problem 1 has lost its flow. -/
theorem C15_interleaved_lost : ∃ g : MGraph, (∀ u e, (g.edge u e).pid = 0) ∧
    (((g.runProblem (1, [.set 0 0 5])).1.runProblem (2, [.get 0 0])).1.runProblem (1, [.get 0 0])).2 = [0] ∧
    refProblem [.set 0 0 5, .get 0 0] = [5] :=
  ⟨MGraph.start 2, fun _ _ => rfl, by decide, by decide⟩

/-- The hypotheses are met by a graph with an edge, two problems, and leftover flow of the first one. -/
example : let g := ((MGraph.start 2).newEdge 0 1 3)
    g.runProblems [(7, [.add 0 0 2, .add 0 0 1, .get 0 0]), (8, [.get 0 0, .add 0 0 4, .get 0 0])] = [[3], [0, 4]] := by
  decide

/-! ## C26 -/

/-- `flowValue` returns the total weight of the edges between different blocks, each counted once, if the solution has
exactly one terminal in every block, and fails otherwise. -/
theorem C26_flow_value (G : Graph) (hG : G.WF) (terminals : List Nat) (ht : ∀ t ∈ terminals, t < G.n)
    (sol : Nat → Nat) :
    (SeparatesTerminals G.n terminals sol → flowValue G terminals sol = some (multicutValue G.n G.wt sol)) ∧
    (¬ SeparatesTerminals G.n terminals sol → flowValue G terminals sol = none) := by
  unfold flowValue
  constructor
  · rintro ⟨h1, h2⟩
    rw [if_pos, flow_sum hG, Nat.mul_div_cancel_left _ (by omega)]
    refine ⟨h1, fun i hi => ⟨?_, h2 i hi⟩⟩
    intro hc
    have h3 := h2 i hi
    rw [List.length_eq_zero_iff, List.filter_eq_nil_iff] at hc
    obtain ⟨t, h4⟩ := List.length_eq_one_iff.1 h3
    have h5 : t ∈ terminals.filter (fun t => sol t == i) := by rw [h4]; simp
    obtain ⟨h6, h7⟩ := List.mem_filter.1 h5
    exact hc t (by simpa using ht t h6) h7
  · intro hc
    rw [if_neg]
    rintro ⟨h1, h2⟩
    exact hc ⟨h1, fun i hi => (h2 i hi).2⟩

example : flowValue ⟨[[(1, 2), (2, 5)], [(0, 2)], [(0, 5)]]⟩ [1, 2] (fun v => [1, 0, 1].getD v 0) = some 2 := by decide

end VieCut
