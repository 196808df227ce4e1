import Verif.Proof.SCC
import Verif.Proof.KCore
import Verif.Proof.Induced
import Verif.Proof.Check
import Mathlib.Tactic.IntervalCases

/-! # C20, C21: k-cores and strongly connected components -/

namespace VieCut
open Function Relation

/-! ## C21 -/

/-- Labels returned for a relation `R` on `0, …, n-1`: all labels `0, …, count-1` occur, equal labels mean mutual
reachability, and a vertex reaches only vertices with labels that are not larger (reverse topological order). -/
structure SccLabels (n : Nat) (R : Nat → Nat → Prop) (label : Nat → Option Nat) (count : Nat) : Prop where
  total : ∀ v, v < n → ∃ c, label v = some c ∧ c < count
  onto : ∀ c, c < count → ∃ v, v < n ∧ label v = some c
  classes : ∀ u v, u < n → v < n → (label u = label v ↔ Mutual R u v)
  order : ∀ u v c d, u < n → v < n → label u = some c → label v = some d → ReflTransGen R u v → d ≤ c

theorem SCC.allArcs_iff (G : Graph) (u v : Nat) : SCC.Arc G.allArcs u v ↔ G.Step u v := by
  unfold SCC.Arc Graph.allArcs Graph.Step
  rw [List.mem_map]
  constructor
  · rintro ⟨e, he, h⟩
    simp only [Prod.mk.injEq, and_true] at h
    exact ⟨e.2, by rw [← h]; exact he⟩
  · rintro ⟨w, hw⟩; exact ⟨(v, w), hw, rfl⟩

theorem SCC.resArcs_iff (g : MGraph) (pid : Option Nat) (u v : Nat) :
    SCC.Arc (g.resArcs pid) u v ↔ g.Residual (g.readFlow pid) u v := by
  unfold SCC.Arc MGraph.resArcs MGraph.Residual
  rw [List.mem_map]
  constructor
  · rintro ⟨e, he, h⟩
    simp only [Prod.mk.injEq, decide_eq_true_eq] at h
    exact ⟨e, by simpa using he, h.1, h.2⟩
  · rintro ⟨e, he, h1, h2⟩
    exact ⟨e, by simpa using he, by simp [h1, h2]⟩

/-- `strong_components` on a `graph_access`: ends without reading an empty stack and labels the classes of mutual
reachability along edges. -/
theorem C21_scc (G : Graph) (ht : ∀ u, ∀ e ∈ G.edges u, e.1 < G.n) :
    ∃ label count, sccGraph G = some (label, count) ∧ SccLabels G.n G.Step label count := by
  have harc : SCC.Arc G.allArcs = G.Step := by funext u v; exact propext (SCC.allArcs_iff G u v)
  obtain ⟨s, h1, h2, h3, h4, h5, -, -⟩ := SCC.run_spec (n := G.n) (arcs := G.allArcs) (by
    intro u t _ h
    rw [harc] at h
    obtain ⟨w, hw⟩ := h
    exact ht u _ hw)
  simp only [SCC.Reach, harc] at h3 h4
  exact ⟨s.comp, s.compCount, by unfold sccGraph; rw [h1]; rfl, h2, h5, h3, fun u v c d _ _ => h4 u v c d⟩

/-- `strong_components` on a `mutable_graph` with any flow: labels the classes of mutual reachability in the residual
graph, and counts the vertices of every class.  The flow is the one stored under the problem id, and zero on edges
whose stored flow belongs to another problem. -/
theorem C21_scc_residual (g : MGraph) (hg : g.Consistent) (pid : Option Nat) :
    ∃ label count sizes, sccMutable g pid = some (label, count, sizes) ∧
      SccLabels g.n (g.Residual (fun u e => match pid with
        | none => (g.edge u e).flow
        | some p => if (g.edge u e).pid = p then (g.edge u e).flow else 0)) label count ∧
      sizes.length = count ∧
      ∀ c, c < count → sizes.getD c 0 = ((Finset.range g.n).filter (fun v => label v = some c)).card := by
  have hfl : g.readFlow pid = (fun u e => match pid with
        | none => (g.edge u e).flow
        | some p => if (g.edge u e).pid = p then (g.edge u e).flow else 0) := by
    funext u e
    unfold MGraph.readFlow MGraph.getEdgeFlow
    cases pid with
    | none => rfl
    | some p => dsimp only; split <;> rfl
  rw [← hfl]
  have harc : SCC.Arc (g.resArcs pid) = g.Residual (g.readFlow pid) := by
    funext u v; exact propext (SCC.resArcs_iff g pid u v)
  have hv := MGraph.consistent_iff.1 hg
  obtain ⟨s, h1, h2, h3, h4, h5, h6, h7⟩ := SCC.run_spec (n := g.n) (arcs := g.resArcs pid) (by
    intro u t hu h
    rw [harc] at h
    obtain ⟨e, he, h1, -⟩ := h
    have := hv.wf.tgt_lt u ((g.edge u e).target, (g.edge u e).weight) (by
      rw [MGraph.toGraph_edges g hu]
      exact List.mem_map.2 ⟨e, by simpa using he, rfl⟩)
    rw [MGraph.toGraph_n] at this
    rw [← h1]; exact this)
  simp only [SCC.Reach, harc] at h3 h4
  exact ⟨s.comp, s.compCount, s.sizes, by unfold sccMutable; rw [h1]; rfl,
    ⟨h2, h5, h3, fun u v c d _ _ => h4 u v c d⟩, h6, h7⟩

/-- Two directed cycles joined by an edge: the labels of a concrete run. -/
example : ((SCC.run 5 (fun u => [[(1, true)], [(2, true), (4, false)], [(0, true), (3, true)], [(4, true)],
    [(3, true)]].getD u [])).map fun s => ((List.range 5).map s.comp, s.sizes)) =
    some ([some 1, some 1, some 1, some 0, some 0], [2, 3]) := by decide +kernel

/-- Number of vertices in the class of `r`. -/
noncomputable def classSize (n : Nat) (R : Nat → Nat → Prop) (r : Nat) : Nat := by
  classical exact ((Finset.range n).filter (fun v => Mutual R r v)).card

theorem firstMax_spec (l : List Nat) (hl : 0 < l.length) :
    firstMax l < l.length ∧ ∀ i, i < l.length → l.getD i 0 ≤ l.getD (firstMax l) 0 := by
  have key : ∀ k, k ≤ l.length →
      let b := (List.range k).foldl (fun b i => if l.getD i 0 > l.getD b 0 then i else b) 0
      b < l.length ∧ ∀ i, i < k → l.getD i 0 ≤ l.getD b 0 := by
    intro k
    induction k with
    | zero => intro _; exact ⟨hl, by simp⟩
    | succ k ih =>
      intro hk
      obtain ⟨h1, h2⟩ := ih (by omega)
      rw [List.range_succ, List.foldl_append]
      dsimp only at h1 h2 ⊢
      generalize (List.range k).foldl (fun b i => if l.getD i 0 > l.getD b 0 then i else b) 0 = b at h1 h2 ⊢
      simp only [List.foldl_cons, List.foldl_nil]
      split
      · rename_i hgt
        refine ⟨by omega, fun i hi => ?_⟩
        by_cases hik : i = k
        · rw [hik]
        · have := h2 i (by omega); omega
      · rename_i hgt
        refine ⟨h1, fun i hi => ?_⟩
        by_cases hik : i = k
        · rw [hik]; omega
        · exact h2 i (by omega)
  exact key l.length (le_refl _)

/-- `h` is the subgraph of `G` induced by a largest class of mutual reachability. -/
def IsLargestComponent (G H : Graph) : Prop :=
  ∃ names r, InducedBy G H names ∧ r < G.n ∧ (∀ v, v ∈ names ↔ v < G.n ∧ Mutual G.Step r v) ∧
    ∀ r', r' < G.n → classSize G.n G.Step r' ≤ names.length

/-- `largest_scc` returns the subgraph induced by a largest component. -/
theorem C21_largest (G : Graph) (hG : G.WF) (hn : 0 < G.n) :
    ∃ h rev, largestScc G = some (h, rev) ∧ IsLargestComponent G h.toGraph := by
  classical
  obtain ⟨label, count, h1, hl⟩ := C21_scc G hG.tgt_lt
  unfold largestScc
  rw [h1, Option.bind_some]
  dsimp only
  set sizes := (List.range count).map fun c => ((List.range G.n).filter fun v => label v == some c).length with hs
  have hlen : sizes.length = count := by simp [hs]
  have hcount : 0 < count := by
    obtain ⟨c, -, hc⟩ := hl.total 0 hn; omega
  obtain ⟨m1, m2⟩ := firstMax_spec sizes (by omega)
  set m := firstMax sizes with hm
  rw [hlen] at m1 m2
  have hget : ∀ c, c < count → sizes.getD c 0 = ((List.range G.n).filter fun v => label v == some c).length := by
    intro c hc
    rw [hs, List.getD_eq_getElem?_getD, List.getElem?_map, List.getElem?_range hc]; rfl
  obtain ⟨h, e1, e2, -⟩ := extractBlock_induced hG (fun v => label v == some m)
  obtain ⟨r, hr, hrm⟩ := hl.onto m m1
  refine ⟨h, _, e1, _, r, e2, hr, fun v => ?_, fun r' hr' => ?_⟩
  · rw [List.mem_filter, List.mem_range, beq_iff_eq]
    constructor
    · rintro ⟨a, b⟩
      exact ⟨a, (hl.classes r v hr a).1 (by rw [hrm, b])⟩
    · rintro ⟨a, b⟩
      exact ⟨a, by rw [← (hl.classes r v hr a).2 b, hrm]⟩
  · obtain ⟨c, hc, hcc⟩ := hl.total r' hr'
    have h3 := m2 c hcc
    rw [hget c hcc, hget m m1] at h3
    refine le_trans (le_of_eq ?_) h3
    unfold classSize
    have h4 : (Finset.range G.n).filter (fun v => Mutual G.Step r' v) =
        ((List.range G.n).filter fun v => label v == some c).toFinset := by
      ext v
      rw [Finset.mem_filter, List.mem_toFinset, List.mem_filter, Finset.mem_range, List.mem_range, beq_iff_eq]
      constructor
      · rintro ⟨a, b⟩
        exact ⟨a, by rw [← (hl.classes r' v hr' a).2 b, hc]⟩
      · rintro ⟨a, b⟩
        exact ⟨a, (hl.classes r' v hr' a).1 (by rw [hc, b])⟩
    have h5 := List.toFinset_card_of_nodup (List.nodup_range.filter (fun v => label v == some c) (l := List.range G.n))
    rw [← h5]
    convert congrArg Finset.card h4

/-- A path with three vertices and a single edge: the path is extracted. -/
example : (largestScc ⟨[[(1, 1)], [(0, 1)], [(3, 1)], [(2, 1), (4, 2)], [(3, 2)]]⟩).map (fun p => p.1.toGraph) =
    some ⟨[[(1, 1)], [(0, 1), (2, 2)], [(1, 2)]]⟩ := by decide +kernel

/-! ## C20 -/

theorem edgesInto_eq (G : Graph) (P : Nat → Bool) (u : Nat) : G.edgesInto P u = KCores.into G P u := by
  unfold Graph.edgesInto KCores.into
  rw [List.countP_map, List.countP_eq_length_filter]; rfl

theorem paired_count {G : Graph} (h : G.Paired) (u v : Nat) (hu : u < G.n) (hv : v < G.n) :
    ((G.edges u).map (·.1)).count v = ((G.edges v).map (·.1)).count u := by
  have h1 := h u v hu hv
  unfold List.count
  rw [List.countP_map, List.countP_map, List.countP_eq_length_filter, List.countP_eq_length_filter]
  exact h1

/-- `batagelj_zaversnik` on an undirected graph (parallel edges allowed): no access out of range, every vertex gets its
core number, `vertices` lists all vertices in non-decreasing order of it, `position` is its inverse, and `buckets[k]` is
the number of vertices outside the `k`-core. -/
theorem C20_core_numbers (G : Graph) (ht : ∀ u, ∀ e ∈ G.edges u, e.1 < G.n) (hp : G.Paired) :
    ∃ kc, batageljZaversnik G = some kc ∧
      (∀ v, v < G.n → G.InCore (kc.deg v) v ∧ ∀ k, G.InCore k v → k ≤ kc.deg v) ∧
      ((List.range G.n).map kc.vert).Perm (List.range G.n) ∧
      (∀ i j, i ≤ j → j < G.n → kc.deg (kc.vert i) ≤ kc.deg (kc.vert j)) ∧
      (∀ v, v < G.n → kc.vert (kc.pos v) = v ∧ kc.pos v < G.n) ∧
      (∀ v, v < G.n → kc.deg v < kc.size) ∧
      ∀ k, k < kc.size → kc.buck k = ((Finset.range G.n).filter (fun v => kc.deg v < k)).card := by
  obtain ⟨s, cd, h1, h2, -⟩ := KCores.main_run ht (paired_count hp) G.n (le_refl _)
  have hpos : ∀ v, v < G.n → s.pos v < G.n := fun v hv => (h2.arr.posn v hv).1
  refine ⟨s, h1, fun v hv => ⟨⟨fun w => decide (s.deg v ≤ s.deg w), by simp, fun u hu hle => ?_⟩, ?_⟩, ?_, ?_,
    fun v hv => ⟨(h2.arr.posn v hv).2, hpos v hv⟩, h2.arr.bound, h2.arr.buck⟩
  · rw [edgesInto_eq]
    exact h2.core _ (h2.lo v hv (hpos v hv)) u hu (by simpa using hle)
  · rintro k ⟨P, hPv, hP⟩
    exact h2.upc P k (fun u hu hPu => by rw [← edgesInto_eq]; exact hP u hu hPu) v hv hPv (hpos v hv)
  · have hnd : ((List.range G.n).map s.vert).Nodup := by
      refine List.Nodup.map_on ?_ List.nodup_range
      intro i hi j hj hij
      rw [List.mem_range] at hi hj
      rw [← (h2.arr.vertn i hi).2, ← (h2.arr.vertn j hj).2, hij]
    refine (List.perm_ext_iff_of_nodup hnd List.nodup_range).2 fun v => ?_
    rw [List.mem_map]
    constructor
    · rintro ⟨i, hi, rfl⟩
      rw [List.mem_range] at hi ⊢
      exact (h2.arr.vertn i hi).1
    · intro hv
      rw [List.mem_range] at hv
      exact ⟨s.pos v, by simpa using hpos v hv, (h2.arr.posn v hv).2⟩
  · intro i j hij hj
    obtain ⟨a, b⟩ := h2.arr.vertn i (by omega)
    obtain ⟨c, d⟩ := h2.arr.vertn j hj
    exact h2.arr.le_of_lt a c (by omega)

/-- A triangle with a pendant path, as input of the next example. -/
def coreSample : Graph := ⟨[[(1, 1), (2, 1), (3, 1)], [(0, 1), (2, 1)], [(1, 1), (0, 1)], [(0, 1), (4, 1)], [(3, 1)]]⟩

example : (∀ u ∈ List.range 5, ∀ e ∈ coreSample.edges u, e.1 < coreSample.n) ∧
    (∀ u ∈ List.range 5, ∀ v ∈ List.range 5, ((coreSample.edges u).filter (fun e => e.1 == v)).length =
      ((coreSample.edges v).filter (fun e => e.1 == u)).length) ∧
    (batageljZaversnik coreSample).map (fun k => ((List.range 5).map k.deg, (List.range 5).map k.vert)) =
      some ([2, 2, 2, 1, 1], [4, 3, 2, 1, 0]) := by decide +kernel

/-- `createCoreGraph` for a graph with unit weights and a non-empty `k`-core: the minimum degree check never ends the
program, and the result is a largest component of the subgraph induced by the `k`-core. -/
theorem C20_core_graph (G : Graph) (hG : G.WF) (hunit : ∀ u, ∀ e ∈ G.edges u, e.2 = 1) (hb : G.totalWeight < 2 ^ 64)
    (k : Nat) (hk : ∃ v, v < G.n ∧ G.InCore k v) :
    ∃ kc H names h rev, batageljZaversnik G = some kc ∧ createCoreGraph kc k G = some (h, rev) ∧
      InducedBy G H names ∧ (∀ v, v ∈ names ↔ v < G.n ∧ G.InCore k v) ∧ IsLargestComponent H h.toGraph := by
  have hsum : ∀ (l : List (Nat × Nat)), (∀ e ∈ l, e.2 = 1) → (l.map (·.2)).sum = l.length := by
    intro l hl
    induction l with
    | nil => rfl
    | cons a l ih =>
      rw [List.map_cons, List.sum_cons, ih (fun e he => hl e (List.mem_cons_of_mem _ he)), hl a List.mem_cons_self,
        List.length_cons, Nat.add_comm]
  have hp : G.Paired := by
    intro u v hu hv
    rw [← hsum _ (fun e he => hunit u e (List.mem_filter.1 he).1), ← hsum _ (fun e he => hunit v e (List.mem_filter.1 he).1)]
    exact hG.symm u v hu hv
  obtain ⟨kc, h1, h2, h3, h4, h5, h6, h7⟩ := C20_core_numbers G hG.tgt_lt hp
  obtain ⟨v0, hv0, hc0⟩ := hk
  have hkd := (h2 v0 hv0).2 k hc0
  have hks : k < kc.size := lt_of_le_of_lt hkd (h6 v0 hv0)
  have hbk := h7 k hks
  -- the block `position ≥ buckets[k]` is the set of vertices with core number at least `k`
  have hvn : ∀ i, i < G.n → kc.vert i < G.n ∧ kc.pos (kc.vert i) = i := by
    intro i hi
    have hmem : kc.vert i < G.n := by
      have : kc.vert i ∈ List.range G.n := h3.mem_iff.1 (List.mem_map_of_mem (by simpa using hi))
      simpa using this
    refine ⟨hmem, ?_⟩
    have hnd : ((List.range G.n).map kc.vert).Nodup := h3.nodup_iff.2 List.nodup_range
    have := List.inj_on_of_nodup_map hnd (x := kc.pos (kc.vert i)) (y := i) (by simpa using (h5 _ hmem).2)
      (by simpa using hi)
    exact this (h5 _ hmem).1
  have hblk : ∀ v, v < G.n → (kc.buck k ≤ kc.pos v ↔ k ≤ kc.deg v) := by
    intro v hv
    have hinj : ∀ a b, a < G.n → b < G.n → kc.pos a = kc.pos b → a = b := by
      intro a b ha hb hab
      rw [← (h5 a ha).1, ← (h5 b hb).1, hab]
    have hsort : ∀ a b, a < G.n → b < G.n → kc.pos a ≤ kc.pos b → kc.deg a ≤ kc.deg b := by
      intro a b ha hb hab
      have := h4 (kc.pos a) (kc.pos b) hab (h5 b hb).2
      rwa [(h5 a ha).1, (h5 b hb).1] at this
    have hposcard : kc.pos v = ((Finset.range G.n).filter (fun w => kc.pos w < kc.pos v)).card := by
      have : ((Finset.range G.n).filter (fun w => kc.pos w < kc.pos v)).card = (Finset.range (kc.pos v)).card := by
        refine Finset.card_bij (fun w _ => kc.pos w) ?_ ?_ ?_
        · intro w hw; simpa using (Finset.mem_filter.1 hw).2
        · intro a ha b hb hab
          exact hinj a b (by simpa using (Finset.mem_filter.1 ha).1) (by simpa using (Finset.mem_filter.1 hb).1) hab
        · intro i hi
          have hi' : i < kc.pos v := by simpa using hi
          have hin : i < G.n := lt_trans hi' (h5 v hv).2
          exact ⟨kc.vert i, by simp [(hvn i hin).1, (hvn i hin).2, hi'], (hvn i hin).2⟩
      rw [this, Finset.card_range]
    rw [hbk]
    constructor
    · intro hle
      by_contra hc
      have : ((Finset.range G.n).filter (fun w => kc.pos w < kc.pos v)).card <
          ((Finset.range G.n).filter (fun w => kc.deg w < k)).card := by
        refine Finset.card_lt_card ?_
        rw [Finset.ssubset_iff_of_subset]
        · exact ⟨v, by simp [hv]; omega, by simp⟩
        · intro w hw
          obtain ⟨a, b⟩ := Finset.mem_filter.1 hw
          have := hsort w v (by simpa using a) hv (le_of_lt b)
          exact Finset.mem_filter.2 ⟨a, by omega⟩
      omega
    · intro hle
      rw [hposcard]
      refine Finset.card_le_card fun w hw => ?_
      obtain ⟨a, b⟩ := Finset.mem_filter.1 hw
      refine Finset.mem_filter.2 ⟨a, ?_⟩
      by_contra hc
      have := hsort v w hv (by simpa using a) (by omega)
      omega
  have hbn : kc.buck k < G.n := lt_of_le_of_lt ((hblk v0 hv0).2 hkd) (h5 v0 hv0).2
  obtain ⟨H, e1, e2, -⟩ := extractBlock_induced hG (fun v => decide (kc.pos v ≥ kc.buck k))
  set N := (List.range G.n).filter (fun v => decide (kc.pos v ≥ kc.buck k)) with hN
  have hmem : ∀ v, v ∈ N ↔ v < G.n ∧ k ≤ kc.deg v := by
    intro v
    rw [hN, List.mem_filter, List.mem_range, decide_eq_true_eq]
    constructor
    · rintro ⟨a, b⟩; exact ⟨a, (hblk v a).1 b⟩
    · rintro ⟨a, b⟩; exact ⟨a, (hblk v a).2 b⟩
  have hcore : ∀ v, v < G.n → (k ≤ kc.deg v ↔ G.InCore k v) := by
    intro v hv
    constructor
    · intro hle
      obtain ⟨P, a, b⟩ := (h2 v hv).1
      exact ⟨P, a, fun u hu hPu => le_trans hle (b u hu hPu)⟩
    · exact (h2 v hv).2 k
  have hwf := e2.wf hG
  -- degrees in the core graph
  have hdeg : ∀ i, i < H.toGraph.n → H.toGraph.deg i = G.edgesInto (fun w => decide (w ∈ N)) (N.getD i 0) := by
    intro i hi
    unfold Graph.deg Graph.edgesInto
    rw [hsum, e2.len_row hi]
    intro e he
    have : (N.getD e.1 0, e.2) ∈ (H.toGraph.edges i).map (fun e => (N.getD e.1 0, e.2)) := List.mem_map_of_mem he
    rw [e2.row i hi] at this
    exact hunit _ (N.getD e.1 0, e.2) (List.mem_filter.1 this).1
  set x := kc.vert (kc.buck k) with hx
  obtain ⟨hxn, hxp⟩ := hvn _ hbn
  have hxN : x ∈ N := by rw [hmem]; exact ⟨hxn, (hblk x hxn).1 (by rw [hxp])⟩
  have hfirst : ∀ u ∈ N, kc.deg x ≤ kc.deg u := by
    intro u hu
    obtain ⟨a, b⟩ := (hmem u).1 hu
    have := h4 (kc.buck k) (kc.pos u) ((hblk u a).2 b) (h5 u a).2
    rwa [(h5 u a).1] at this
  have hcorex : ∀ u ∈ N, kc.deg x ≤ G.edgesInto (fun w => decide (w ∈ N)) u := by
    intro u hu
    obtain ⟨P, a, b⟩ := (h2 u ((hmem u).1 hu).1).1
    refine le_trans (hfirst u hu) (le_trans (b u ((hmem u).1 hu).1 a) ?_)
    rw [edgesInto_eq, edgesInto_eq]
    refine KCores.into_mono hG.tgt_lt (fun w hw hPw => ?_) u
    rw [decide_eq_true_eq, hmem]
    refine ⟨hw, ?_⟩
    have h8 : G.InCore (kc.deg u) w := ⟨P, hPw, b⟩
    have := (h2 w hw).2 _ h8
    have := ((hmem u).1 hu).2
    omega
  have hsome : ∃ u ∈ N, G.edgesInto (fun w => decide (w ∈ N)) u ≤ kc.deg x := by
    by_contra hc
    push Not at hc
    have : G.InCore (kc.deg x + 1) x := ⟨fun w => decide (w ∈ N), by simpa using hxN, fun u _ hu => hc u (by simpa using hu)⟩
    have := (h2 x hxn).2 _ this
    omega
  have hnum : ∀ u ∈ N, ∃ i, i < H.toGraph.n ∧ N.getD i 0 = u := by
    intro u hu
    obtain ⟨i, hi, he⟩ := List.getElem_of_mem hu
    refine ⟨i, by rw [e2.len]; exact hi, ?_⟩
    rw [List.getD_eq_getElem?_getD, List.getElem?_eq_getElem hi, ← he]; rfl
  have hmin : H.toGraph.minDegree = kc.deg x := by
    obtain ⟨u, hu, hle⟩ := hsome
    obtain ⟨i, hi, rfl⟩ := hnum u hu
    refine le_antisymm (le_trans (Graph.minDegree_le hi) (by rw [hdeg i hi]; exact hle)) ?_
    have hbound : kc.deg x ≤ 2 ^ 64 - 1 := by
      have h8 := hcorex x hxN
      have h9 : G.edgesInto (fun w => decide (w ∈ N)) x ≤ G.deg x := by
        unfold Graph.edgesInto Graph.deg
        rw [hsum _ (hunit x)]
        exact List.length_filter_le _ _
      have h10 : G.deg x ≤ G.totalWeight := Graph.deg_le_total hxn
      have h11 := le_trans h8 (le_trans h9 h10)
      omega
    rcases (Graph.foldl_min_le H.toGraph.deg (List.range H.toGraph.n) (2 ^ 64 - 1)).2.2 with h | ⟨j, hj, h⟩
    · unfold Graph.minDegree; rw [h]; exact hbound
    · unfold Graph.minDegree; rw [h]
      have hj : j < H.toGraph.n := by simpa using hj
      rw [hdeg j hj]
      exact hcorex _ (e2.name_mem hj)
  have hHn : 0 < H.toGraph.n := by
    obtain ⟨i, hi, -⟩ := hnum x hxN; omega
  obtain ⟨h, rev, a, b⟩ := C21_largest H.toGraph hwf hHn
  refine ⟨kc, H.toGraph, N, h, rev, h1, ?_, e2, fun v => ?_, b⟩
  · unfold createCoreGraph
    rw [if_neg (by omega), if_neg (by omega), e1, Option.bind_some]
    dsimp only
    rw [if_neg (not_not.2 (hmin.trans (by rw [hx])))]
    exact a
  · rw [hmem]
    constructor
    · rintro ⟨a, b⟩; exact ⟨a, (hcore v a).1 b⟩
    · rintro ⟨a, b⟩; exact ⟨a, (hcore v a).2 b⟩

/-- The triangle is the 2-core of the sample. -/
example : ((batageljZaversnik coreSample).bind (fun kc => createCoreGraph kc 2 coreSample)).map (fun p => p.1.toGraph) =
    some ⟨[[(1, 1), (2, 1)], [(0, 1), (2, 1)], [(1, 1), (0, 1)]]⟩ := by decide +kernel

end VieCut
