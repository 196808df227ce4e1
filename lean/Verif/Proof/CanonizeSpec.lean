import Verif.Proof.CanonizeParity
import Verif.Proof.TidyOps
import Mathlib.Data.List.Perm.Basic
import Mathlib.Algebra.BigOperators.Group.List.Basic

/-!
# `canonizeCactus` and `mergeGraphs`
-/

namespace VieCut
open Function Finset MGraph

theorem sum_filter_split {α : Type} (L : List α) (p : α → Bool) (f : α → Nat) :
    (L.map f).sum = ((L.filter p).map f).sum + ((L.filter fun x => !p x).map f).sum := by
  induction L with
  | nil => rfl
  | cons a L ih =>
    cases h : p a <;> simp [h, ih] <;> omega

namespace GraphModification
variable {E : Nat → Prop} {P : (Nat → Bool) → Prop} {C : MGraph} {c v : Nat}

/-- The neighbours over tree edges. -/
def treeList (g : MGraph) (v c : Nat) : List Nat := (treeNeighbors g v c).map (·.1)

theorem mem_tree (h : CactusOf E P C c) (hv : v < C.n) {t : Nat} (ht : t ∈ treeList C v c) : t < C.n ∧ t ≠ v ∧ C.W v t = c := by
  unfold treeList treeNeighbors at ht
  rw [List.map_map, List.mem_map] at ht
  obtain ⟨e, he, rfl⟩ := ht
  obtain ⟨e1, e2⟩ := List.mem_filter.1 he
  have e1 := List.mem_range.1 e1
  have e2 : (C.edge v e).weight = c := by simpa using e2
  refine ⟨((valid_iff.1 h.valid).1 v e hv e1).1, ?_, ?_⟩
  · obtain ⟨_, _, _, _, _, k6⟩ := h.valid.pv v e ⟨hv, by simp, e1⟩
    show (C.edge v e).target ≠ v
    tauto
  · show C.W v (C.edge v e).target = c
    rw [edge_weight_W h.simp0 h.valid hv e1, e2]

theorem mem_cyc (h : CactusOf E P C c) (hv : v < C.n) {t : Nat} (ht : t ∈ cycleNeighbors C v c) : t < C.n ∧ t ≠ v ∧ 2 * C.W v t = c := by
  unfold cycleNeighbors at ht
  rw [List.mem_map] at ht
  obtain ⟨e, he, rfl⟩ := ht
  obtain ⟨e1, e2⟩ := List.mem_filter.1 he
  have e1 := List.mem_range.1 e1
  have e2 : (C.edge v e).weight ≠ c := by simpa using e2
  refine ⟨((valid_iff.1 h.valid).1 v e hv e1).1, ?_, ?_⟩
  · obtain ⟨_, _, _, _, _, k6⟩ := h.valid.pv v e ⟨hv, by simp, e1⟩
    show (C.edge v e).target ≠ v
    tauto
  · rw [edge_weight_W h.simp0 h.valid hv e1]
    exact (h.weights v e hv e1).resolve_left e2

theorem nbr_mem (h : CactusOf E P C c) (hv : v < C.n) {t : Nat} (ht : C.W v t ≠ 0) : t ∈ treeList C v c ∨ t ∈ cycleNeighbors C v c := by
  obtain ⟨e, he, het⟩ := exists_edge_of_cnt (cnt_pos_of_W ht)
  by_cases hw : (C.edge v e).weight = c
  · left
    unfold treeList treeNeighbors
    rw [List.map_map, List.mem_map]
    exact ⟨e, List.mem_filter.2 ⟨List.mem_range.2 he, by simpa using hw⟩, het⟩
  · right
    unfold cycleNeighbors
    rw [List.mem_map]
    exact ⟨e, List.mem_filter.2 ⟨List.mem_range.2 he, by simpa using hw⟩, het⟩

theorem nodup_targets (h : CactusOf E P C c) (hv : v < C.n) : ((List.range (C.len v)).map fun e => (C.edge v e).target).Nodup := by
  refine List.Nodup.map_on ?_ List.nodup_range
  intro a ha b hb hab
  exact h.simple v hv a (List.mem_range.1 ha) b (List.mem_range.1 hb) hab

theorem tree_nodup (h : CactusOf E P C c) (hv : v < C.n) : (treeList C v c).Nodup := by
  unfold treeList treeNeighbors
  rw [List.map_map]
  exact (nodup_targets h hv).sublist (List.filter_sublist.map _)

theorem cyc_closed (h : CactusOf E P C c) (hc : 0 < c) (hv : v < C.n) : Closed C v c (cycleNeighbors C v c) := by
  refine ⟨?_, fun p hp => mem_cyc h hv hp, fun p hp => ?_⟩
  · unfold cycleNeighbors
    exact (nodup_targets h hv).sublist (List.filter_sublist.map _)
  · obtain ⟨p1, p2, p3⟩ := mem_cyc h hv hp
    obtain ⟨q, q1, q2, q3, q4⟩ := h.partner hv p1 p2 (by omega)
    have hj := (h.joined_of_reach hv p1 p2 q4).2.2
    have hle := h.joined_le hv p1 q1 q2.symm hj
    refine ⟨q, ?_, q2, q4⟩
    rcases nbr_mem h hv q3 with hq | hq
    · have := (mem_tree h hv hq).2.2
      omega
    · exact hq

/-- Weights at `v` by kind of edge. -/
theorem row_split (h : CactusOf E P C c) (hv : v < C.n) (f : Nat → Nat) : rowSum C (fun t w => if f t = 0 then 0 else w) v =
    ((treeList C v c).map fun t => if f t = 0 then 0 else c).sum + ((cycleNeighbors C v c).map fun t => if f t = 0 then 0 else c / 2).sum := by
  unfold rowSum
  rw [← sum_range_list, sum_filter_split _ (fun e => decide ((C.edge v e).weight = c))]
  congr 1
  · unfold treeList treeNeighbors
    rw [List.map_map, List.map_map]
    congr 1
    refine List.map_congr_left fun e he => ?_
    have : (C.edge v e).weight = c := by simpa using (List.mem_filter.1 he).2
    simp only [Function.comp, this]
  · unfold cycleNeighbors
    rw [List.map_map]
    have hf : (List.range (C.len v)).filter (fun e => !decide ((C.edge v e).weight = c)) =
        (List.range (C.len v)).filter fun e => decide ((C.edge v e).weight ≠ c) := by
      refine List.filter_congr fun e _ => ?_
      simp
    rw [hf]
    congr 1
    refine List.map_congr_left fun e he => ?_
    have h1 := List.mem_range.1 (List.mem_filter.1 he).1
    have h2 : (C.edge v e).weight ≠ c := by simpa using (List.mem_filter.1 he).2
    have h3 := (h.weights v e hv h1).resolve_left h2
    have h4 : (C.edge v e).weight = c / 2 := by omega
    simp only [Function.comp, h4]

theorem star_split (h : CactusOf E P C c) (hv : v < C.n) (X : Nat → Bool) (b : Bool) : star C v X b =
    ((cycleNeighbors C v c).map fun t => if b = X t then 0 else c / 2).sum + ((treeList C v c).map fun t => if b = X t then 0 else c).sum := by
  have := row_split h hv (fun t => if b = X t then 0 else 1)
  rw [Nat.add_comm]
  have e : ∀ (t w : Nat), (if (if b = X t then 0 else 1) = 0 then 0 else w) = if b = X t then 0 else w := by
    intro t w
    by_cases hb : b = X t <;> simp [hb]
  simp only [e] at this
  rw [← this]
  unfold MGraph.star rowSum
  refine Finset.sum_congr rfl fun e _ => ?_
  dsimp only
  by_cases hb : b = X (C.edge v e).target
  · rw [if_pos hb, if_pos hb.symm]
  · rw [if_neg hb, if_neg (fun hh => hb hh.symm)]

theorem edgeSum_row (v : Nat) : edgeSum C v = rowSum C (fun _ w => w) v := by
  unfold edgeSum rowSum
  rw [sum_range_list]

theorem edgeSum_split (h : CactusOf E P C c) (hv : v < C.n) :
    edgeSum C v = (treeList C v c).length * c + (cycleNeighbors C v c).length * (c / 2) := by
  have := row_split h hv (fun _ => 1)
  rw [edgeSum_row]
  simpa using this

theorem canonize_tidy (h : CactusOf E P C c) (hc : 0 < c) (hv : v < C.n) (hempty : C.cont v = []) (hcl : Clean C) {g : MGraph}
    (hg : Piece E g c) (hP : ∀ f, P f → Split g E c f) :
    ∃ C' F, CactusOf E P C' c ∧ Tidy C' ∧ ∀ fuel, F ≤ fuel → canonizeCactus fuel C v c = some C' := by
  obtain ⟨ps, F, hps, hperm, hpair⟩ := pairUp_spec h hc hv _ (cycleNeighbors C v c) (le_refl _) (cyc_closed h hc hv)
  have hsum := edgeSum_split h hv
  have hlen : (cycleNeighbors C v c).length = 2 * ps.length := by
    rw [hperm.length_eq]
    clear hps hperm hpair
    induction ps with
    | nil => rfl
    | cons p ps ih => simp only [List.flatMap_cons, List.length_append, List.length_cons, List.length_nil, ih]; omega
  have heven : 0 < ps.length → 2 * (c / 2) = c := by
    intro hp
    obtain ⟨t, ht⟩ := List.exists_mem_of_length_pos (l := cycleNeighbors C v c) (by omega)
    have := (mem_cyc h hv ht).2.2
    omega
  have htl : (treeList C v c).length = (treeNeighbors C v c).length := by unfold treeList; rw [List.length_map]
  have hsum' : edgeSum C v = ((treeList C v c).length + ps.length) * c := by
    rw [hsum, hlen, Nat.add_mul]
    congr 1
    by_cases hp : 0 < ps.length
    · conv_rhs => rw [← heven hp]
      rw [Nat.mul_comm 2, Nat.mul_assoc]
    · rw [show ps.length = 0 by omega]; simp
  have hmod : edgeSum C v % c = 0 := by rw [hsum']; exact Nat.mul_mod_left _ _
  have hdiv : edgeSum C v / c = (treeList C v c).length + ps.length := by rw [hsum']; exact Nat.mul_div_cancel _ hc
  unfold canonizeCactus
  dsimp only
  by_cases h2 : edgeSum C v / c = 2 ∧ treeNeighbors C v c ≠ []
  · have hhd : (treeNeighbors C v c).headD (0, 0) ∈ treeNeighbors C v c := by
      cases ht : treeNeighbors C v c with
      | nil => exact absurd ht h2.2
      | cons a l => simp
    obtain ⟨e, he1, he2⟩ := List.mem_map.1 hhd
    obtain ⟨e1, e2⟩ := List.mem_filter.1 he1
    refine ⟨C.contractEdge v e, 0, ?_, ?_, fun fuel _ => by rw [if_neg (by omega), if_pos h2, ← he2]⟩
    · refine h.contractTree hc hv hempty (List.mem_range.1 e1) (by simpa using e2) ?_
      rw [← edgeSum_row, hsum', ← hdiv, h2.1]
    · exact contractEdge_tidy h.valid hcl hv (List.mem_range.1 e1)
        (contractEdge_spec h.valid h.simp0 hv (List.mem_range.1 e1)).2.2
  · by_cases h3 : edgeSum C v / c = 3
    · have hev : 2 * (c / 2) = c := by
        by_cases hp : 0 < ps.length
        · exact heven hp
        · have hcyc : cycleNeighbors C v c = [] := List.length_eq_zero_iff.1 (by omega)
          obtain ⟨t1, t2, t3, ht⟩ : ∃ t1 t2 t3, treeList C v c = [t1, t2, t3] := List.length_eq_three.1 (by omega)
          have hnd := tree_nodup h hv
          have hst := star_split h hv
          have hmt := fun t => mem_tree (t := t) h hv
          have hnb := fun t => nbr_mem (t := t) h hv
          rw [ht] at hnd
          simp only [ht, hcyc, List.map_nil, List.map_cons, List.sum_nil, List.sum_cons] at hst
          simp only [ht, hcyc, List.mem_cons, List.not_mem_nil, or_false] at hmt hnb
          simp at hnd
          obtain ⟨a1, a2, a3⟩ := hmt t1 (by simp)
          obtain ⟨b1, b2, b3⟩ := hmt t2 (by simp)
          obtain ⟨d1, d2, d3⟩ := hmt t3 (by simp)
          exact parity h hc hv hempty hg hP a1 b1 d1 a2 b2 d2 hnd.1.1 hnd.1.2 hnd.2 a3 b3 d3 (fun b _ hb => hnb b hb) (fun X b => by
            rw [hst]; omega)
      have R : Around C v c ps (treeList C v c) := by
        refine ⟨hv, hev, fun p hp => ?_, fun p hp => ?_, fun p hp => (hpair p hp).2.2.2, fun t ht => mem_tree h hv ht, tree_nodup h hv, ?_⟩
        · obtain ⟨k1, k2, k3, _⟩ := hpair p hp
          exact ⟨(mem_cyc h hv k1).1, (mem_cyc h hv k2).1, k3, (mem_cyc h hv k1).2.1, (mem_cyc h hv k2).2.1⟩
        · obtain ⟨k1, k2, _, _⟩ := hpair p hp
          have e1 := (mem_cyc h hv k1).2.2
          have e2 := (mem_cyc h hv k2).2.2
          omega
        · intro X b
          rw [star_split h hv]
          congr 1
          rw [(hperm.map _).sum_eq]
          clear hps hperm hpair hlen heven hsum' hdiv
          induction ps with
          | nil => rfl
          | cons p ps ih => simp only [List.flatMap_cons, List.map_append, List.sum_append, ih, List.map_cons, List.sum_cons, List.map_nil, List.sum_nil]; omega
      obtain ⟨J, hJ⟩ := addBetween_fold c ps [] C C.n h.valid h.simp0 h.ready (le_refl _) (fun p hp => by
        obtain ⟨k1, k2, k3, _⟩ := R.pair p hp
        exact ⟨k1, k2, k3⟩)
      have hnodes : (ps.foldl (addBetween c) (C, [])).2 ++ (treeNeighbors C v c).map (·.1) = (joints C.n ps).map (·.1) ++ treeList C v c := by
        rw [hJ]; rfl
      obtain ⟨a, b, d, hN⟩ : ∃ a b d, (joints C.n ps).map (·.1) ++ treeList C v c = [a, b, d] := by
        refine List.length_eq_three.1 ?_
        rw [List.length_append, List.length_map, joints_length]
        omega
      refine ⟨_, F, replace_spec R h hc hempty hcl J hN, fun p hp hp2 => ?_, fun fuel hf => ?_⟩
      · have hfr : (addTriangle (ps.foldl (addBetween c) (C, [])).1 (c / 2) a b d).fr = (ps.foldl (addBetween c) (C, [])).1.fr := by
          unfold addTriangle
          rw [newEdgeOrder_fr, newEdgeOrder_fr, newEdgeOrder_fr]
        obtain ⟨r1, _, r3, r4, _⟩ := fr_eq hfr
        have hJn := J.n
        have hvB : v < (addTriangle (ps.foldl (addBetween c) (C, [])).1 (c / 2) a b d).n := by omega
        obtain ⟨_, d2, d3⟩ := deleteVertex_tail hvB (le_refl _)
        rw [d2] at hp
        rw [d3] at hp2
        rw [(deleteVertex_tail hvB (by omega)).1, r4]
        exact J.clean h.room hcl p (by omega) (by omega)
      rw [if_neg (by omega), if_neg h2, if_pos h3, hps fuel hf _ (le_refl _), Option.map_some]
      rw [hnodes, hN]
      rfl
    · exact ⟨C, 0, h, hcl.tidy, fun fuel _ => by rw [if_neg (by omega), if_neg h2, if_neg h3]⟩

theorem canonize_spec (h : CactusOf E P C c) (hc : 0 < c) (hv : v < C.n) (hempty : C.cont v = []) (hcl : Clean C) {g : MGraph}
    (hg : Piece E g c) (hP : ∀ f, P f → Split g E c f) :
    ∃ C' F, CactusOf E P C' c ∧ ∀ fuel, F ≤ fuel → canonizeCactus fuel C v c = some C' := by
  obtain ⟨C', F, h1, _, h3⟩ := canonize_tidy h hc hv hempty hcl hg hP
  exact ⟨C', F, h1, h3⟩

end GraphModification
end VieCut
