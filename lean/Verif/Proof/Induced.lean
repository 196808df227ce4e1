import Verif.Spec.Structure
import Verif.Proof.Tools
import Verif.Proof.Cut
import Mathlib.Data.List.Nodup

/-! # Induced subgraphs and the result of `extract_block` -/

namespace VieCut

theorem CSR.toGraph_edges {h : CSR} {i : Nat} (hi : i < h.n) : h.toGraph.edges i = h.adj i := by
  unfold CSR.toGraph Graph.edges
  simp [List.getD_eq_getElem?_getD, List.getElem?_map, List.getElem?_range hi]

theorem CSR.toGraph_n {h : CSR} : h.toGraph.n = h.n := by simp [CSR.toGraph, Graph.n]

theorem extractBlock_induced {G : Graph} (hG : G.WF) (inB : Nat → Bool) :
    ∃ h, extractBlock G inB = some (h, (exMap G.n inB).1) ∧
      InducedBy G h.toGraph ((List.range G.n).filter inB) ∧ h.n = blockRank inB G.n := by
  obtain ⟨h, a, b, c⟩ := extractBlock_spec hG inB
  have hsurj : ∀ i, i < h.n → ∃ v, v < G.n ∧ inB v = true ∧ blockRank inB v = i := by
    intro i hi
    have : i ∈ List.range (blockRank inB G.n) := by rw [← b]; simpa using hi
    rw [← blockRank_range inB G.n] at this
    obtain ⟨v, hv, rfl⟩ := List.mem_map.1 this
    obtain ⟨h1, h2⟩ := List.mem_filter.1 hv
    exact ⟨v, by simpa using h1, h2, rfl⟩
  have hname : ∀ v, v < G.n → inB v = true → ((List.range G.n).filter inB).getD (blockRank inB v) 0 = v :=
    fun v hv hb => blockNth_rank G.n inB hv hb
  refine ⟨h, a, { len := by rw [CSR.toGraph_n, b]; rfl, nodup := List.nodup_range.filter _, lt := ?_, tgt := ?_, row := ?_ }, b⟩
  · intro v hv
    simpa using (List.mem_filter.1 hv).1
  · intro i e he
    rw [CSR.toGraph_n]
    by_cases hi : i < h.n
    · rw [CSR.toGraph_edges hi] at he
      obtain ⟨v, hv, hb, rfl⟩ := hsurj i hi
      rw [c v hv hb] at he
      obtain ⟨e', he', rfl⟩ := List.mem_map.1 he
      obtain ⟨h1, h2⟩ := List.mem_filter.1 he'
      rw [b]
      exact blockRank_lt inB (hG.tgt_lt v e' h1) h2
    · rw [Graph.edges_of_ge (by rw [CSR.toGraph_n]; omega)] at he
      simp at he
  · intro i hi
    rw [CSR.toGraph_n] at hi
    rw [CSR.toGraph_edges hi]
    obtain ⟨v, hv, hb, rfl⟩ := hsurj i hi
    rw [c v hv hb, hname v hv hb, List.map_map]
    have e1 : ((G.edges v).filter (fun e => inB e.1)) =
        (G.edges v).filter (fun e => decide (e.1 ∈ (List.range G.n).filter inB)) := by
      refine List.filter_congr fun e he => ?_
      have := hG.tgt_lt v e he
      rw [Bool.eq_iff_iff]
      simp [this]
    rw [← e1]
    conv_rhs => rw [← List.map_id ((G.edges v).filter (fun e => inB e.1))]
    refine List.map_congr_left fun e he => ?_
    obtain ⟨h1, h2⟩ := List.mem_filter.1 he
    simp only [Function.comp]
    rw [hname e.1 (hG.tgt_lt v e h1) h2]; rfl

theorem InducedBy.name_inj {G H : Graph} {N : List Nat} (h : InducedBy G H N) {i j : Nat} (hi : i < H.n) (hj : j < H.n)
    (he : N.getD i 0 = N.getD j 0) : i = j := by
  have hi' : i < N.length := h.len ▸ hi
  have hj' : j < N.length := h.len ▸ hj
  rw [List.getD_eq_getElem?_getD, List.getD_eq_getElem?_getD, List.getElem?_eq_getElem hi',
    List.getElem?_eq_getElem hj'] at he
  exact (h.nodup.getElem_inj_iff).1 (by simpa using he)

theorem InducedBy.name_mem {G H : Graph} {N : List Nat} (h : InducedBy G H N) {i : Nat} (hi : i < H.n) :
    N.getD i 0 ∈ N := by
  have hi' : i < N.length := h.len ▸ hi
  rw [List.getD_eq_getElem?_getD, List.getElem?_eq_getElem hi']
  exact List.getElem_mem hi'

theorem InducedBy.wt {G H : Graph} {N : List Nat} (h : InducedBy G H N) {i j : Nat} (hi : i < H.n) (hj : j < H.n) :
    H.wt i j = G.wt (N.getD i 0) (N.getD j 0) := by
  unfold Graph.wt
  have h1 : ((G.edges (N.getD i 0)).filter (fun e => e.1 == N.getD j 0)) =
      (((G.edges (N.getD i 0)).filter (fun e => decide (e.1 ∈ N))).filter (fun e => e.1 == N.getD j 0)) := by
    rw [List.filter_filter]
    refine List.filter_congr fun e _ => ?_
    rw [Bool.eq_iff_iff]
    simp only [beq_iff_eq, Bool.and_eq_true, decide_eq_true_eq]
    constructor
    · intro h1; exact ⟨h1, h1 ▸ h.name_mem hj⟩
    · exact fun h1 => h1.1
  rw [h1, ← h.row i hi, List.filter_map, List.map_map]
  have h2 : (H.edges i).filter (fun e => e.1 == j) =
      (H.edges i).filter ((fun e : Nat × Nat => e.1 == N.getD j 0) ∘ (fun e => (N.getD e.1 0, e.2))) := by
    refine List.filter_congr fun e he => ?_
    rw [Bool.eq_iff_iff]
    simp only [beq_iff_eq, Function.comp]
    constructor
    · intro h1; rw [h1]
    · exact fun h1 => h.name_inj (h.tgt i e he) hj h1
  rw [h2]
  rfl

theorem InducedBy.wf {G H : Graph} {N : List Nat} (h : InducedBy G H N) (hG : G.WF) : H.WF := by
  refine ⟨h.tgt, ?_, ?_⟩
  · intro i e he heq
    by_cases hi : i < H.n
    · have h1 : (N.getD e.1 0, e.2) ∈ (H.edges i).map (fun e => (N.getD e.1 0, e.2)) := List.mem_map_of_mem he
      rw [h.row i hi, heq] at h1
      exact hG.no_loop _ _ (List.mem_filter.1 h1).1 rfl
    · rw [Graph.edges_of_ge (by omega)] at he
      simp at he
  · intro i j hi hj
    rw [h.wt hi hj, h.wt hj hi]
    exact hG.symm _ _ (h.lt _ (h.name_mem hi)) (h.lt _ (h.name_mem hj))

theorem InducedBy.len_row {G H : Graph} {N : List Nat} (h : InducedBy G H N) {i : Nat} (hi : i < H.n) :
    (H.edges i).length = ((G.edges (N.getD i 0)).filter (fun e => decide (e.1 ∈ N))).length := by
  rw [← h.row i hi, List.length_map]

end VieCut
