import Verif.Proof.ParallelContract
import Verif.Proof.LocalFlow
import Verif.Proof.CactusOps
import Verif.Proof.MutableSimple

/-! # Parallel contraction of a mutable graph -/

namespace VieCut
open Finset Function

namespace PCT

theorem wt_newEdgeOrder {g : MGraph} (hg : MGraph.Valid g) {s t w : Nat} (hst : s ≠ t) (hs : s < g.n) (ht : t < g.n) {u v : Nat}
    (hu : u < g.n) : (g.newEdgeOrder s t w).toGraph.wt u v =
      g.toGraph.wt u v + (if (u = s ∧ v = t) ∨ (u = t ∧ v = s) then w else 0) := by
  unfold MGraph.newEdgeOrder
  split
  · rename_i h; exact wt_newEdge hg h ht hu
  · rw [if_pos (by omega), wt_newEdge hg (by omega) hs hu]
    congr 1
    simp only [or_comm]

theorem pack_ends {N k u v : Nat} (hN : N ≤ 2 ^ 32) (hk : Key N k) (hu : u < N) (hv : v < N) (huv : u ≠ v) :
    k = pack u v ↔ (u = fst k ∧ v = snd k) ∨ (u = snd k ∧ v = fst k) := by
  constructor
  · rintro rfl
    rcases Nat.lt_or_ge v u with h | h
    · exact Or.inr ⟨(snd_pack h (by omega)).symm, (fst_pack h (by omega)).symm⟩
    · rw [pack_comm]
      exact Or.inl ⟨(fst_pack (by omega) (by omega)).symm, (snd_pack (by omega) (by omega)).symm⟩
  · rintro (⟨rfl, rfl⟩ | ⟨rfl, rfl⟩)
    · rw [pack_comm]; exact hk.pack.symm
    · exact hk.pack.symm

theorem addKeys {N : Nat} (hN : N ≤ 2 ^ 32) (weight : Nat → Nat) (l : List Nat) : ∀ {g : MGraph}, g.n = N → MGraph.Valid g →
    MGraph.Simple g [] → (∀ k ∈ l, Key N k) → l.Nodup → (∀ k ∈ l, g.cnt (fst k) (snd k) = 0) →
    (l.foldl (fun g k => g.newEdgeOrder (fst k) (snd k) (weight k)) g).n = N ∧
    MGraph.Valid (l.foldl (fun g k => g.newEdgeOrder (fst k) (snd k) (weight k)) g) ∧
    MGraph.Simple (l.foldl (fun g k => g.newEdgeOrder (fst k) (snd k) (weight k)) g) [] ∧
    ∀ u v, u < N → v < N → u ≠ v →
      (l.foldl (fun g k => g.newEdgeOrder (fst k) (snd k) (weight k)) g).toGraph.wt u v =
        g.toGraph.wt u v + if pack u v ∈ l then weight (pack u v) else 0 := by
  induction l with
  | nil => intro g hn hg hs _ _ _; exact ⟨hn, hg, hs, fun u v _ _ _ => by simp⟩
  | cons k l ih =>
    intro g hn hg hs hk hnd h0
    obtain ⟨k1, k2⟩ := hk k (by simp)
    have hkl := (List.nodup_cons.1 hnd).1
    have hfs : fst k ≠ snd k := by omega
    have hf : fst k < g.n := by omega
    have hs' : snd k < g.n := by omega
    have hn' : (g.newEdgeOrder (fst k) (snd k) (weight k)).n = N := (g.n_newEdgeOrder _ _ _).trans hn
    obtain ⟨r1, r2, r3, r4⟩ := ih hn' (hg.newEdgeOrder _ hf hs') (MGraph.simple_newEdge hg hs hfs hf hs' (h0 k (by simp)) _)
      (fun x hx => hk x (by simp [hx])) (List.nodup_cons.1 hnd).2 (fun x hx => by
        rw [MGraph.cnt_newEdge hg hfs hf hs', h0 x (by simp [hx]), if_neg]
        have hxk := hk x (by simp [hx])
        rintro (⟨a, b⟩ | ⟨a, b⟩)
        · exact hkl (by rw [← (hk k (by simp)).pack, ← a, ← b, hxk.pack]; exact hx)
        · have := hxk.1; omega)
    refine ⟨r1, r2, r3, fun u v hu hv huv => ?_⟩
    rw [List.foldl_cons, r4 u v hu hv huv, wt_newEdgeOrder hg hfs hf hs' (by omega)]
    have he := pack_ends hN (hk k (by simp)) hu hv huv
    by_cases hc : k = pack u v
    · rw [if_pos (he.1 hc), if_neg (by rw [← hc]; exact hkl), if_pos (by rw [hc]; simp), hc, Nat.add_zero]
    · rw [if_neg (fun h => hc (he.2 h)), Nat.add_zero]
      simp [Ne.symm hc]

theorem writeM_spec {G : Graph} (hG : G.WF) {φ : Nat → Nat} {N T : Nat} (hN : N ≤ 2 ^ 32)
    (hφ : ∀ u, u < G.n → φ u < N) (hsurj : ∀ p, p < N → ∃ u, u < G.n ∧ φ u = p) {s : St} (h : Inv2 G φ T N s)
    {order : List Nat} (ho : order.Perm (List.range T)) :
    IsContraction G (writeM N s order).toGraph φ ∧ MGraph.Valid (writeM N s order) ∧ MGraph.Simple (writeM N s order) [] := by
  have hperm : ∀ k, (order.flatMap s.keys).count k = if (s.table k).isSome then 1 else 0 := by
    intro k
    rw [← h.keys k, (ho.flatMap_right _).count_eq]
    clear ho h
    induction T with
    | zero => simp
    | succ T ih => rw [List.range_succ, List.flatMap_append, List.count_append, ih, Finset.sum_range_succ]; simp
  have hmem : ∀ k, k ∈ order.flatMap s.keys ↔ (s.table k).isSome = true := by
    intro k
    rw [← List.count_pos_iff, hperm]
    split <;> simp [*]
  obtain ⟨r1, r2, r3, r4⟩ := addKeys hN (fun k => (s.table k).getD 0) (order.flatMap s.keys) (g := MGraph.start N) rfl
    (MGraph.Valid.start N) (by intro u v _ _ _ _; simp [MGraph.cnt, MGraph.start, MGraph.rowSum])
    (by
      intro k hk
      obtain ⟨t, ht, hk⟩ := List.mem_flatMap.1 hk
      exact h.key t (List.mem_range.1 (ho.mem_iff.1 ht)) k hk)
    (by rw [List.nodup_iff_count_le_one]; intro k; rw [hperm]; split <;> omega)
    (by intro k _; simp [MGraph.cnt, MGraph.start, MGraph.rowSum])
  have hv : MGraph.Valid (writeM N s order) := r2.of_eq rfl rfl rfl rfl rfl
  have hn : (writeM N s order).toGraph.n = N := by rw [MGraph.toGraph_n]; exact r1
  have hbw : ∀ p q, between G φ p q = ∑ u ∈ range G.n, ∑ v ∈ range G.n, if φ u = p ∧ φ v = q then G.wt u v else 0 := by
    intro p q
    unfold between
    refine Finset.sum_congr rfl fun u _ => ?_
    by_cases hu : φ u = p
    · simp [hu, sumMap_edges hG]
    · simp [hu]
  have hsym : ∀ p q, between G φ p q = between G φ q p := by
    intro p q
    rw [hbw, hbw, Finset.sum_comm]
    refine Finset.sum_congr rfl fun u hu => Finset.sum_congr rfl fun v hv => ?_
    rw [hG.symm v u (mem_range.1 hv) (mem_range.1 hu)]
    by_cases h1 : φ v = p <;> by_cases h2 : φ u = q <;> simp [h1, h2]
  refine ⟨⟨by rw [hn]; exact hφ, by rw [hn]; exact hsurj, hv.wf, ?_⟩, hv, r3⟩
  intro p q hp hq hpq
  rw [hn] at hp hq
  rw [← hbw]
  have hT : (s.table (pack p q)).getD 0 = between G φ p q := by
    rcases Nat.lt_or_ge q p with h1 | h1
    · exact h.val p q h1 hp
    · rw [pack_comm, hsym]; exact h.val q p (by omega) hq
  have h0 : (MGraph.start N).toGraph.wt p q = 0 := by
    rw [MGraph.toGraph_wt _ hp]; simp [MGraph.W, MGraph.start, MGraph.rowSum]
  refine (r4 p q hp hq hpq).trans ?_
  rw [h0, Nat.zero_add, ← hT]
  split
  · rfl
  · rename_i hm
    rw [hmem] at hm
    rw [Option.not_isSome_iff_eq_none.1 hm]; rfl

end PCT
end VieCut
