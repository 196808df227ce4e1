import Verif.Proof.MutableHistory
import Verif.Props.NOIMutable
import Verif.Proof.Inexact

/-!
# Contraction of a `mutable_graph` creates no parallel edges
-/

namespace VieCut
open Graph MGraph Function Finset

namespace MGraph

theorem newEdges_cnt {p : Nat} (w : Nat → Nat) (l : List Nat) : ∀ {g : MGraph}, Valid g → l.Nodup → (∀ t ∈ l, p < t ∧ t < g.n) →
    ∀ u v, u < v → (l.foldl (fun h t => h.newEdge p t (w t)) g).cnt u v = g.cnt u v + if u = p ∧ v ∈ l then 1 else 0 := by
  induction l with
  | nil => intro g hg _ _; simp
  | cons t l ih =>
    intro g hg hnd ht u v huv
    obtain ⟨h1, h2⟩ := ht t (by simp)
    obtain ⟨a1, a2, a3⟩ := newEdge_spec hg (w := w t) h1 h2
    rw [List.nodup_cons] at hnd
    have hn : (g.newEdge p t (w t)).n = g.n := by
      unfold pframe at a2; simp only [Prod.mk.injEq] at a2; exact a2.1
    rw [List.foldl_cons, ih a1 hnd.2 (fun x hx => by rw [hn]; exact ht x (by simp [hx])) u v huv]
    unfold cnt
    rw [a3]
    have e1 : (if u = t then (if p = v then 1 else 0) else 0) = 0 := by
      split
      · exact if_neg (by omega)
      · rfl
    rw [e1, Nat.add_zero, Nat.add_assoc]
    congr 1
    by_cases hup : u = p
    · by_cases hvt : v = t
      · subst hvt
        simp [hup, hnd.1]
      · simp [hup, hvt, Ne.symm hvt]
    · simp [hup]

theorem simple_of_upper {g : MGraph} (hg : Valid g) (h : ∀ u v, u < v → g.cnt u v ≤ 1) : Simple g [] := by
  intro u v hu _ hv _
  rcases Nat.lt_trichotomy u v with h1 | h1 | h1
  · exact h u v h1
  · subst h1
    rw [cnt_zero_of (fun e he => ((valid_iff.1 hg).1 u e hu he).2.2.2.2.2)]
    omega
  · rw [AV.cnt_symm hg hu (by simp) hv (by simp)]
    exact h v u h1

theorem sparse_cnt {n : Nat} {F : Nat → Nat → Nat} {G : Graph} {φ : Nat → Nat} {ord : Nat → List Nat → List Nat}
    (ho : IsOrder ord) (hlt : ∀ u, ∀ e ∈ G.edges u, φ e.1 < n) (rev : List (List Nat)) :
    ∀ (k : Nat) (g : MGraph) (w0 : Nat → Nat), SpInv n F k g → k + rev.length = n →
    (∀ i, i < rev.length → ∀ v, F (k + i) v = sumMap φ ((rev.getD i []).flatMap G.edges) v) →
    (∀ u v, u < v → g.cnt u v ≤ if u < k then 1 else 0) →
    ∀ u v, u < v → ((rev.zipIdx k).foldl (sparseStepM G φ ord) (g, w0)).1.cnt u v ≤ 1 := by
  induction rev with
  | nil =>
    intro k g w0 h hk _ hc u v huv
    refine le_trans (hc u v huv) ?_
    split <;> omega
  | cons c rest ih =>
    intro k g w0 h hk hF hc
    rw [List.zipIdx_cons, List.foldl_cons]
    simp only [List.length_cons] at hk
    have hlt' : ∀ e ∈ c.flatMap G.edges, φ e.1 < n := by
      intro e he
      obtain ⟨u, _, hu⟩ := List.mem_flatMap.1 he
      exact hlt u e hu
    have h' := h.step (by omega) (G := G) (φ := φ) ho (c := c) w0 (by
      intro v
      have := hF 0 (by simp) v
      simpa using this) hlt'
    have hcnt : ∀ u v, u < v → (sparseStepM G φ ord (g, w0) (c, k)).1.cnt u v ≤ if u < k + 1 then 1 else 0 := by
      unfold sparseStepM
      simp only
      obtain ⟨c1, c2, c3⟩ := collectM_spec φ k w0 (c.flatMap G.edges)
      generalize (c.flatMap G.edges).foldl (collectEdgeM φ k) ([], w0) = st at *
      have hn := h.n_eq
      have hperm := ho k st.1
      rw [newNode_of_lt (by rw [h.last, hn]; omega)]
      set g1 : MGraph := { g with lastNode := g.lastNode + 1 } with hg1
      have hv1 : Valid g1 := by
        have := h.valid
        rw [valid_iff] at this ⊢
        exact this
      intro u v huv
      rw [newEdges_cnt (p := k) st.2 (ord k st.1) hv1 (hperm.nodup_iff.2 c1) (by
        intro t ht
        obtain ⟨d1, _, e, he, d3⟩ := c2 t (hperm.mem_iff.1 ht)
        refine ⟨d1, ?_⟩
        have : g1.n = n := hn
        rw [this, ← d3]; exact hlt' e he) u v huv]
      have hg : g1.cnt u v = g.cnt u v := rfl
      rw [hg]
      have := hc u v huv
      split at this <;> split <;> split <;> omega
    have hsp : sparseStepM G φ ord (g, w0) (c, k) =
        ((sparseStepM G φ ord (g, w0) (c, k)).1, (sparseStepM G φ ord (g, w0) (c, k)).2) := rfl
    rw [hsp]
    refine ih (k + 1) _ _ h' (by omega) ?_ hcnt
    intro i hi v
    have := hF (i + 1) (by simp; omega) v
    simpa [Nat.add_assoc, Nat.add_comm 1 i] using this

theorem contractSparseM_simple {G : Graph} (hG : G.WF) (φ : Nat → Nat) (rev : List (List Nat))
    (ord : Nat → List Nat → List Nat) (ho : IsOrder ord) (hlt : ∀ u, u < G.n → φ u < rev.length)
    (hv : Valid (contractSparseM G φ rev ord)) : Simple (contractSparseM G φ rev ord) [] := by
  refine simple_of_upper hv ?_
  intro u v huv
  have := sparse_cnt (F := fun p q => sumMap φ ((rev.getD p []).flatMap G.edges) q) (G := G) (φ := φ) ho
    (n := rev.length) (fun u e he => hlt _ (hG.tgt_lt u e he)) rev 0 _ (fun _ => 0) (SpInv.start rev.length _)
    (by omega) (by intro i _ v; rw [Nat.zero_add]) (by
      intro u v _
      have : (MGraph.start rev.length).cnt u v = 0 := by simp [cnt, rowSum, MGraph.start]
      omega) u v huv
  exact this

theorem contractVertexsets_simple {g : MGraph} (hg : Valid g) (hL : Located g) (hr : HasRep g) {uf : UF} (hu : uf.Inv)
    (hs : uf.size = g.n) {ord : Nat → List Nat → List Nat} (ho : IsOrder ord) (h : Simple g []) :
    Simple (g.contractVertexsets (fuLoop g.n uf).rev ord) [] := by
  have hcl := fuLoop_classes hu
  rw [hs] at hcl
  have h0 : CVInv g g [] id := by
    refine ⟨hg, hL, rfl, isContraction_refl hg.wf, fun _ _ => rfl, ?_, fun h => h⟩
    intro p q _ _; simp
  obtain ⟨ψ, h'⟩ := CVInv.loop hL hr ho (fuLoop g.n uf).rev g [] id 0 h0 hcl.1 (by simp) hcl.2.1
  exact h'.simple h

theorem fromUnionFindM_simple {g : MGraph} (hg : Valid g) (hf : Fresh g) {uf : UF} (hu : uf.Inv)
    (hs : uf.size = g.n) {ord : Nat → List Nat → List Nat} (ho : IsOrder ord) (h : Simple g []) :
    Simple (g.fromUnionFindM uf true ord).1 [] := by
  have hval := (fromUnionFindM_copy_spec hg hf hu hs ho).1
  obtain ⟨h1, h2, h3, h4, h5⟩ := fuLoop_spec hu
  rw [hs] at h1 h2 h3 h4 h5
  unfold fromUnionFindM at hval ⊢
  rw [if_neg (by simp)] at hval ⊢
  simp only at hval ⊢
  by_cases hc : (fuLoop g.n uf).rev.length * 2 > g.n ∨ true = false
  · rw [if_pos hc]
    exact contractVertexsets_simple hg hf.located hf.hasRep hu hs ho h
  · rw [if_neg hc] at hval ⊢
    have hmapid : (fuLoop g.n uf).rev.map (fun c => c.map g.rep) = (fuLoop g.n uf).rev := by
      have hcl := (fuLoop_classes hu).1
      rw [hs] at hcl
      conv_rhs => rw [← List.map_id (fuLoop g.n uf).rev]
      refine List.map_congr_left fun c hc' => ?_
      conv_rhs => rw [id, ← List.map_id c]
      refine List.map_congr_left fun p hp => ?_
      exact hf.rep ((hcl c hc').1 p hp)
    rw [hmapid] at hval ⊢
    exact contractSparseM_simple hg.wf _ _ _ ho (fun u hu' => by rw [h4]; rw [toGraph_n] at hu'; exact h1 u hu') hval

end MGraph

theorem fromUnionFindM_ok_simple {ord : Nat → List Nat → List Nat} (ho : IsOrder ord) :
    ContractOK (fun g : MGraph => Valid g ∧ Fresh g ∧ Simple g []) (fun H uf => fromUnionFindM H uf true ord) := by
  intro g uf hg hu hs
  have hs' : uf.size = g.n := by rw [hs]; exact toGraph_n g
  obtain ⟨h1, h2⟩ := fromUnionFindM_ok ho g uf ⟨hg.1, hg.2.1⟩ hu hs
  exact ⟨⟨h1.1, h1.2, fromUnionFindM_simple hg.1 hg.2.1 hu hs' ho hg.2.2⟩, h2⟩

theorem simpleWF_of_mutable {g : MGraph} (hg : Valid g) (hs : Simple g []) : SimpleWF g.toGraph := by
  refine ⟨hg.wf, ?_⟩
  intro u hu
  rw [toGraph_n] at hu
  have hnp := noParallel_of_simple hg hs
  rw [toGraph_edges g hu, List.map_map, List.nodup_map_iff_inj_on List.nodup_range]
  intro a ha b hb he
  exact hnp u hu a (by simpa using ha) b (by simpa using hb) he

end VieCut
