import Verif.Proof.STCactusPath

/-!
# The contracted graph of `findSTCactus`: an edge between every two components
-/

namespace VieCut
open Finset MGraph Function

namespace STCactus

theorem newEdge_edge_old {g : MGraph} {s t w x i : Nat} (hi : i < g.len x) : (g.newEdge s t w).edge x i = g.edge x i := by
  unfold newEdge
  split
  · rename_i h
    simp only [pushEdge_edge, pushEdge_len]
    rw [if_neg, if_neg]
    · rintro ⟨rfl, rfl⟩; exact absurd hi (lt_irrefl _)
    · rintro ⟨rfl, rfl⟩
      rw [update_of_ne (by omega)] at hi
      exact absurd hi (lt_irrefl _)
  · rfl

theorem newEdge_len {g : MGraph} {s t w : Nat} (h : s < t) (x : Nat) :
    (g.newEdge s t w).len x = g.len x + if x = s ∨ x = t then 1 else 0 := by
  unfold newEdge
  rw [if_pos h]
  simp only [pushEdge_len]
  by_cases h1 : x = t
  · subst h1
    rw [update_self, update_of_ne (by omega)]; simp
  · rw [update_of_ne h1]
    by_cases h2 : x = s
    · subst h2; rw [update_self]; simp
    · rw [update_of_ne h2]; simp [h1, h2]

theorem newEdge_edge_new {g : MGraph} {s t w : Nat} (h : s < t) : ((g.newEdge s t w).edge t (g.len t)).target = s := by
  unfold newEdge
  rw [if_pos h]
  simp only [pushEdge_edge, pushEdge_len]
  rw [update_of_ne (by omega)]; simp

theorem newEdge_edge_src {g : MGraph} {s t w : Nat} (h : s < t) : ((g.newEdge s t w).edge s (g.len s)).target = t := by
  unfold newEdge
  rw [if_pos h]
  simp only [pushEdge_edge, pushEdge_len]
  rw [if_neg (by omega)]; simp

/-- The edges that exist after the outer loop reached `x0` and the inner loop `y0`. -/
def Done (x0 y0 u v : Nat) : Prop := u < x0 ∨ (u = x0 ∧ v < y0)

instance (x0 y0 u v : Nat) : Decidable (Done x0 y0 u v) := by unfold Done; infer_instance

structure PairsInv (k : Nat) (h : MGraph) (x0 y0 : Nat) : Prop where
  valid : Valid h
  n : h.n = k
  cnt : ∀ u v, u < v → v < k → h.cnt u v = if Done x0 y0 u v then 1 else 0
  low : ∀ u v, u < v → v < k → Done x0 y0 u v → u < h.len v ∧ (h.edge v u).target = u
  up : ∀ u v, u < v → v < k → Done x0 y0 u v → v - 1 < h.len u ∧ (h.edge u (v - 1)).target = v
  cur : x0 < k → h.len x0 = max x0 (y0 - 1)
  len : ∀ v, x0 < v → v < k → h.len v = if v < y0 then x0 + 1 else x0
  zero : ∀ u e, (h.edge u e).weight = 0

theorem newEdge_zero {g : MGraph} {s t : Nat} (h : ∀ u e, (g.edge u e).weight = 0) (u e : Nat) :
    ((g.newEdge s t 0).edge u e).weight = 0 := by
  unfold newEdge
  split
  · simp only [pushEdge_edge, pushEdge_len]
    split
    · rfl
    · split
      · rfl
      · exact h u e
  · exact h u e

theorem PairsInv.step {k : Nat} {h : MGraph} {x0 y0 : Nat} (H : PairsInv k h x0 y0) (hy : y0 < k) :
    PairsInv k (if x0 < y0 then h.newEdge x0 y0 0 else h) x0 (y0 + 1) := by
  by_cases hxy : x0 < y0
  · rw [if_pos hxy]
    obtain ⟨b1, b2, b3⟩ := newEdge_spec H.valid (w := 0) hxy (by rw [H.n]; exact hy)
    have hl0 : h.len y0 = x0 := by rw [H.len y0 hxy hy, if_neg (lt_irrefl _)]
    have hl1 : h.len x0 = y0 - 1 := by rw [H.cur (by omega)]; omega
    refine ⟨b1, (Cactus.newEdge_frame _ _ _ _).1.trans H.n, fun u v huv hv => ?_, fun u v huv hv hd => ?_, fun u v huv hv hd => ?_, fun hv => ?_,
      fun v hv hvk => ?_, newEdge_zero H.zero⟩
    · unfold MGraph.cnt
      rw [b3]
      have hc := H.cnt u v huv hv
      unfold MGraph.cnt at hc
      rw [hc]
      unfold Done
      by_cases h1 : u = x0
      · subst h1
        by_cases h2 : v = y0
        · subst h2
          simp
          intro hh; omega
        · have e1 : (v < y0 + 1) ↔ v < y0 := by omega
          have e2 : ¬ y0 = v := fun hh => h2 hh.symm
          simp [e1, e2]
          intro hh; omega
      · have e2 : ¬ (u = y0 ∧ x0 = v) := by omega
        by_cases h3 : u = y0
        · have : ¬ x0 = v := fun hh => e2 ⟨h3, hh⟩
          simp [h1, this]
        · simp [h1, h3]
    · by_cases hnew : u = x0 ∧ v = y0
      · obtain ⟨rfl, rfl⟩ := hnew
        have := newEdge_edge_new (g := h) (w := 0) hxy
        rw [hl0] at this
        refine ⟨?_, this⟩
        rw [newEdge_len hxy, hl0]
        simp
      · have hd' : Done x0 y0 u v := by unfold Done at hd ⊢; omega
        obtain ⟨q1, q2⟩ := H.low u v huv hv hd'
        refine ⟨?_, by rw [newEdge_edge_old q1]; exact q2⟩
        rw [newEdge_len hxy]; omega
    · by_cases hnew : u = x0 ∧ v = y0
      · obtain ⟨rfl, rfl⟩ := hnew
        have := newEdge_edge_src (g := h) (w := 0) hxy
        rw [hl1] at this
        refine ⟨?_, this⟩
        rw [newEdge_len hxy, hl1]
        simp
      · have hd' : Done x0 y0 u v := by unfold Done at hd ⊢; omega
        obtain ⟨q1, q2⟩ := H.up u v huv hv hd'
        refine ⟨?_, by rw [newEdge_edge_old q1]; exact q2⟩
        rw [newEdge_len hxy]; omega
    · rw [newEdge_len hxy, hl1]; simp; omega
    · rw [newEdge_len hxy, H.len v hv hvk]
      split <;> split <;> split <;> omega
  · rw [if_neg hxy]
    refine ⟨H.valid, H.n, fun u v huv hv => ?_, fun u v huv hv hd => ?_, fun u v huv hv hd => ?_, fun hv => ?_, fun v hv hvk => ?_, H.zero⟩
    · rw [H.cnt u v huv hv]
      have : Done x0 (y0 + 1) u v ↔ Done x0 y0 u v := by unfold Done; omega
      simp only [this]
    · exact H.low u v huv hv (by unfold Done at hd ⊢; omega)
    · exact H.up u v huv hv (by unfold Done at hd ⊢; omega)
    · rw [H.cur hv]; omega
    · rw [H.len v hv hvk]
      split <;> split <;> omega

theorem pairs_inner {k : Nat} {x0 : Nat} : ∀ (y0 : Nat), y0 ≤ k → ∀ h : MGraph, PairsInv k h x0 0 →
    PairsInv k ((List.range y0).foldl (fun h y => if x0 < y then h.newEdge x0 y 0 else h) h) x0 y0 := by
  intro y0
  induction y0 with
  | zero => intro _ h H; exact H
  | succ y0 ih =>
    intro hy h H
    rw [List.range_succ, List.foldl_append]
    exact (ih (by omega) h H).step (by omega)

theorem PairsInv.outer {k : Nat} {h : MGraph} {x0 : Nat} (H : PairsInv k h x0 k) : PairsInv k h (x0 + 1) 0 := by
  have hd : ∀ u v, v < k → (Done (x0 + 1) 0 u v ↔ Done x0 k u v) := by intro u v hv; unfold Done; omega
  refine ⟨H.valid, H.n, fun u v huv hv => ?_, fun u v huv hv hd' => H.low u v huv hv ((hd u v hv).1 hd'),
    fun u v huv hv hd' => H.up u v huv hv ((hd u v hv).1 hd'), fun hv => ?_, fun v hv hvk => ?_, H.zero⟩
  · rw [H.cnt u v huv hv]
    simp only [hd u v hv]
  · rw [H.len (x0 + 1) (by omega) hv, if_pos hv]; simp
  · rw [H.len v (by omega) hvk, if_pos hvk]; simp

theorem foldl_n_pairs (x : Nat) (l : List Nat) : ∀ h : MGraph, (l.foldl (fun (h : MGraph) y => if x < y then h.newEdge x y 0 else h) h).n = h.n := by
  induction l with
  | nil => intro h; rfl
  | cons a l ih =>
    intro h
    rw [List.foldl_cons, ih]
    split
    · exact (Cactus.newEdge_frame _ _ _ _).1
    · rfl

/-- The parts of the graph that new edges do not change. -/
def keeps (g : MGraph) := (g.n, g.pos, g.posSize, g.cont, g.contSize, g.origNodes, g.lastNode)

theorem newEdge_keeps (g : MGraph) (s t w : Nat) : keeps (g.newEdge s t w) = keeps g := by
  unfold newEdge
  split <;> rfl

theorem setEdgeWeight_keeps (g : MGraph) (s t w : Nat) : keeps (g.setEdgeWeight s t w) = keeps g := rfl

theorem foldl_keeps {α : Type} (f : MGraph → α → MGraph) (hf : ∀ g a, keeps (f g a) = keeps g) (l : List α) :
    ∀ g, keeps (l.foldl f g) = keeps g := by
  induction l with
  | nil => intro g; rfl
  | cons a l ih => intro g; rw [List.foldl_cons, ih, hf]

theorem allPairs_keeps (g : MGraph) : keeps (allPairs g) = keeps g := by
  unfold allPairs
  refine foldl_keeps _ (fun g a => foldl_keeps _ (fun g b => ?_) _ g) _ g
  split
  · exact newEdge_keeps _ _ _ _
  · rfl

theorem addWeights_keeps (v : Nat → Nat) (G g : MGraph) : keeps (addWeights v G g) = keeps g := by
  unfold addWeights
  refine foldl_keeps _ (fun g a => foldl_keeps _ (fun g b => ?_) _ g) _ g
  dsimp only
  split
  · exact setEdgeWeight_keeps _ _ _ _
  · rfl

theorem allPairs_inv {k : Nat} {h : MGraph} (hv : Valid h) (hn : h.n = k) (h0 : ∀ u, h.len u = 0) (hz : ∀ u e, (h.edge u e).weight = 0) :
    PairsInv k (allPairs h) k 0 := by
  have key : ∀ x0, x0 ≤ k → PairsInv k ((List.range x0).foldl (fun h x => (List.range h.n).foldl (fun h y => if x < y then h.newEdge x y 0 else h) h) h) x0 0 := by
    intro x0
    induction x0 with
    | zero =>
      intro _
      refine ⟨hv, hn, fun u v huv hv => ?_, fun u v huv hv hd => ?_, fun u v huv hv hd => ?_, fun _ => h0 0, fun v hv hvk => ?_, hz⟩
      · have : ¬ Done 0 0 u v := by unfold Done; omega
        rw [if_neg this]
        show h.cnt u v = 0
        unfold MGraph.cnt rowSum
        rw [h0 u]; simp
      · unfold Done at hd; omega
      · unfold Done at hd; omega
      · show h.len v = _
        rw [h0 v]; simp
    | succ x0 ih =>
      intro hx
      rw [List.range_succ, List.foldl_append]
      simp only [List.foldl_cons, List.foldl_nil]
      have H := ih (by omega)
      have := pairs_inner k (le_refl k) _ H
      rw [H.n]
      exact this.outer
  unfold allPairs
  rw [hn]
  exact key k (le_refl k)

/-- A graph with exactly one edge between every two vertices, whose weights are `F`.  The edges to smaller vertices come first. -/
structure Table (k : Nat) (h : MGraph) (F : Nat → Nat → Nat) : Prop where
  valid : Valid h
  n : h.n = k
  cnt : ∀ u v, u < v → v < k → h.cnt u v = 1
  low : ∀ u v, u < v → v < k → u < h.len v ∧ (h.edge v u).target = u
  up : ∀ u v, u < v → v < k → v - 1 < h.len u ∧ (h.edge u (v - 1)).target = v
  wt : ∀ u v, u < v → v < k → h.W v u = F v u

theorem allPairs_table {k : Nat} {h : MGraph} (hv : Valid h) (hn : h.n = k) (h0 : ∀ u, h.len u = 0) (hz : ∀ u e, (h.edge u e).weight = 0) :
    Table k (allPairs h) (fun _ _ => 0) := by
  have H := allPairs_inv hv hn h0 hz
  have hd : ∀ u v, u < v → v < k → Done k 0 u v := by intro u v huv hv; unfold Done; omega
  refine ⟨H.valid, H.n, fun u v huv hv => ?_, fun u v huv hv => H.low u v huv hv (hd u v huv hv),
    fun u v huv hv => H.up u v huv hv (hd u v huv hv), fun u v huv hv => ?_⟩
  · rw [H.cnt u v huv hv, if_pos (hd u v huv hv)]
  · unfold W rowSum
    refine Finset.sum_eq_zero fun e _ => ?_
    rw [H.zero]; simp

/-- An edge to a vertex is the only one. -/
theorem W_eq_weight {h : MGraph} {u v e : Nat} (he : e < h.len u) (ht : (h.edge u e).target = v) (hc : h.cnt u v ≤ 1) :
    h.W u v = (h.edge u e).weight := by
  unfold W rowSum
  rw [Finset.sum_eq_single e]
  · exact if_pos ht
  · intro e' he' hne
    refine if_neg ?_
    intro ht'
    unfold MGraph.cnt rowSum at hc
    dsimp only at hc
    have := Finset.sum_le_sum_of_subset (f := fun e => if (h.edge u e).target = v then 1 else 0) (s := {e, e'}) (t := range (h.len u))
      (by intro x hx; simp at hx; rcases hx with rfl | rfl; exact mem_range.2 he; exact he')
    rw [Finset.sum_pair (Ne.symm hne)] at this
    simp only [ht, ht', if_true] at this
    omega
  · intro h'; exact absurd (mem_range.2 he) h'

theorem cnt_symm {h : MGraph} (hv : Valid h) {u v : Nat} (hu : u < h.n) (hv' : v < h.n) : h.cnt u v = h.cnt v u := by
  unfold MGraph.cnt
  exact hv.symm hu (by simp) hv' (by simp) (fun _ => 1)

theorem setEdgeWeight_target (g : MGraph) (u e w a b : Nat) : ((g.setEdgeWeight u e w).edge a b).target = (g.edge a b).target := by
  unfold setEdgeWeight
  simp only [setEdge_edge]
  split
  · rename_i h
    obtain ⟨rfl, rfl⟩ := h
    split
    · rename_i h
      have h1 := h.1
      have h2 := h.2
      show (g.edge u e).target = (g.edge (g.edge u e).target (g.edge u e).rev).target
      rw [h2, h1, h1]
    · rfl
  · split
    · rename_i h
      obtain ⟨rfl, rfl⟩ := h
      rfl
    · rfl

theorem Table.step {k : Nat} {h : MGraph} {F : Nat → Nat → Nat} (H : Table k h F) {x y : Nat} (hyx : y < x) (hx : x < k) (w : Nat) :
    Table k (h.setEdgeWeight x y (w + (h.edge x y).weight)) (fun a b => F a b + if a = x ∧ b = y then w else 0) := by
  obtain ⟨hl, ht⟩ := H.low y x hyx hx
  obtain ⟨b1, b2, b3⟩ := setEdgeWeight_spec H.valid (u := x) (e := y) (by rw [H.n]; exact hx) hl (w + (h.edge x y).weight)
  rw [ht] at b3
  refine ⟨b1, H.n, fun u v huv hv => ?_, fun u v huv hv => ?_, fun u v huv hv => ?_, fun u v huv hv => ?_⟩
  · have := b3 (fun a _ => if a = v then 1 else 0) u
    have h2 := H.cnt u v huv hv
    unfold MGraph.cnt at h2 ⊢
    omega
  · rw [setEdgeWeight_target]
    exact H.low u v huv hv
  · rw [setEdgeWeight_target]
    exact H.up u v huv hv
  · have h1 := b3 (fun a w => if a = u then w else 0) v
    have h2 := H.wt u v huv hv
    unfold W at h2 ⊢
    by_cases e1 : v = x
    · subst e1
      have e3 : ¬ v = y := by omega
      by_cases e2 : u = y
      · subst e2
        simp only [e3, if_true, if_false, and_self] at h1 ⊢
        omega
      · have : ¬ y = u := fun hh => e2 hh.symm
        simp only [e3, e2, this, if_true, if_false, and_false] at h1 ⊢
        omega
    · by_cases e4 : v = y
      · have : ¬ x = u := by omega
        simp only [e1, e4, this, if_true, if_false, false_and] at h1 ⊢
        rw [e4] at h2
        by_cases e5 : y = x
        · omega
        · simp only [e5, if_false, false_and] at h1 ⊢
          omega
      · simp only [e1, e4, if_false, false_and] at h1 ⊢
        omega

/-- Sum of the edge weights between two classes. -/
def classW (n : Nat) (w : Nat → Nat → Nat) (lab : Nat → Nat) (p q : Nat) : Nat :=
  ∑ u ∈ range n, ∑ v ∈ range n, if lab u = p ∧ lab v = q then w u v else 0

theorem Table.congr {k : Nat} {h : MGraph} {F F' : Nat → Nat → Nat} (H : Table k h F) (e : ∀ u v, u < v → v < k → F v u = F' v u) :
    Table k h F' := ⟨H.valid, H.n, H.cnt, H.low, H.up, fun u v huv hv => (H.wt u v huv hv).trans (e u v huv hv)⟩

theorem addWeights_table {k : Nat} {lab : Nat → Nat} {G : MGraph} (hG : Valid G) (hlab : ∀ u, u < G.n → lab u < k) {h : MGraph}
    (H : Table k h (fun _ _ => 0)) : Table k (addWeights lab G h) (classW G.n G.W lab) := by
  -- one edge
  have hstep : ∀ u, u < G.n → ∀ j, j ≤ G.len u → ∀ (h : MGraph) (F : Nat → Nat → Nat), Table k h F →
      Table k ((List.range j).foldl (fun h e =>
        let ctr := lab (G.edge u e).target
        if lab u > ctr then
          let e_ctr := ctr - if ctr > lab u then 1 else 0
          h.setEdgeWeight (lab u) e_ctr ((G.edge u e).weight + (h.edge (lab u) e_ctr).weight)
        else h) h) (fun a b => F a b + ∑ e ∈ range j, if lab u = a ∧ lab (G.edge u e).target = b then (G.edge u e).weight else 0) := by
    intro u hu j
    induction j with
    | zero => intro _ h F H; simpa using H
    | succ j ih =>
      intro hj h F H
      rw [List.range_succ, List.foldl_append]
      simp only [List.foldl_cons, List.foldl_nil]
      have H' := ih (by omega) h F H
      by_cases hc : lab u > lab (G.edge u j).target
      · rw [if_pos hc]
        have hno : ¬ lab (G.edge u j).target > lab u := by omega
        rw [if_neg hno]
        simp only [Nat.sub_zero]
        refine (H'.step hc (hlab u hu) (G.edge u j).weight).congr fun a b hab hb => ?_
        rw [Finset.sum_range_succ, ← Nat.add_assoc]
        congr 1
        by_cases e1 : b = lab u <;> by_cases e2 : a = lab (G.edge u j).target
        · subst e1 e2; simp
        · simp [e2, Ne.symm e2]
        · simp [e1, Ne.symm e1]
        · simp [e1, Ne.symm e1]
      · rw [if_neg hc]
        refine H'.congr fun a b hab hb => ?_
        rw [Finset.sum_range_succ, ← Nat.add_assoc]
        rw [if_neg (c := lab u = b ∧ _)]
        · omega
        · rintro ⟨rfl, rfl⟩; exact hc hab
  have houter : ∀ j, j ≤ G.n → Table k ((List.range j).foldl (fun h u => (List.range (G.len u)).foldl (fun h e =>
      let ctr := lab (G.edge u e).target
      if lab u > ctr then
        let e_ctr := ctr - if ctr > lab u then 1 else 0
        h.setEdgeWeight (lab u) e_ctr ((G.edge u e).weight + (h.edge (lab u) e_ctr).weight)
      else h) h) h) (fun a b => ∑ u ∈ range j, ∑ v ∈ range G.n, if lab u = a ∧ lab v = b then G.W u v else 0) := by
    intro j
    induction j with
    | zero => intro _; simpa using H
    | succ j ih =>
      intro hj
      rw [List.range_succ, List.foldl_append]
      simp only [List.foldl_cons, List.foldl_nil]
      refine (hstep j (by omega) _ (le_refl _) _ _ (ih (by omega))).congr fun a b hab hb => ?_
      rw [Finset.sum_range_succ]
      congr 1
      by_cases hl : lab j = b
      · simp only [hl, true_and]
        exact rowSum_fiber (g := G) (u := j) (m := G.n) (fun e he => (hG.pv j e ⟨by omega, by simp, he⟩).2.1.1) (fun v => lab v = a)
      · simp [hl]
  exact houter G.n (le_refl _)

end STCactus
end VieCut
