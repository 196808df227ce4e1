import Verif.Model.GraphModification
import Verif.Proof.HeavyLeaf

/-!
# Gluing two cactuses at a vertex
-/

namespace VieCut
namespace MGraph
open Function Finset

/-- Every edge is seen from both ends. -/
theorem half_swap {g : MGraph} (hg : Valid g) (F : Nat → Nat → Nat → Nat) :
    ∑ n ∈ range g.n, rowSum g (fun t w => F n t w) n = ∑ n ∈ range g.n, rowSum g (fun t w => F t n w) n := by
  have hv := (valid_iff.1 hg).1
  unfold rowSum
  rw [Finset.sum_sigma' (range g.n) (fun n => range (g.len n)), Finset.sum_sigma' (range g.n) (fun n => range (g.len n))]
  refine Finset.sum_bij' (fun x _ => ⟨(g.edge x.1 x.2).target, (g.edge x.1 x.2).rev⟩)
    (fun x _ => ⟨(g.edge x.1 x.2).target, (g.edge x.1 x.2).rev⟩) ?_ ?_ ?_ ?_ ?_
  · rintro ⟨u, e⟩ hx
    simp only [mem_sigma, mem_range] at hx ⊢
    exact ⟨(hv u e hx.1 hx.2).1, (hv u e hx.1 hx.2).2.1⟩
  · rintro ⟨u, e⟩ hx
    simp only [mem_sigma, mem_range] at hx ⊢
    exact ⟨(hv u e hx.1 hx.2).1, (hv u e hx.1 hx.2).2.1⟩
  · rintro ⟨u, e⟩ hx
    simp only [mem_sigma, mem_range] at hx
    obtain ⟨_, _, h3, h4, _⟩ := hv u e hx.1 hx.2
    simp only [h3, h4]
  · rintro ⟨u, e⟩ hx
    simp only [mem_sigma, mem_range] at hx
    obtain ⟨_, _, h3, h4, _⟩ := hv u e hx.1 hx.2
    simp only [h3, h4]
  · rintro ⟨u, e⟩ hx
    simp only [mem_sigma, mem_range] at hx
    obtain ⟨_, _, h3, _, h5, _⟩ := hv u e hx.1 hx.2
    simp only [h3, h5]

/-- Many calls of `new_edge`. -/
theorem newEdges_all {h : MGraph} (hh : Valid h) (Q : Nat → Prop) : ∀ (L : List (Nat × Nat × Nat)), (∀ x ∈ L, x.2.1 < h.n) →
    Valid (L.foldl (fun g x => g.newEdge x.1 x.2.1 x.2.2) h) ∧ (L.foldl (fun g x => g.newEdge x.1 x.2.1 x.2.2) h).fr = h.fr ∧
    (∀ f a, rowSum (L.foldl (fun g x => g.newEdge x.1 x.2.1 x.2.2) h) f a = rowSum h f a +
      (L.map (fun x => if x.1 < x.2.1 then (if a = x.1 then f x.2.1 x.2.2 else 0) + (if a = x.2.1 then f x.1 x.2.2 else 0) else 0)).sum) ∧
    (∀ X, (L.foldl (fun g x => g.newEdge x.1 x.2.1 x.2.2) h).cv X = h.cv X +
      (L.map (fun x => if x.1 < x.2.1 then (if X x.1 = X x.2.1 then 0 else x.2.2) else 0)).sum) ∧
    (AllW Q h → (∀ x ∈ L, Q x.2.2) → AllW Q (L.foldl (fun g x => g.newEdge x.1 x.2.1 x.2.2) h)) := by
  intro L
  induction L using List.reverseRecOn with
  | nil => intro _; exact ⟨hh, rfl, by simp, by simp, fun h _ => h⟩
  | append_singleton L x ih =>
    intro hL
    obtain ⟨i1, i2, i3, i4, i5⟩ := ih fun y hy => hL y (List.mem_append_left _ hy)
    rw [List.foldl_append, List.foldl_cons, List.foldl_nil]
    set g := L.foldl (fun g x => g.newEdge x.1 x.2.1 x.2.2) h with hgd
    have hn : g.n = h.n := (fr_eq i2).1
    have hx := hL x (by simp)
    by_cases hlt : x.1 < x.2.1
    · have heq : g.newEdge x.1 x.2.1 x.2.2 = g.newEdgeOrder x.1 x.2.1 x.2.2 := by
        unfold newEdgeOrder; rw [if_pos hlt]
      have hs : x.1 < g.n := by omega
      have ht : x.2.1 < g.n := by omega
      obtain ⟨a1, a2, a3⟩ := newEdgeOrder_all i1 (by omega) hs ht x.2.2
      rw [heq]
      refine ⟨a1, (newEdgeOrder_fr _ _ _ _).trans i2, ?_, ?_, ?_⟩
      · intro f a
        rw [a2, i3, List.map_append, List.sum_append, List.map_singleton, List.sum_singleton, if_pos hlt]
        omega
      · intro X
        rw [a3, i4, List.map_append, List.sum_append, List.map_singleton, List.sum_singleton, if_pos hlt]
        omega
      · intro hQ hL'
        exact allW_newEdge i1 (i5 hQ fun y hy => hL' y (List.mem_append_left _ hy)) (by omega) hs ht (hL' x (by simp))
    · have heq : g.newEdge x.1 x.2.1 x.2.2 = g := by
        unfold newEdge; rw [if_neg hlt]
      rw [heq]
      refine ⟨i1, i2, ?_, ?_, ?_⟩
      · intro f a
        rw [i3, List.map_append, List.sum_append, List.map_singleton, List.sum_singleton, if_neg hlt]
        omega
      · intro X
        rw [i4, List.map_append, List.sum_append, List.map_singleton, List.sum_singleton, if_neg hlt]
        omega
      · intro hQ hL'
        exact i5 hQ fun y hy => hL' y (List.mem_append_left _ hy)

/-- The half edges of a graph, with the ends renamed by `ν`. -/
def halfEdges (g : MGraph) (ν : Nat → Nat) : List (Nat × Nat × Nat) :=
  (List.range g.n).flatMap fun n => (List.range (g.len n)).map fun e => (ν n, ν (g.edge n e).target, (g.edge n e).weight)

theorem halfEdges_sum (g : MGraph) (ν : Nat → Nat) (F : Nat × Nat × Nat → Nat) :
    ((halfEdges g ν).map F).sum = ∑ n ∈ range g.n, rowSum g (fun t w => F (ν n, ν t, w)) n := by
  unfold halfEdges rowSum
  generalize g.n = k
  induction k with
  | zero => simp
  | succ k ih =>
    rw [List.range_succ, List.flatMap_append, List.map_append, List.sum_append, ih, Finset.sum_range_succ]
    congr 1
    rw [List.flatMap_singleton, List.map_map]
    generalize g.len k = m
    induction m with
    | zero => simp
    | succ m ih2 => rw [List.range_succ, List.map_append, List.sum_append, ih2, Finset.sum_range_succ]; simp

/-- A copy of `g` is added to `h`: every vertex `u` of `g` becomes the vertex `ν u` of `h`. -/
theorem copy_all {h g : MGraph} (hh : Valid h) (hg : Valid g) {ν : Nat → Nat} (hν : ∀ u, u < g.n → ν u < h.n)
    (hinj : ∀ u v, u < g.n → v < g.n → ν u = ν v → u = v) (Q : Nat → Prop) :
    let r := (halfEdges g ν).foldl (fun g x => g.newEdge x.1 x.2.1 x.2.2) h
    Valid r ∧ r.fr = h.fr ∧
    (∀ f a, rowSum r f a = rowSum h f a + ∑ n ∈ range g.n, if a = ν n then rowSum g (fun t w => f (ν t) w) n else 0) ∧
    (∀ X, r.cv X = h.cv X + g.cv (fun u => X (ν u))) ∧ (AllW Q h → AllW Q g → AllW Q r) := by
  intro r
  have hv := (valid_iff.1 hg).1
  have hmem : ∀ x ∈ halfEdges g ν, ∃ n e, n < g.n ∧ e < g.len n ∧ x = (ν n, ν (g.edge n e).target, (g.edge n e).weight) := by
    intro x hx
    unfold halfEdges at hx
    rw [List.mem_flatMap] at hx
    obtain ⟨n, hn, hx⟩ := hx
    rw [List.mem_map] at hx
    obtain ⟨e, he, rfl⟩ := hx
    exact ⟨n, e, List.mem_range.1 hn, List.mem_range.1 he, rfl⟩
  obtain ⟨a1, a2, a3, a4, a5⟩ := newEdges_all hh Q (halfEdges g ν) (by
    intro x hx
    obtain ⟨n, e, hn, he, rfl⟩ := hmem x hx
    exact hν _ (hv n e hn he).1)
  refine ⟨a1, a2, ?_, ?_, ?_⟩
  · intro f a
    rw [a3, halfEdges_sum]
    congr 1
    have hsplit : ∀ n, n < g.n → rowSum g (fun t w => if ν n < ν t then (if a = ν n then f (ν t) w else 0) + (if a = ν t then f (ν n) w else 0) else 0) n
        = rowSum g (fun t w => if ν n < ν t ∧ a = ν n then f (ν t) w else 0) n
        + rowSum g (fun t w => if ν n < ν t ∧ a = ν t then f (ν n) w else 0) n := by
      intro n _
      unfold rowSum
      rw [← Finset.sum_add_distrib]
      refine Finset.sum_congr rfl fun e _ => ?_
      dsimp only
      by_cases h1 : ν n < ν (g.edge n e).target
      · rw [if_pos h1]; simp only [h1, true_and]
      · rw [if_neg h1, if_neg (fun hc => h1 hc.1), if_neg (fun hc => h1 hc.1)]
    rw [Finset.sum_congr rfl fun n hn => hsplit n (mem_range.1 hn), Finset.sum_add_distrib,
      half_swap hg (fun n t w => if ν n < ν t ∧ a = ν t then f (ν n) w else 0), ← Finset.sum_add_distrib]
    refine Finset.sum_congr rfl fun n hn => ?_
    have hn := mem_range.1 hn
    by_cases hna : a = ν n
    · rw [if_pos hna]
      unfold rowSum
      rw [← Finset.sum_add_distrib]
      refine Finset.sum_congr rfl fun e he => ?_
      dsimp only
      obtain ⟨t1, _, _, _, _, t6⟩ := hv n e hn (mem_range.1 he)
      have hne : ν n ≠ ν (g.edge n e).target := fun hc => t6 (hinj _ _ hn t1 hc).symm
      rcases Nat.lt_or_gt_of_ne hne with hlt | hgt
      · rw [if_pos ⟨hlt, hna⟩, if_neg (by omega)]; rfl
      · rw [if_neg (by omega), if_pos ⟨hgt, hna⟩]; omega
    · rw [if_neg hna]
      unfold rowSum
      rw [← Finset.sum_add_distrib]
      refine Finset.sum_eq_zero fun e _ => ?_
      dsimp only
      rw [if_neg (fun hc => hna hc.2), if_neg (fun hc => hna hc.2)]; rfl
  · intro X
    rw [a4, halfEdges_sum]
    congr 1
    have hB : g.cv (fun u => X (ν u)) = ∑ n ∈ range g.n, rowSum g (fun t w => if X (ν n) = true ∧ X (ν t) = false then w else 0) n := by
      rw [cv_W]
      unfold cutValue
      refine Finset.sum_congr rfl fun n hn => ?_
      unfold W rowSum
      have hn := mem_range.1 hn
      have e1 : ∀ v, (if X (ν n) = true ∧ X (ν v) = false then
            ∑ e ∈ range (g.len n), (if (g.edge n e).target = v then (g.edge n e).weight else 0) else 0)
          = ∑ e ∈ range (g.len n), (if (g.edge n e).target = v then
              (if X (ν n) = true ∧ X (ν (g.edge n e).target) = false then (g.edge n e).weight else 0) else 0) := by
        intro v
        split
        · rename_i hc
          refine Finset.sum_congr rfl fun e _ => ?_
          by_cases hev : (g.edge n e).target = v
          · rw [if_pos hev, if_pos hev, hev, if_pos hc]
          · rw [if_neg hev, if_neg hev]
        · rename_i hc
          symm
          refine Finset.sum_eq_zero fun e _ => ?_
          by_cases hev : (g.edge n e).target = v
          · rw [if_pos hev, hev, if_neg hc]
          · rw [if_neg hev]
      rw [Finset.sum_congr rfl fun v _ => e1 v, Finset.sum_comm]
      refine Finset.sum_congr rfl fun e he => ?_
      rw [Finset.sum_ite_eq, if_pos (mem_range.2 (hv n e hn (mem_range.1 he)).1)]
    rw [hB]
    have hsplit : ∀ n, n < g.n → rowSum g (fun t w => if ν n < ν t then (if X (ν n) = X (ν t) then 0 else w) else 0) n
        = rowSum g (fun t w => if ν n < ν t ∧ X (ν n) = true ∧ X (ν t) = false then w else 0) n
        + rowSum g (fun t w => if ν n < ν t ∧ X (ν t) = true ∧ X (ν n) = false then w else 0) n := by
      intro n _
      unfold rowSum
      rw [← Finset.sum_add_distrib]
      refine Finset.sum_congr rfl fun e _ => ?_
      dsimp only
      cases X (ν n) <;> cases X (ν (g.edge n e).target) <;> simp
    rw [Finset.sum_congr rfl fun n hn => hsplit n (mem_range.1 hn), Finset.sum_add_distrib,
      half_swap hg (fun n t w => if ν n < ν t ∧ X (ν t) = true ∧ X (ν n) = false then w else 0), ← Finset.sum_add_distrib]
    refine Finset.sum_congr rfl fun n hn => ?_
    have hn := mem_range.1 hn
    unfold rowSum
    rw [← Finset.sum_add_distrib]
    refine Finset.sum_congr rfl fun e he => ?_
    dsimp only
    obtain ⟨t1, _, _, _, _, t6⟩ := hv n e hn (mem_range.1 he)
    have hne : ν n ≠ ν (g.edge n e).target := fun hc => t6 (hinj _ _ hn t1 hc).symm
    rcases Nat.lt_or_gt_of_ne hne with hlt | hgt
    · simp [hlt, show ¬ ν (g.edge n e).target < ν n by omega]
    · simp [hgt, show ¬ ν n < ν (g.edge n e).target by omega]
  · intro q1 q2
    refine a5 q1 fun x hx => ?_
    obtain ⟨n, e, hn, he, rfl⟩ := hmem x hx
    exact q2 n e hn he

end MGraph
end VieCut
