import Verif.Proof.ChainCuts
import Verif.Proof.DynamicMerge
import Verif.Proof.CactusLocations
import Verif.Proof.MutableSimple
import Verif.Model.STCactus

/-!
# The path built by `findSTCactus` when no cycle is found
-/

namespace VieCut
open Finset MGraph Function

namespace STCactus

/-- A path on `0, …, j` with weights `c`. -/
def pathTo (c : Nat) (g : MGraph) (j : Nat) : MGraph := (List.range j).foldl (fun (h : MGraph) i => h.newEdgeOrder i (i + 1) c) g

theorem pathTo_succ (c : Nat) (g : MGraph) (j : Nat) : pathTo c g (j + 1) = (pathTo c g j).newEdge j (j + 1) c := by
  unfold pathTo
  rw [List.range_succ, List.foldl_append]
  simp only [List.foldl_cons, List.foldl_nil]
  rw [show ∀ h : MGraph, h.newEdgeOrder j (j + 1) c = h.newEdge j (j + 1) c from fun h => by
    unfold newEdgeOrder; rw [if_pos (Nat.lt_succ_self j)]]

theorem newEdge_pos (g : MGraph) (s t w : Nat) : (g.newEdge s t w).pos = g.pos := by
  unfold newEdge
  split <;> rfl

theorem pathTo_spec {c : Nat} {g : MGraph} (hg : Valid g) (h0 : ∀ u, g.len u = 0) : ∀ j, j < g.n →
    Valid (pathTo c g j) ∧ (pathTo c g j).n = g.n ∧ (pathTo c g j).pos = g.pos ∧ (pathTo c g j).cont = g.cont ∧
    (pathTo c g j).posSize = g.posSize ∧ (pathTo c g j).contSize = g.contSize ∧
    (∀ X, cutValue g.n (pathTo c g j).toGraph.wt X = ∑ i ∈ range j, if X i = X (i + 1) then 0 else c) ∧
    (∀ u v, u < v → (pathTo c g j).cnt u v = if v = u + 1 ∧ u < j then 1 else 0) := by
  intro j
  induction j with
  | zero =>
    intro _
    refine ⟨hg, rfl, rfl, rfl, rfl, rfl, fun X => ?_, fun u v _ => ?_⟩
    · rw [Finset.sum_range_zero]
      unfold cutValue
      refine Finset.sum_eq_zero fun u hu => Finset.sum_eq_zero fun v _ => ?_
      rw [show pathTo c g 0 = g from rfl, toGraph_wt _ (mem_range.1 hu)]
      unfold W rowSum
      rw [h0 u]
      simp
    · rw [show pathTo c g 0 = g from rfl]
      unfold cnt rowSum
      rw [h0 u]
      simp
  | succ j ih =>
    intro hj
    obtain ⟨a1, a2, a3, a4, a5, a6, a7, a8⟩ := ih (by omega)
    rw [pathTo_succ]
    obtain ⟨b1, b2, b3⟩ := newEdge_spec a1 (w := c) (Nat.lt_succ_self j) (by rw [a2]; exact hj)
    obtain ⟨c1, c2, c3, c4, c5⟩ := Cactus.newEdge_frame (pathTo c g j) j (j + 1) c
    refine ⟨b1, c1.trans a2, (newEdge_pos _ _ _ _).trans a3, c4.trans a4, c5.trans a5, c3.trans a6, fun X => ?_, fun u v huv => ?_⟩
    · rw [Finset.sum_range_succ, ← a7 X]
      refine cutValue_add (by omega) (by omega) hj (fun u v hu => ?_) X
      have := C08_newEdge (pathTo c g j) (consistent_iff.2 a1) j (j + 1) c (by omega) (by rw [a2]; exact hj) u v (by rw [a2]; exact hu)
      exact this
    · unfold cnt
      rw [b3]
      have h := a8 u v huv
      unfold cnt at h
      rw [h]
      by_cases h1 : u = j
      · subst h1
        by_cases h2 : v = u + 1
        · subst h2; simp
        · simp [h2, Ne.symm h2]
      · by_cases h2 : u = j + 1
        · subst h2
          have h3 : j ≠ v := by omega
          simp [h3]
        · simp only [h1, h2, if_false, Nat.add_zero]
          by_cases h3 : v = u + 1
          · subst h3
            by_cases h4 : u < j
            · simp [h4, Nat.lt_succ_of_lt h4]
            · have : ¬ u < j + 1 := by omega
              simp [h4, this]
          · simp [h3]

/-- The whole path: a valid graph without parallel edges. -/
theorem path_simple {c : Nat} {g : MGraph} (hg : Valid g) (h0 : ∀ u, g.len u = 0) {j : Nat} (hj : j < g.n) : (pathTo c g j).NoParallel := by
  obtain ⟨a1, a2, a3, a4, a5, a6, a7, a8⟩ := pathTo_spec (c := c) hg h0 j hj
  refine noParallel_of_simple a1 (simple_of_upper a1 fun u v huv => ?_)
  rw [a8 u v huv]
  split <;> omega

/-- Two different values have a step between them. -/
theorem exists_step {X : Nat → Bool} : ∀ {k a b : Nat}, a ≤ b → b < k → X a ≠ X b → ∃ i, a ≤ i ∧ i < b ∧ X i ≠ X (i + 1) := by
  intro k a b hab
  induction b, hab using Nat.le_induction with
  | base => intro _ h; exact absurd rfl h
  | succ b hb ih =>
    intro hk hne
    by_cases h : X a = X b
    · exact ⟨b, hb, by omega, by rw [← h]; exact hne⟩
    · obtain ⟨i, h1, h2, h3⟩ := ih (by omega) h
      exact ⟨i, h1, by omega, h3⟩

/-- Steps of a proper cut. -/
theorem proper_step {k : Nat} {X : Nat → Bool} (h : ProperCut k X) : ∃ i, i < k - 1 ∧ X i ≠ X (i + 1) := by
  obtain ⟨⟨u, hu, u1⟩, ⟨v, hv, v1⟩⟩ := h
  rcases Nat.le_total u v with huv | huv
  · obtain ⟨i, -, h2, h3⟩ := exists_step (X := X) huv hv (by simp [u1, v1])
    exact ⟨i, by omega, h3⟩
  · obtain ⟨i, -, h2, h3⟩ := exists_step (X := X) huv hu (by simp [u1, v1])
    exact ⟨i, by omega, h3⟩

theorem step_le {k c : Nat} {X : Nat → Bool} {i : Nat} (hi : i < k) (h : X i ≠ X (i + 1)) :
    c ≤ ∑ i ∈ range k, if X i = X (i + 1) then 0 else c := by
  refine Nat.le_trans ?_ (Finset.single_le_sum (f := fun i => if X i = X (i + 1) then 0 else c) (fun _ _ => Nat.zero_le _) (mem_range.2 hi))
  simp [h]

/-- A cut of positive weight `c` has one step. -/
theorem one_step {k c : Nat} (hc : 0 < c) {X : Nat → Bool} {i j : Nat} (hi : i < k) (h : X i ≠ X (i + 1))
    (hs : (∑ i ∈ range k, if X i = X (i + 1) then 0 else c) = c) (hj : j < k) (h' : X j ≠ X (j + 1)) : i = j := by
  by_contra hne
  have := Finset.sum_le_sum_of_subset (f := fun i => if X i = X (i + 1) then 0 else c) (s := {i, j}) (t := range k)
    (by intro v hv; simp at hv; rcases hv with rfl | rfl <;> simpa)
  rw [Finset.sum_pair hne] at this
  simp only [h, h', if_false] at this
  omega

/-- A cut with one step is a prefix or the complement of one. -/
theorem prefix_of_step {k : Nat} {X : Nat → Bool} {i : Nat} (h : X i ≠ X (i + 1)) (hi : i + 1 < k)
    (huniq : ∀ j, j < k - 1 → X j ≠ X (j + 1) → j = i) :
    (∀ v, v < k → X v = decide (v < i + 1)) ∨ (∀ v, v < k → X v = !decide (v < i + 1)) := by
  have hlow : ∀ v, v ≤ i → X v = X i := by
    intro v hv
    by_contra hne
    obtain ⟨j, h1, h2, h3⟩ := exists_step (X := X) (k := k) hv (by omega) hne
    have := huniq j (by omega) h3
    omega
  have hhigh : ∀ v, i + 1 ≤ v → v < k → X v = X (i + 1) := by
    intro v hv hk
    by_contra hne
    obtain ⟨j, h1, h2, h3⟩ := exists_step (X := X) (k := k) hv hk (Ne.symm hne)
    have := huniq j (by omega) h3
    omega
  cases h1 : X i with
  | true =>
    have h2 : X (i + 1) = false := by rw [h1] at h; simpa using Ne.symm h
    left; intro v hv
    by_cases hvi : v < i + 1
    · rw [hlow v (by omega), h1]; simp [hvi]
    · rw [hhigh v (by omega) hv, h2]; simp [hvi]
  | false =>
    have h2 : X (i + 1) = true := by rw [h1] at h; simpa using Ne.symm h
    right; intro v hv
    by_cases hvi : v < i + 1
    · rw [hlow v (by omega), h1]; simp [hvi]
    · rw [hhigh v (by omega) hv, h2]; simp [hvi]

/-- The weight of a prefix. -/
theorem prefix_sum {k c i : Nat} (hi : i < k) {X : Nat → Bool} (hX : ∀ v, v ≤ k → X v = decide (v < i + 1)) :
    (∑ i ∈ range k, if X i = X (i + 1) then 0 else c) = c := by
  rw [Finset.sum_eq_single i]
  · rw [hX i (by omega), hX (i + 1) (by omega)]; simp
  · intro j hj hne
    rw [mem_range] at hj
    rw [hX j (by omega), hX (j + 1) (by omega)]
    have : (j < i + 1) ↔ (j + 1 < i + 1) := by omega
    simp [this]
  · intro h; exact absurd (mem_range.2 hi) h

end STCactus
end VieCut
