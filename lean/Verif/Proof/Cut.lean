import Verif.Model.Graph
import Verif.Spec.Cut
import Mathlib.Algebra.BigOperators.Group.Finset.Basic
import Mathlib.Algebra.Order.BigOperators.Group.Finset
import Mathlib.Algebra.BigOperators.Group.Finset.Piecewise
import Mathlib.Tactic.Ring

namespace VieCut
open Finset

/-! ### Cuts restricted to a set of vertices -/

/-- Weight of the edges inside `A` that cross `S`. -/
def inner (w : Nat → Nat → Nat) (S : Nat → Bool) (A : Finset Nat) : Nat :=
  ∑ u ∈ A, ∑ v ∈ A, if S u = true ∧ S v = false then w u v else 0

theorem inner_range (n : Nat) (w : Nat → Nat → Nat) (S : Nat → Bool) :
    inner w S (range n) = cutValue n w S := rfl

theorem inner_mono {w : Nat → Nat → Nat} {S : Nat → Bool} {A B : Finset Nat} (h : A ⊆ B) :
    inner w S A ≤ inner w S B := by
  unfold inner
  refine le_trans (Finset.sum_le_sum fun u _ => Finset.sum_le_sum_of_subset h) ?_
  exact Finset.sum_le_sum_of_subset h

/-- Weight from `A` to `u`. -/
def into (w : Nat → Nat → Nat) (A : Finset Nat) (u : Nat) : Nat := ∑ a ∈ A, w a u

theorem inner_insert {w : Nat → Nat → Nat} {S : Nat → Bool} {A : Finset Nat} {u : Nat} (hu : u ∉ A)
    (hs : ∀ a ∈ A, w a u = w u a) :
    inner w S (insert u A) = inner w S A + ∑ a ∈ A, if S a ≠ S u then w a u else 0 := by
  unfold inner
  rw [Finset.sum_insert hu, Finset.sum_insert hu]
  have h1 : (∑ x ∈ A, ∑ v ∈ insert u A, if S x = true ∧ S v = false then w x v else 0)
      = (∑ x ∈ A, if S x = true ∧ S u = false then w x u else 0)
        + ∑ x ∈ A, ∑ v ∈ A, if S x = true ∧ S v = false then w x v else 0 := by
    rw [← Finset.sum_add_distrib]
    exact Finset.sum_congr rfl fun x _ => Finset.sum_insert hu
  rw [h1]
  have h2 : (∑ a ∈ A, if S a ≠ S u then w a u else 0)
      = (∑ v ∈ A, if S u = true ∧ S v = false then w u v else 0)
        + ∑ x ∈ A, if S x = true ∧ S u = false then w x u else 0 := by
    rw [← Finset.sum_add_distrib]
    refine Finset.sum_congr rfl fun a ha => ?_
    rw [hs a ha]
    cases S a <;> cases S u <;> simp
  rw [h2]
  have h3 : (if S u = true ∧ S u = false then w u u else 0) = 0 := by cases S u <;> simp
  rw [h3]
  ring

theorem inner_insert_ge {w : Nat → Nat → Nat} {S : Nat → Bool} {A : Finset Nat} {u c : Nat} (hu : u ∉ A)
    (hs : ∀ a ∈ A, w a u = w u a) (hc : c ∈ A) (hcu : S c ≠ S u) :
    inner w S A + w c u ≤ inner w S (insert u A) := by
  rw [inner_insert hu hs]
  have : w c u ≤ ∑ a ∈ A, if S a ≠ S u then w a u else 0 := by
    have := Finset.single_le_sum (f := fun a => if S a ≠ S u then w a u else 0) (fun _ _ => Nat.zero_le _) hc
    simpa [hcu] using this
  omega

/-! ### Lists of edges and the weight matrix -/

theorem filter_sum_range (l : List (Nat × Nat)) (n : Nat) (h : ∀ e ∈ l, e.1 < n) :
    (l.map (·.2)).sum = ∑ v ∈ range n, ((l.filter (fun e => e.1 == v)).map (·.2)).sum := by
  induction l with
  | nil => simp
  | cons e l ih =>
    have h1 : e.1 < n := h e (by simp)
    have h2 := ih (fun x hx => h x (by simp [hx]))
    have : ∀ v, (((e :: l).filter (fun e => e.1 == v)).map (·.2)).sum
        = (if e.1 = v then e.2 else 0) + ((l.filter (fun e => e.1 == v)).map (·.2)).sum := by
      intro v
      by_cases hv : e.1 = v <;> simp [hv]
    simp only [this, Finset.sum_add_distrib, List.map_cons, List.sum_cons, ← h2]
    congr 1
    rw [Finset.sum_ite_eq]
    simp [h1]

namespace Graph
variable {G : Graph}

theorem edges_of_ge {u : Nat} (h : G.n ≤ u) : G.edges u = [] := by
  unfold edges n at *
  simp [h]

theorem wt_of_ge_left {u v : Nat} (h : G.n ≤ u) : G.wt u v = 0 := by
  simp [wt, edges_of_ge h]

theorem WF.wt_of_ge_right (hG : G.WF) {u v : Nat} (h : G.n ≤ v) : G.wt u v = 0 := by
  unfold wt
  have : (G.edges u).filter (fun e => e.1 == v) = [] := by
    rw [List.filter_eq_nil_iff]
    intro e he
    have := hG.tgt_lt u e he
    simp only [beq_iff_eq]; omega
  simp [this]

theorem WF.wt_symm (hG : G.WF) (u v : Nat) : G.wt u v = G.wt v u := by
  by_cases hu : u < G.n
  · by_cases hv : v < G.n
    · exact hG.symm u v hu hv
    · rw [hG.wt_of_ge_right (by omega), wt_of_ge_left (by omega)]
  · rw [wt_of_ge_left (by omega), hG.wt_of_ge_right (by omega)]

theorem WF.wt_self (hG : G.WF) (u : Nat) : G.wt u u = 0 := by
  unfold wt
  have : (G.edges u).filter (fun e => e.1 == u) = [] := by
    rw [List.filter_eq_nil_iff]
    intro e he
    simpa using hG.no_loop u e he
  simp [this]

theorem WF.deg_eq (hG : G.WF) (u : Nat) : G.deg u = ∑ v ∈ range G.n, G.wt u v :=
  filter_sum_range _ _ (hG.tgt_lt u)

theorem foldl_min_le (f : Nat → Nat) (l : List Nat) (m : Nat) :
    l.foldl (fun m u => if f u < m then f u else m) m ≤ m ∧
    (∀ u ∈ l, l.foldl (fun m u => if f u < m then f u else m) m ≤ f u) ∧
    (l.foldl (fun m u => if f u < m then f u else m) m = m ∨
      ∃ u ∈ l, l.foldl (fun m u => if f u < m then f u else m) m = f u) := by
  induction l generalizing m with
  | nil => simp
  | cons a l ih =>
    obtain ⟨h1, h2, h3⟩ := ih (if f a < m then f a else m)
    simp only [List.foldl_cons]
    refine ⟨?_, ?_, ?_⟩
    · refine le_trans h1 ?_; split <;> omega
    · intro u hu
      rcases List.mem_cons.1 hu with rfl | hu
      · refine le_trans h1 ?_; split <;> omega
      · exact h2 u hu
    · rcases h3 with h3 | ⟨u, hu, h3⟩
      · by_cases hlt : f a < m
        · rw [if_pos hlt] at h3 ⊢; exact Or.inr ⟨a, by simp, h3⟩
        · rw [if_neg hlt] at h3 ⊢; exact Or.inl h3
      · exact Or.inr ⟨u, by simp [hu], h3⟩

theorem foldl_max_ge (f : Nat → Nat) (l : List Nat) (m : Nat) :
    m ≤ l.foldl (fun m u => if f u > m then f u else m) m ∧
    (∀ u ∈ l, f u ≤ l.foldl (fun m u => if f u > m then f u else m) m) := by
  induction l generalizing m with
  | nil => simp
  | cons a l ih =>
    obtain ⟨h1, h2⟩ := ih (if f a > m then f a else m)
    simp only [List.foldl_cons]
    refine ⟨?_, ?_⟩
    · refine le_trans ?_ h1; split <;> omega
    · intro u hu
      rcases List.mem_cons.1 hu with rfl | hu
      · refine le_trans ?_ h1; split <;> omega
      · exact h2 u hu

theorem minDegree_le {u : Nat} (hu : u < G.n) : G.minDegree ≤ G.deg u :=
  (foldl_min_le G.deg (List.range G.n) _).2.1 u (by simpa using hu)

theorem deg_le_maxDegree {u : Nat} (hu : u < G.n) : G.deg u ≤ G.maxDegree :=
  (foldl_max_ge G.deg (List.range G.n) _).2 u (by simpa using hu)

theorem deg_le_total {u : Nat} (hu : u < G.n) : G.deg u ≤ G.totalWeight :=
  List.single_le_sum (by simp) _ (List.mem_map_of_mem (by simpa using hu))

theorem exists_minDegree (hn : 0 < G.n) (hb : G.totalWeight < 2 ^ 64) :
    ∃ u, u < G.n ∧ G.deg u = G.minDegree := by
  rcases (foldl_min_le G.deg (List.range G.n) (2 ^ 64 - 1)).2.2 with h | ⟨u, hu, h⟩
  · refine ⟨0, hn, ?_⟩
    have h1 := minDegree_le hn
    have h2 := deg_le_total hn
    unfold minDegree at *
    omega
  · exact ⟨u, by simpa using hu, h.symm⟩

theorem WF.cut_singleton (hG : G.WF) {u : Nat} (hu : u < G.n) :
    cutValue G.n G.wt (fun x => x == u) = G.deg u := by
  unfold cutValue
  rw [Finset.sum_eq_single u]
  · rw [hG.deg_eq]
    refine Finset.sum_congr rfl fun v _ => ?_
    by_cases hv : v = u
    · subst hv; simp [hG.wt_self]
    · simp [hv]
  · intro x _ hx
    simp [hx]
  · intro h; exact absurd (Finset.mem_range.2 hu) h

/-- The complement of a singleton has the same value. -/
theorem properCut_singleton (hn : 2 ≤ G.n) {u : Nat} (hu : u < G.n) :
    ProperCut G.n (fun x => x == u) := by
  refine ⟨⟨u, hu, by simp⟩, ?_⟩
  by_cases h0 : u = 0
  · exact ⟨1, by omega, by simp [h0]⟩
  · exact ⟨0, by omega, by simp; omega⟩

end Graph

theorem cutValue_compl {n : Nat} {w : Nat → Nat → Nat} (hw : ∀ u v, w u v = w v u) (S : Nat → Bool) :
    cutValue n w (fun x => !S x) = cutValue n w S := by
  unfold cutValue
  rw [Finset.sum_comm]
  refine Finset.sum_congr rfl fun u _ => Finset.sum_congr rfl fun v _ => ?_
  rw [hw v u]
  cases hu : S u <;> cases hv : S v <;> simp [hu, hv]

theorem cutValue_congr {n : Nat} {w : Nat → Nat → Nat} {S T : Nat → Bool} (h : ∀ u, u < n → S u = T u) :
    cutValue n w S = cutValue n w T := by
  unfold cutValue
  refine Finset.sum_congr rfl fun u hu => Finset.sum_congr rfl fun v hv => ?_
  rw [h u (Finset.mem_range.1 hu), h v (Finset.mem_range.1 hv)]

theorem ProperCut.congr {n : Nat} {S T : Nat → Bool} (h : ∀ u, u < n → S u = T u) (hp : ProperCut n S) :
    ProperCut n T := by
  obtain ⟨⟨u, hu, h1⟩, ⟨v, hv, h2⟩⟩ := hp
  exact ⟨⟨u, hu, by rw [← h u hu, h1]⟩, ⟨v, hv, by rw [← h v hv, h2]⟩⟩

/-- Cut values of a quotient graph. -/
theorem cutValue_quotient {n k : Nat} {w w' : Nat → Nat → Nat} {φ : Nat → Nat}
    (hφ : ∀ u, u < n → φ u < k)
    (hw : ∀ p q, p < k → q < k → p ≠ q →
      w' p q = ∑ u ∈ range n, ∑ v ∈ range n, if φ u = p ∧ φ v = q then w u v else 0)
    (T : Nat → Bool) :
    cutValue k w' T = cutValue n w (fun x => T (φ x)) := by
  unfold cutValue
  have h1 : ∀ p ∈ range k, ∀ q ∈ range k, (if T p = true ∧ T q = false then w' p q else 0)
      = ∑ u ∈ range n, ∑ v ∈ range n,
          if φ u = p ∧ φ v = q then (if T (φ u) = true ∧ T (φ v) = false then w u v else 0) else 0 := by
    intro p hp q hq
    by_cases h : T p = true ∧ T q = false
    · have hpq : p ≠ q := by rintro rfl; simp_all
      rw [if_pos h, hw p q (by simpa using hp) (by simpa using hq) hpq]
      refine Finset.sum_congr rfl fun u _ => Finset.sum_congr rfl fun v _ => ?_
      by_cases huv : φ u = p ∧ φ v = q
      · simp [huv, h]
      · simp [huv]
    · rw [if_neg h]
      symm
      refine Finset.sum_eq_zero fun u _ => Finset.sum_eq_zero fun v _ => ?_
      by_cases huv : φ u = p ∧ φ v = q
      · simp [huv, h]
      · simp [huv]
  rw [Finset.sum_congr rfl fun p hp => Finset.sum_congr rfl (h1 p hp)]
  calc _ = ∑ p ∈ range k, ∑ u ∈ range n, ∑ v ∈ range n, ∑ q ∈ range k,
          (if φ u = p ∧ φ v = q then (if T (φ u) = true ∧ T (φ v) = false then w u v else 0) else 0) := by
        refine Finset.sum_congr rfl fun p _ => ?_
        rw [Finset.sum_comm]
        refine Finset.sum_congr rfl fun u _ => ?_
        rw [Finset.sum_comm]
    _ = ∑ u ∈ range n, ∑ v ∈ range n, ∑ p ∈ range k, ∑ q ∈ range k,
          (if φ u = p ∧ φ v = q then (if T (φ u) = true ∧ T (φ v) = false then w u v else 0) else 0) := by
        rw [Finset.sum_comm]
        refine Finset.sum_congr rfl fun u _ => ?_
        rw [Finset.sum_comm]
    _ = _ := by
        refine Finset.sum_congr rfl fun u hu => Finset.sum_congr rfl fun v hv => ?_
        rw [Finset.sum_eq_single (φ u), Finset.sum_eq_single (φ v)]
        · simp
        · intro q _ hq; simp [Ne.symm hq]
        · intro h; exact absurd (Finset.mem_range.2 (hφ v (by simpa using hv))) h
        · intro p _ hp
          refine Finset.sum_eq_zero fun q _ => ?_
          simp [Ne.symm hp]
        · intro h; exact absurd (Finset.mem_range.2 (hφ u (by simpa using hu))) h

end VieCut
