import Verif.Proof.ChainCuts
import Verif.Proof.CanonizeCuts

/-!
# Minimum cuts of a graph whose vertices are ordered by a chain of minimum cuts
-/

namespace VieCut
open Finset

variable {k c : Nat} {W : Nat → Nat → Nat}

/-- Submodularity of cuts with one edge between the two differences. -/
theorem cutValue_cross (hw : ∀ u v, W u v = W v u) (S T : Nat → Bool) {x y : Nat} (hx : x < k) (hy : y < k) (hx1 : S x = true) (hx2 : T x = false)
    (hy1 : S y = false) (hy2 : T y = true) :
    cutValue k W (fun v => S v && T v) + cutValue k W (fun v => S v || T v) + 2 * W x y ≤ cutValue k W S + cutValue k W T := by
  have h1 := two_cutValue (n := k) hw S
  have h2 := two_cutValue (n := k) hw T
  have h3 := two_cutValue (n := k) hw (fun x => S x && T x)
  have h4 := two_cutValue (n := k) hw (fun x => S x || T x)
  have hxy : x ≠ y := by rintro rfl; rw [hx1] at hy1; cases hy1
  have h6 : wsum k W (fun u v => ind (u = x ∧ v = y) + ind (u = y ∧ v = x)) = 2 * W x y := by
    have e1 : ∀ a b, a < k → b < k → wsum k W (fun u v => ind (u = a ∧ v = b)) = W a b := by
      intro a b ha hb
      unfold wsum
      rw [Finset.sum_eq_single a, Finset.sum_eq_single b]
      · simp [ind]
      · intro v _ hv; simp [ind, hv]
      · intro h; exact absurd (mem_range.2 hb) h
      · intro u _ hu
        refine Finset.sum_eq_zero fun v _ => ?_
        simp [ind, hu]
      · intro h; exact absurd (mem_range.2 ha) h
    rw [wsum_add, e1 x y hx hy, e1 y x hy hx, hw y x]; omega
  have h5 : wsum k W (fun u v => ind ((S u && T u) ≠ (S v && T v)) + ind ((S u || T u) ≠ (S v || T v)) + 2 * (ind (u = x ∧ v = y) + ind (u = y ∧ v = x))) ≤
      wsum k W (fun u v => ind (S u ≠ S v) + ind (T u ≠ T v)) := by
    refine wsum_mono fun u v _ _ => ?_
    by_cases e1 : u = x ∧ v = y
    · obtain ⟨rfl, rfl⟩ := e1
      simp [ind, hx1, hx2, hy1, hy2, hxy]
    · by_cases e2 : u = y ∧ v = x
      · obtain ⟨rfl, rfl⟩ := e2
        simp [ind, hx1, hx2, hy1, hy2, hxy.symm]
      · have z1 : ind (u = x ∧ v = y) = 0 := if_neg e1
        have z2 : ind (u = y ∧ v = x) = 0 := if_neg e2
        rw [z1, z2]
        cases S u <;> cases S v <;> cases T u <;> cases T v <;> simp [ind]
  have h7 : wsum k W (fun u v => 2 * (ind (u = x ∧ v = y) + ind (u = y ∧ v = x))) = 2 * (2 * W x y) := by
    rw [← h6, Nat.two_mul, ← wsum_add]
    exact wsum_congr fun u v _ _ => by omega
  rw [wsum_add, wsum_add, wsum_add, h7] at h5
  omega

/-- The vertices `0 .. k - 1` are ordered by a chain of minimum cuts of value `c`. -/
structure Prefixes (k : Nat) (W : Nat → Nat → Nat) (c : Nat) : Prop where
  symm : ∀ u v, W u v = W v u
  two : 2 ≤ k
  least : ∀ X, ProperCut k X → c ≤ cutValue k W X
  pre : ∀ i, 0 < i → i < k → cutValue k W (fun v => decide (v < i)) = c

/-- Every minimum cut is a prefix of the order, or an interval without both ends of the order. -/
structure GoodOrder (k : Nat) (W : Nat → Nat → Nat) (c : Nat) : Prop extends Prefixes k W c where
  shape : ∀ X, ProperCut k X → cutValue k W X = c → X 0 = false →
    (∃ i, 0 < i ∧ i < k ∧ ∀ v, v < k → X v = decide (i ≤ v)) ∨
    (∃ a b, 0 < a ∧ a ≤ b ∧ b + 1 < k ∧ ∀ v, v < k → X v = decide (a ≤ v ∧ v ≤ b))

namespace Prefixes

/-- Two minimum cuts that meet and do not cover everything. -/
theorem meet (h : Prefixes k W c) {S T : Nat → Bool} (hS : cutValue k W S = c) (hT : cutValue k W T = c) {x y : Nat} (hx : x < k) (hy : y < k)
    (h1 : S x = true) (h2 : T x = true) (h3 : S y = false) (h4 : T y = false) :
    cutValue k W (fun v => S v && T v) = c ∧ cutValue k W (fun v => S v || T v) = c := by
  have h5 := cutValue_submodular (n := k) h.symm S T
  have h6 := h.least (fun v => S v && T v) ⟨⟨x, hx, by simp [h1, h2]⟩, ⟨y, hy, by simp [h3]⟩⟩
  have h7 := h.least (fun v => S v || T v) ⟨⟨x, hx, by simp [h1]⟩, ⟨y, hy, by simp [h3, h4]⟩⟩
  omega

/-- Minimum cuts that cross have no edge between the differences. -/
theorem no_edge (h : Prefixes k W c) {S T : Nat → Bool} (hS : cutValue k W S = c) (hT : cutValue k W T = c) {x y p q : Nat} (hx : x < k) (hy : y < k)
    (h1 : S x = true) (h2 : T x = true) (h3 : S y = false) (h4 : T y = false) (hp : p < k) (hq : q < k) (p1 : S p = true) (p2 : T p = false)
    (q1 : S q = false) (q2 : T q = true) : W p q = 0 := by
  have h5 := cutValue_cross (k := k) h.symm S T hp hq p1 p2 q1 q2
  have h6 := h.least (fun v => S v && T v) ⟨⟨x, hx, by simp [h1, h2]⟩, ⟨y, hy, by simp [h3]⟩⟩
  have h7 := h.least (fun v => S v || T v) ⟨⟨x, hx, by simp [h1]⟩, ⟨y, hy, by simp [h3, h4]⟩⟩
  omega

theorem compl (h : Prefixes k W c) {S : Nat → Bool} (hS : cutValue k W S = c) : cutValue k W (fun v => !S v) = c := by
  rw [cutValue_compl h.symm]; exact hS

theorem good (h : Prefixes k W c) (hadj : 0 < W 0 (k - 1)) : GoodOrder k W c := by
  have hk := h.two
  refine { h with shape := fun X hX hc h0 => ?_ }
  classical
  by_cases ht : X (k - 1) = true
  · left
    -- the first vertex of the cut
    have hex : ∃ i, X i = true := ⟨_, ht⟩
    refine ⟨Nat.find hex, ?_, ?_, ?_⟩
    · rcases Nat.eq_zero_or_pos (Nat.find hex) with e | e
      · have := Nat.find_spec hex; rw [e, h0] at this; cases this
      · exact e
    · exact lt_of_le_of_lt (Nat.find_min' hex ht) (by omega)
    · intro b hb
      by_cases hib : Nat.find hex ≤ b
      · by_contra hne
        have hXb : X b = false := by
          cases e : X b
          · rfl
          · rw [e] at hne; simp [hib] at hne
        have hi := Nat.find_spec hex
        generalize Nat.find hex = i at *
        have hib' : i ≠ b := by rintro rfl; rw [hi] at hXb; cases hXb
        have hbt : b ≠ k - 1 := by rintro rfl; rw [ht] at hXb; cases hXb
        have hz := h.no_edge (S := fun v => decide (v < i + 1)) (T := X) (h.pre (i + 1) (by omega) (by omega)) hc (x := i) (y := b) (p := 0) (q := k - 1)
          (by omega) hb (by simp) hi (by simp; omega) hXb (by omega) (by omega) (by simp) h0 (by simp; omega) ht
        omega
      · have := Nat.find_min hex (m := b) (by omega)
        cases e : X b
        · simp [hib]
        · exact absurd e this
  · right
    have ht' : X (k - 1) = false := by cases e : X (k - 1) <;> simp_all
    obtain ⟨⟨u, hu, hXu⟩, -⟩ := hX
    let F := (range k).filter fun v => X v = true
    have hF : F.Nonempty := ⟨u, by simp [F, hu, hXu]⟩
    have ha := F.min'_mem hF
    have hb := F.max'_mem hF
    have hmin : ∀ v, v < k → X v = true → F.min' hF ≤ v := fun v hv hx => F.min'_le v (by simp [F, hv, hx])
    have hmax : ∀ v, v < k → X v = true → v ≤ F.max' hF := fun v hv hx => F.le_max' v (by simp [F, hv, hx])
    have hab := F.min'_le _ hb
    generalize F.min' hF = a at *
    generalize F.max' hF = b at *
    simp only [F, mem_filter, mem_range] at ha hb
    have ha0 : 0 < a := by
      rcases Nat.eq_zero_or_pos a with e | e
      · rw [e, h0] at ha; exact absurd ha.2 (by simp)
      · exact e
    have hbk : b + 1 < k := by
      rcases Nat.lt_or_ge (b + 1) k with e | e
      · exact e
      · have : b = k - 1 := by omega
        rw [this, ht'] at hb; exact absurd hb.2 (by simp)
    refine ⟨a, b, ha0, hab, hbk, fun i hi => ?_⟩
    by_cases hXi : X i = true
    · simp [hXi, hmin i hi hXi, hmax i hi hXi]
    · have hXi' : X i = false := by cases e : X i <;> simp_all
      rw [hXi']
      symm
      simp only [decide_eq_false_iff_not]
      rintro ⟨i1, i2⟩
      have n1 : i ≠ a := by rintro rfl; exact hXi ha.2
      have n2 : i ≠ b := by rintro rfl; exact hXi hb.2
      -- two sides of the interval
      have hA := (h.meet (S := fun v => decide (v < i + 1)) (T := fun v => !X v) (h.pre (i + 1) (by omega) (by omega)) (h.compl hc) (x := 0) (y := b)
        (by omega) hb.1 (by simp) (by simp [h0]) (by simp; omega) (by simp [hb.2])).1
      have hR := (h.meet (S := fun v => decide (v < i)) (T := X) (h.pre i (by omega) (by omega)) hc (x := a) (y := k - 1)
        ha.1 (by omega) (by simp; omega) ha.2 (by simp; omega) ht').2
      have hR' := h.compl hR
      have hcr := cutValue_cross (k := k) h.symm (fun v => decide (v < i + 1) && !X v) (fun v => !(decide (v < i) || X v)) (x := 0) (y := k - 1)
        (by omega) (by omega) (by simp [h0]) (by simp; omega) (by simp; omega) (by simp [ht']; omega)
      have l1 := h.least (fun v => (decide (v < i + 1) && !X v) && !(decide (v < i) || X v)) ⟨⟨i, hi, by simp [hXi']⟩, ⟨0, by omega, by simp; omega⟩⟩
      have l2 : cutValue k W (fun v => (decide (v < i + 1) && !X v) || !(decide (v < i) || X v)) = c := by
        rw [← h.compl hc]
        refine cutValue_congr fun v _ => ?_
        by_cases e1 : v < i
        · cases X v <;> simp [e1]; omega
        · cases X v <;> simp [e1]
      omega

end Prefixes
end VieCut
