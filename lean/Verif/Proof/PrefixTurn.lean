import Verif.Proof.PrefixCuts

/-!
# The order in which a queue with last-in-first-out ties takes the vertices
-/

namespace VieCut
open Finset

variable {k c : Nat} {W : Nat → Nat → Nat}

/-- The weight between the first `i` vertices and `v`. -/
def link (k : Nat) (W : Nat → Nat → Nat) (i v : Nat) : Nat := linkTo k W (fun u => decide (u < i)) v

/-- The order that keeps the first `m` vertices and reverses the others. -/
def turn (m k i : Nat) : Nat := if i < m then i else k - 1 + m - i

/-- `m` is the first position where the last vertex is as heavy as the next one. -/
structure Turn (k : Nat) (W : Nat → Nat → Nat) (m : Nat) : Prop where
  pos : 1 ≤ m
  le : m ≤ k - 1
  before : ∀ i, 1 ≤ i → i < m → link k W i (k - 1) < link k W i i
  tie : link k W m m ≤ link k W m (k - 1)

theorem exists_turn (hk : 2 ≤ k) : ∃ m, Turn k W m := by
  have hex : ∃ i, 1 ≤ i ∧ i ≤ k - 1 ∧ link k W i i ≤ link k W i (k - 1) := ⟨k - 1, by omega, le_refl _, le_refl _⟩
  classical
  obtain ⟨h1, h2, h3⟩ := Nat.find_spec hex
  refine ⟨Nat.find hex, h1, h2, fun i i1 i2 => ?_, h3⟩
  have := Nat.find_min hex i2
  by_contra hc
  exact this ⟨i1, by omega, by omega⟩

theorem turn_lt {m : Nat} (hm1 : 1 ≤ m) (hm : m ≤ k - 1) {i : Nat} (hi : i < k) : turn m k i < k := by
  unfold turn; split <;> omega

theorem turn_turn {m : Nat} (hm : m ≤ k - 1) {i : Nat} (hi : i < k) : turn m k (turn m k i) = i := by
  unfold turn
  by_cases h : i < m
  · simp [h]
  · rw [if_neg h, if_neg (by omega)]; omega

theorem linkTo_congr {U V : Nat → Bool} (h : ∀ u, u < k → U u = V u) (v : Nat) : linkTo k W U v = linkTo k W V v :=
  Finset.sum_congr rfl fun u hu => by rw [h u (mem_range.1 hu)]

theorem three_links_le_cut (U : Nat → Bool) {x y z : Nat} (hx : x < k) (hy : y < k) (hz : z < k) (hxy : x ≠ y) (hxz : x ≠ z) (hyz : y ≠ z)
    (h : U x = false) (h' : U y = false) (h'' : U z = false) :
    linkTo k W U x + linkTo k W U y + linkTo k W U z ≤ cutValue k W U := by
  rw [cut_eq_links]
  have := Finset.sum_le_sum_of_subset (f := fun y => if U y = false then linkTo k W U y else 0)
    (s := {x, y, z}) (t := range k) (by intro v hv; simp at hv; rcases hv with rfl | rfl | rfl <;> simpa)
  rw [Finset.sum_insert (by simp [hxy, hxz]), Finset.sum_pair hyz] at this
  simp only [h, h', h'', if_true] at this
  omega

/-- Cuts of the graph with renamed vertices. -/
theorem cutValue_turn {m : Nat} (hm1 : 1 ≤ m) (hm : m ≤ k - 1) (X : Nat → Bool) :
    cutValue k (fun u v => W (turn m k u) (turn m k v)) X = cutValue k W (fun v => X (turn m k v)) := by
  unfold cutValue
  refine Finset.sum_bij' (fun u _ => turn m k u) (fun u _ => turn m k u) ?_ ?_ ?_ ?_ ?_
  · intro u hu; exact mem_range.2 (turn_lt hm1 hm (mem_range.1 hu))
  · intro u hu; exact mem_range.2 (turn_lt hm1 hm (mem_range.1 hu))
  · intro u hu; exact turn_turn hm (mem_range.1 hu)
  · intro u hu; exact turn_turn hm (mem_range.1 hu)
  · intro u hu
    refine Finset.sum_bij' (fun u _ => turn m k u) (fun u _ => turn m k u) ?_ ?_ ?_ ?_ ?_
    · intro u hu; exact mem_range.2 (turn_lt hm1 hm (mem_range.1 hu))
    · intro u hu; exact mem_range.2 (turn_lt hm1 hm (mem_range.1 hu))
    · intro u hu; exact turn_turn hm (mem_range.1 hu)
    · intro u hu; exact turn_turn hm (mem_range.1 hu)
    · intro v hv
      simp only [turn_turn hm (mem_range.1 hu), turn_turn hm (mem_range.1 hv)]

namespace Prefixes

theorem last (h : Prefixes k W c) : cutValue k W (fun v => decide (v = k - 1)) = c := by
  have hk := h.two
  rw [← h.compl (h.pre (k - 1) (by omega) (by omega))]
  refine cutValue_congr fun v hv => ?_
  by_cases e : v = k - 1
  · simp [e]
  · have : v < k - 1 := by omega
    simp [e, this]

theorem insert (h : Prefixes k W c) {i v : Nat} (hi : 0 < i) (hi' : i ≤ v) (hv : v < k) :
    c + cutValue k W (fun u => decide (u = v)) = cutValue k W (fun u => decide (u < i) || decide (u = v)) + 2 * link k W i v := by
  have := cut_insert h.symm (k := k) (fun u => decide (u < i)) hv (by simp [hi'])
  rwa [h.pre i hi (by omega)] at this

theorem half (h : Prefixes k W c) {i : Nat} (hi : 0 < i) (hi' : i + 1 < k) : c ≤ 2 * link k W i i := by
  have h1 := h.insert hi (le_refl i) (by omega)
  have h2 : cutValue k W (fun u => decide (u < i) || decide (u = i)) = c := by
    rw [← h.pre (i + 1) (by omega) hi']
    refine cutValue_congr fun u _ => ?_
    rw [← Bool.decide_or]
    exact decide_eq_decide.2 (by omega)
  have h3 := h.least (fun u => decide (u = i)) ⟨⟨i, by omega, by simp⟩, ⟨0, by omega, by simp; omega⟩⟩
  omega

theorem two_links (h : Prefixes k W c) {i u v : Nat} (hi : 0 < i) (hik : i < k) (hu : i ≤ u) (hv : i ≤ v) (hu' : u < k) (hv' : v < k) (huv : u ≠ v) :
    link k W i u + link k W i v ≤ c := by
  have := two_links_le_cut (k := k) (W := W) (fun x => decide (x < i)) hu' hv' huv (by simp [hu]) (by simp [hv])
  rwa [h.pre i hi hik] at this

variable {m : Nat}

/-- The vertices after the turn are a cycle. -/
theorem tails (h : Prefixes k W c) (hT : Turn k W m) {b : Nat} (hb : m ≤ b) (hb' : b + 1 < k) :
    cutValue k W (fun v => decide (m ≤ v ∧ v ≤ b)) = c := by
  have h1 := hT.pos
  have h2 := hT.tie
  have h3 := h.half (i := m) (by omega) (by omega)
  have h4 := h.two_links (i := m) (u := m) (v := k - 1) (by omega) (by omega) (le_refl _) (by omega) (by omega) (by omega) (by omega)
  have h5 := h.insert (i := m) (v := k - 1) (by omega) (by omega) (by omega)
  rw [h.last] at h5
  have h6 : cutValue k W (fun u => decide (u < m) || decide (u = k - 1)) = c := by omega
  have h7 := (h.meet (h.compl h6) (h.pre (b + 1) (by omega) hb') (x := m) (y := k - 1) (by omega) (by omega) (by simp; omega) (by simp; omega)
    (by simp) (by simp; omega)).1
  rw [← h7]
  refine cutValue_congr fun v hv => ?_
  by_cases e1 : v < m
  · have : ¬ (m ≤ v ∧ v ≤ b) := by omega
    simp [e1, this]
  · by_cases e2 : v = k - 1
    · have : ¬ (m ≤ v ∧ v ≤ b) := by omega
      simp [e2]; omega
    · by_cases e3 : v ≤ b
      · have : m ≤ v ∧ v ≤ b := by omega
        have e4 : v < b + 1 := by omega
        simp [e1, e2, this, e4]
      · have : ¬ (m ≤ v ∧ v ≤ b) := by omega
        have e4 : ¬ v < b + 1 := by omega
        simp [this, e4]

/-- Every prefix of the new order is a minimum cut. -/
theorem turn_pre (h : Prefixes k W c) (hT : Turn k W m) {j : Nat} (hj : 0 < j) (hj' : j < k) :
    cutValue k W (fun v => decide (turn m k v < j)) = c := by
  have h1 := hT.pos
  have h2 := hT.le
  rcases Nat.lt_or_ge m j with hm | hm
  · rw [← h.compl (h.tails hT (b := k - 1 + m - j) (by omega) (by omega))]
    refine cutValue_congr fun v hv => ?_
    unfold turn
    by_cases e : v < m
    · have : ¬ (m ≤ v ∧ v ≤ k - 1 + m - j) := by omega
      rw [if_pos e]
      simp [this]; omega
    · rw [if_neg e, ← decide_not]
      exact decide_eq_decide.2 (by omega)
  · rw [← h.pre j hj hj']
    refine cutValue_congr fun v hv => ?_
    unfold turn
    refine decide_eq_decide.2 ?_
    split <;> omega

/-- The queue takes the vertices in the new order. -/
theorem turn_best (h : Prefixes k W c) (hadj : 0 < W 0 (k - 1)) (hT : Turn k W m) {j v : Nat} (hj : 0 < j) (hj' : j < k) (hv : v < k)
    (hjv : j ≤ turn m k v) (hne : v ≠ turn m k j) :
    linkTo k W (fun u => decide (turn m k u < j)) v < linkTo k W (fun u => decide (turn m k u < j)) (turn m k j) ∨
    (linkTo k W (fun u => decide (turn m k u < j)) v = linkTo k W (fun u => decide (turn m k u < j)) (turn m k j) ∧ v < turn m k j) := by
  have h1 := hT.pos
  have h2 := hT.le
  rcases Nat.lt_or_ge j m with hm | hm
  · left
    have e1 : turn m k j = j := if_pos hm
    have e2 : ∀ u, u < k → decide (turn m k u < j) = decide (u < j) := by
      intro u hu
      refine decide_eq_decide.2 ?_
      unfold turn; split <;> omega
    have e3 : ¬ v < j := by have := decide_eq_decide.1 (e2 v hv); omega
    rw [e1] at hne
    rw [linkTo_congr e2, linkTo_congr e2, e1]
    show link k W j v < link k W j j
    by_cases ht : v = k - 1
    · subst ht; exact hT.before j hj hm
    · have h3 := h.half hj (by omega)
      have h4 := three_links_le_cut (k := k) (W := W) (fun x => decide (x < j)) (x := v) (y := j) (z := k - 1) hv hj' (by omega) hne ht (by omega)
        (by simp; omega) (by simp) (by simp; omega)
      rw [h.pre j hj hj'] at h4
      have h5 : W 0 (k - 1) ≤ link k W j (k - 1) := by
        unfold link linkTo
        refine Nat.le_trans ?_ (Finset.single_le_sum (f := fun u => if decide (u < j) = true then W u (k - 1) else 0) (fun _ _ => Nat.zero_le _)
          (mem_range.2 (show 0 < k by omega)))
        simp [hj]
      unfold link at h3 h5 ⊢
      omega
  · have e1 : turn m k j = k - 1 + m - j := if_neg (by omega)
    have hvm : m ≤ v := by
      by_contra hc
      unfold turn at hjv
      rw [if_pos (by omega)] at hjv; omega
    have hvj : v < k - 1 + m - j := by
      unfold turn at hjv
      rw [if_neg (by omega)] at hjv; omega
    rw [e1]
    have hq : k - 1 + m - j < k := by omega
    have tq : turn m k (k - 1 + m - j) = j := by unfold turn; rw [if_neg (by omega)]; omega
    have h3 := two_links_le_cut (k := k) (W := W) (fun u => decide (turn m k u < j)) hv hq (by omega) (by simp [hjv]) (by simp [tq])
    rw [h.turn_pre hT hj hj'] at h3
    have h4 := cut_insert h.symm (k := k) (fun u => decide (turn m k u < j)) hq (by simp [tq])
    have h5 : cutValue k W (fun u => decide (turn m k u < j) || decide (u = k - 1 + m - j)) = c := by
      rw [← h.turn_pre hT (j := j + 1) (by omega) (by omega)]
      refine cutValue_congr fun u hu => ?_
      rw [← Bool.decide_or]
      refine decide_eq_decide.2 ⟨?_, ?_⟩
      · rintro (h | rfl)
        · omega
        · omega
      · intro hl
        rcases Nat.lt_or_ge (turn m k u) j with h' | h'
        · exact Or.inl h'
        · right
          have : turn m k u = j := by omega
          rw [← turn_turn h2 hu, this, e1]
    rw [h.turn_pre hT hj hj', h5] at h4
    have h6 := h.least (fun u => decide (u = k - 1 + m - j)) ⟨⟨_, hq, by simp⟩, ⟨v, hv, by simp; omega⟩⟩
    omega

/-- No minimum interval leads over the turn. -/
theorem no_over (h : Prefixes k W c) (hT : Turn k W m) {a b : Nat} (ha : 0 < a) (ham : a < m) (hmb : m ≤ b) (hb : b + 1 < k) :
    cutValue k W (fun v => decide (a ≤ v ∧ v ≤ b)) ≠ c := by
  intro hc
  have h1 := h.tails hT (b := k - 2) (by omega) (by omega)
  have h2 := (h.meet hc h1 (x := m) (y := 0) (by omega) (by omega) (by simp; omega) (by simp; omega) (by simp; omega) (by simp; omega)).2
  have h3 := h.compl h2
  have h4 := h.insert (i := a) (v := k - 1) ha (by omega) (by omega)
  rw [h.last] at h4
  have h5 : cutValue k W (fun u => decide (u < a) || decide (u = k - 1)) = c := by
    rw [← h3]
    refine cutValue_congr fun v hv => ?_
    rw [← Bool.decide_or, ← Bool.decide_or, ← decide_not]
    exact decide_eq_decide.2 (by omega)
  have h6 := hT.before a ha ham
  have h7 := h.two_links (i := a) (u := a) (v := k - 1) ha (by omega) (le_refl _) (by omega) (by omega) (by omega) (by omega)
  omega

theorem turn_good (h : Prefixes k W c) (hadj : 0 < W 0 (k - 1)) (hT : Turn k W m) : GoodOrder k (fun u v => W (turn m k u) (turn m k v)) c := by
  have hk := h.two
  have h1 := hT.pos
  have h2 := hT.le
  refine ⟨⟨fun u v => h.symm _ _, hk, fun X hX => ?_, fun i hi hi' => ?_⟩, fun X hX hc h0 => ?_⟩
  · rw [cutValue_turn h1 h2]
    obtain ⟨⟨u, hu, hu'⟩, ⟨v, hv, hv'⟩⟩ := hX
    exact h.least _ ⟨⟨turn m k u, turn_lt h1 h2 hu, by simpa only [turn_turn h2 hu] using hu'⟩, ⟨turn m k v, turn_lt h1 h2 hv, by simpa only [turn_turn h2 hv] using hv'⟩⟩
  · rw [cutValue_turn h1 h2]
    exact h.turn_pre hT hi hi'
  · rw [cutValue_turn h1 h2] at hc
    have hp : ProperCut k (fun v => X (turn m k v)) := by
      obtain ⟨⟨u, hu, hu'⟩, ⟨v, hv, hv'⟩⟩ := hX
      exact ⟨⟨turn m k u, turn_lt h1 h2 hu, by simpa only [turn_turn h2 hu] using hu'⟩, ⟨turn m k v, turn_lt h1 h2 hv, by simpa only [turn_turn h2 hv] using hv'⟩⟩
    have h0' : X (turn m k 0) = false := by
      have : turn m k 0 = 0 := if_pos (by omega)
      rw [this]; exact h0
    have hX' : ∀ v, v < k → X v = X (turn m k (turn m k v)) := fun v hv => by rw [turn_turn h2 hv]
    rcases (h.good hadj).shape _ hp hc h0' with ⟨i, i1, i2, i3⟩ | ⟨a, b, a1, a2, a3, a4⟩
    · rcases Nat.lt_or_ge m i with hm | hm
      · right
        refine ⟨m, k - 1 + m - i, by omega, by omega, by omega, fun v hv => ?_⟩
        rw [hX' v hv, i3 _ (turn_lt h1 h2 hv)]
        refine decide_eq_decide.2 ?_
        unfold turn; split <;> omega
      · left
        refine ⟨i, i1, i2, fun v hv => ?_⟩
        rw [hX' v hv, i3 _ (turn_lt h1 h2 hv)]
        refine decide_eq_decide.2 ?_
        unfold turn; split <;> omega
    · rcases Nat.lt_or_ge b m with hb | hb
      · right
        refine ⟨a, b, a1, a2, a3, fun v hv => ?_⟩
        rw [hX' v hv, a4 _ (turn_lt h1 h2 hv)]
        refine decide_eq_decide.2 ?_
        unfold turn; split <;> omega
      · rcases Nat.lt_or_ge a m with ha | ha
        · exact absurd ((cutValue_congr fun v hv => (a4 v hv)).symm.trans hc) (h.no_over hT a1 ha hb a3)
        · rcases Nat.eq_or_lt_of_le ha with e | e
          · left
            refine ⟨k - 1 + m - b, by omega, by omega, fun v hv => ?_⟩
            rw [hX' v hv, a4 _ (turn_lt h1 h2 hv)]
            refine decide_eq_decide.2 ?_
            unfold turn; split <;> omega
          · right
            refine ⟨k - 1 + m - b, k - 1 + m - a, by omega, by omega, by omega, fun v hv => ?_⟩
            rw [hX' v hv, a4 _ (turn_lt h1 h2 hv)]
            refine decide_eq_decide.2 ?_
            unfold turn; split <;> omega

end Prefixes
end VieCut
