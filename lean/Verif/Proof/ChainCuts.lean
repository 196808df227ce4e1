import Verif.Proof.Isolating
import Verif.Proof.Cut

/-!
# Minimum cuts that all separate two vertices form a chain
-/

namespace VieCut
open Finset

/-- All cuts of minimum value `c` separate `s` from `t`, and every two vertices are separated by one of them. -/
structure ChainCuts (k : Nat) (W : Nat → Nat → Nat) (s t c : Nat) : Prop where
  symm : ∀ u v, W u v = W v u
  src : s < k
  sink : t < k
  least : ∀ X, ProperCut k X → c ≤ cutValue k W X
  sep : ∀ X, ProperCut k X → cutValue k W X = c → X s ≠ X t
  split : ∀ x y, x < k → y < k → x ≠ y → ∃ X : Nat → Bool, X x = true ∧ X y = false ∧ cutValue k W X = c

/-- `U` is a minimum cut with `s` inside. -/
structure ChainMem (k : Nat) (W : Nat → Nat → Nat) (s t c : Nat) (U : Nat → Bool) : Prop where
  src : U s = true
  sink : U t = false
  val : cutValue k W U = c

/-- Weight between `U` and `y`. -/
def linkTo (k : Nat) (W : Nat → Nat → Nat) (U : Nat → Bool) (y : Nat) : Nat := ∑ u ∈ range k, if U u = true then W u y else 0

variable {k : Nat} {W : Nat → Nat → Nat} {s t c : Nat}

namespace ChainCuts

theorem proper (h : ChainCuts k W s t c) {U : Nat → Bool} (hU : ChainMem k W s t c U) : ProperCut k U :=
  ⟨⟨s, h.src, hU.src⟩, ⟨t, h.sink, hU.sink⟩⟩

theorem chain (h : ChainCuts k W s t c) {U T : Nat → Bool} (hU : ChainMem k W s t c U) (hT : ChainMem k W s t c T) :
    (∀ x, x < k → U x = true → T x = true) ∨ (∀ x, x < k → T x = true → U x = true) := by
  by_contra hc
  push Not at hc
  obtain ⟨⟨x, hx, x1, x2⟩, ⟨y, hy, y1, y2⟩⟩ := hc
  have hp := cutValue_posimodular (n := k) h.symm U T
  have x2 : T x = false := by simpa using x2
  have y2 : U y = false := by simpa using y2
  have p1 : ProperCut k (fun x => U x && !T x) := ⟨⟨x, hx, by simp [x1, x2]⟩, ⟨y, hy, by simp [y2]⟩⟩
  have p2 : ProperCut k (fun x => T x && !U x) := ⟨⟨y, hy, by simp [y1, y2]⟩, ⟨x, hx, by simp [x2]⟩⟩
  have q1 := h.least _ p1
  have q2 := h.least _ p2
  rw [hU.val, hT.val] at hp
  exact h.sep _ p1 (by omega) (by simp [hU.src, hT.src, hU.sink])

/-- Every two vertices are separated by a member. -/
theorem split' (h : ChainCuts k W s t c) {x y : Nat} (hx : x < k) (hy : y < k) (hxy : x ≠ y) :
    ∃ T, ChainMem k W s t c T ∧ T x ≠ T y := by
  obtain ⟨X, h1, h2, h3⟩ := h.split x y hx hy hxy
  have hp : ProperCut k X := ⟨⟨x, hx, h1⟩, ⟨y, hy, h2⟩⟩
  have hs := h.sep X hp h3
  cases hs' : X s with
  | true =>
    refine ⟨X, ⟨hs', ?_, h3⟩, by simp [h1, h2]⟩
    rw [hs'] at hs
    cases ht : X t with
    | true => exact absurd ht.symm hs
    | false => rfl
  | false =>
    refine ⟨fun v => !X v, ⟨by simp [hs'], ?_, by rw [cutValue_compl h.symm]; exact h3⟩, by simp [h1, h2]⟩
    rw [hs'] at hs
    cases ht : X t with
    | false => exact absurd ht.symm hs
    | true => simp [ht]

/-- The next member contains one vertex more. -/
theorem next (h : ChainCuts k W s t c) {U : Nat → Bool} (hU : (∀ x, U x = false) ∨ ChainMem k W s t c U) {x y : Nat} (hx : x < k)
    (hy : y < k) (hxy : x ≠ y) (hUx : U x = false) (hUy : U y = false) :
    ∃ b, b < k ∧ U b = false ∧ ChainMem k W s t c (fun v => U v || decide (v = b)) := by
  classical
  -- members above `U`
  have habove : ∀ T, ChainMem k W s t c T → ∀ a b, a < k → b < k → U a = false → U b = false → T a ≠ T b →
      (∀ v, v < k → U v = true → T v = true) := by
    intro T hT a b ha hb hUa hUb hab
    rcases hU with h0 | hU
    · intro v _ hv; rw [h0 v] at hv; cases hv
    rcases h.chain hU hT with h1 | h1
    · exact h1
    · exfalso
      cases hTa : T a with
      | true => have := h1 a ha hTa; rw [hUa] at this; cases this
      | false =>
        cases hTb : T b with
        | true => have := h1 b hb hTb; rw [hUb] at this; cases this
        | false => exact hab (by rw [hTa, hTb])
  let Q : Nat → Prop := fun m => ∃ T, ChainMem k W s t c T ∧ (∀ v, v < k → U v = true → T v = true) ∧ (∃ b, b < k ∧ U b = false ∧ T b = true) ∧
    ((range k).filter (fun v => T v = true)).card = m
  have hQ : ∃ m, Q m := by
    obtain ⟨T, hT, hne⟩ := h.split' hx hy hxy
    refine ⟨_, T, hT, habove T hT x y hx hy hUx hUy hne, ?_, rfl⟩
    cases hTx : T x with
    | true => exact ⟨x, hx, hUx, hTx⟩
    | false =>
      refine ⟨y, hy, hUy, ?_⟩
      cases hTy : T y with
      | true => rfl
      | false => exact absurd (hTx.trans hTy.symm) hne
  obtain ⟨M, hM, hab, ⟨b, hb, hUb, hMb⟩, hcard⟩ := Nat.find_spec hQ
  have hmin := fun m (hm : m < Nat.find hQ) => Nat.find_min hQ hm
  refine ⟨b, hb, hUb, ?_⟩
  have honly : ∀ b', b' < k → U b' = false → M b' = true → b' = b := by
    intro b' hb' hUb' hMb'
    by_contra hne
    obtain ⟨T, hT, hTne⟩ := h.split' hb' hb hne
    have ha := habove T hT b' b hb' hb hUb' hUb hTne
    have hnot : ∃ z, z < k ∧ M z = true ∧ T z = false ∧ ∃ z', z' < k ∧ U z' = false ∧ T z' = true := by
      cases h1 : T b' with
      | true =>
        cases h2 : T b with
        | true => exact absurd (h1.trans h2.symm) hTne
        | false => exact ⟨b, hb, hMb, h2, b', hb', hUb', h1⟩
      | false =>
        cases h2 : T b with
        | true => exact ⟨b', hb', hMb', h1, b, hb, hUb, h2⟩
        | false => exact absurd (h1.trans h2.symm) hTne
    obtain ⟨z, hz, z1, z2, z', hz', z3, z4⟩ := hnot
    have hsub : ∀ v, v < k → T v = true → M v = true := by
      rcases h.chain hM hT with h1 | h1
      · have := h1 z hz z1; rw [z2] at this; cases this
      · exact h1
    refine hmin ((range k).filter (fun v => T v = true)).card ?_ ⟨T, hT, ha, ⟨z', hz', z3, z4⟩, rfl⟩
    rw [← hcard]
    refine Finset.card_lt_card ⟨fun v hv => ?_, fun hh => ?_⟩
    · rw [mem_filter, mem_range] at hv ⊢
      exact ⟨hv.1, hsub v hv.1 hv.2⟩
    · have := hh (mem_filter.2 ⟨mem_range.2 hz, z1⟩)
      rw [mem_filter, z2] at this
      simp at this
  have hMeq : ∀ v, v < k → M v = (U v || decide (v = b)) := by
    intro v hv
    cases hUv : U v with
    | true => simp [hab v hv hUv]
    | false =>
      by_cases hvb : v = b
      · subst hvb; simp [hMb]
      · cases hMv : M v with
        | true => exact absurd (honly v hv hUv hMv) hvb
        | false => simp [hvb]
  exact ⟨by rw [← hMeq s h.src]; exact hM.src, by rw [← hMeq t h.sink]; exact hM.sink, by rw [← cutValue_congr hMeq]; exact hM.val⟩

end ChainCuts

/-- Adding a vertex to a set. -/
theorem cut_insert (hw : ∀ u v, W u v = W v u) (U : Nat → Bool) {b : Nat} (hb : b < k) (hUb : U b = false) :
    cutValue k W U + cutValue k W (fun v => decide (v = b)) = cutValue k W (fun v => U v || decide (v = b)) + 2 * linkTo k W U b := by
  have h1 := two_cutValue (n := k) hw U
  have h2 := two_cutValue (n := k) hw (fun v => decide (v = b))
  have h3 := two_cutValue (n := k) hw (fun v => U v || decide (v = b))
  have h4 : linkTo k W U b = wsum k W (fun u v => ind (U u = true ∧ v = b)) := by
    unfold linkTo wsum
    refine Finset.sum_congr rfl fun u _ => ?_
    rw [Finset.sum_eq_single b]
    · by_cases h : U u = true <;> simp [h, ind]
    · intro v _ hv; simp [hv, ind]
    · intro h; exact absurd (mem_range.2 hb) h
  have h5 : linkTo k W U b = wsum k W (fun u v => ind (U v = true ∧ u = b)) := by
    rw [h4, ← wsum_swap hw]
  have h6 : wsum k W (fun u v => ind (U u ≠ U v) + ind (decide (u = b) ≠ decide (v = b))) =
      wsum k W (fun u v => ind ((U u || decide (u = b)) ≠ (U v || decide (v = b))) + (ind (U u = true ∧ v = b) + ind (U u = true ∧ v = b) +
        (ind (U v = true ∧ u = b) + ind (U v = true ∧ u = b)))) := by
    refine wsum_congr fun u v _ _ => ?_
    by_cases hu : u = b
    · subst hu
      by_cases hv : v = u
      · subst hv; simp [hUb, ind]
      · cases hUv : U v <;> simp [hUb, hUv, hv, ind]
    · by_cases hv : v = b
      · subst hv
        cases hUu : U u <;> simp [hUb, hUu, hu, ind]
      · cases hUu : U u <;> cases hUv : U v <;> simp [hu, hv, ind, hUu, hUv]
  rw [wsum_add, wsum_add, wsum_add, wsum_add, wsum_add, ← h4, ← h5] at h6
  omega

theorem cut_eq_links (U : Nat → Bool) : cutValue k W U = ∑ y ∈ range k, if U y = false then linkTo k W U y else 0 := by
  unfold cutValue linkTo
  rw [Finset.sum_comm]
  refine Finset.sum_congr rfl fun y _ => ?_
  by_cases h : U y = false
  · rw [if_pos h]
    refine Finset.sum_congr rfl fun u _ => ?_
    simp [h]
  · rw [if_neg h]
    refine Finset.sum_eq_zero fun u _ => ?_
    simp [h]

theorem link_le_cut (U : Nat → Bool) {y : Nat} (hy : y < k) (h : U y = false) : linkTo k W U y ≤ cutValue k W U := by
  rw [cut_eq_links]
  refine Nat.le_trans ?_ (Finset.single_le_sum (f := fun y => if U y = false then linkTo k W U y else 0) (fun _ _ => Nat.zero_le _)
    (mem_range.2 hy))
  simp [h]

theorem two_links_le_cut (U : Nat → Bool) {y b : Nat} (hy : y < k) (hb : b < k) (hyb : y ≠ b) (h : U y = false) (h' : U b = false) :
    linkTo k W U y + linkTo k W U b ≤ cutValue k W U := by
  rw [cut_eq_links]
  have := Finset.sum_le_sum_of_subset (f := fun y => if U y = false then linkTo k W U y else 0)
    (s := {y, b}) (t := range k) (by intro v hv; simp at hv; rcases hv with rfl | rfl <;> simpa)
  rw [Finset.sum_pair hyb] at this
  simpa [h, h'] using this

/-- The vertex that leads to the next member has the largest weight to the current one. -/
theorem ChainCuts.heaviest (h : ChainCuts k W s t c) {U : Nat → Bool} (hU : ChainMem k W s t c U) {b : Nat} (hb : b < k) (hUb : U b = false)
    (hM : ChainMem k W s t c (fun v => U v || decide (v = b))) {y : Nat} (hy : y < k) (hUy : U y = false) (hyb : y ≠ b) :
    linkTo k W U y < linkTo k W U b := by
  have h1 := cut_insert h.symm U hb hUb
  have h2 := two_links_le_cut (W := W) U hy hb hyb hUy hUb
  rw [hU.val] at h1 h2
  have h3 := hM.val
  rw [h3] at h1
  have hbs : s ≠ b := by rintro rfl; rw [hU.src] at hUb; cases hUb
  have hbt : t ≠ b := by
    rintro rfl
    have := hM.sink
    simp at this
  have hp : ProperCut k (fun v => decide (v = b)) := ⟨⟨b, hb, by simp⟩, ⟨s, h.src, by simp [hbs]⟩⟩
  have h4 := h.least _ hp
  have h5 : cutValue k W (fun v => decide (v = b)) ≠ c := fun e => h.sep _ hp e (by simp [hbs, hbt])
  omega

/-- The weight of a middle vertex is more than the minimum cut. -/
theorem ChainCuts.middle (h : ChainCuts k W s t c) {b : Nat} (hb : b < k) (hbs : b ≠ s) (hbt : b ≠ t) :
    c < cutValue k W (fun v => decide (v = b)) := by
  have hp : ProperCut k (fun v => decide (v = b)) := ⟨⟨b, hb, by simp⟩, ⟨s, h.src, by simp [hbs.symm]⟩⟩
  refine lt_of_le_of_ne (h.least _ hp) fun e => h.sep _ hp e.symm ?_
  simp [hbs.symm, hbt.symm]

/-- The vertices in the order in which the members grow. -/
structure ChainOrder (k : Nat) (W : Nat → Nat → Nat) (s t c : Nat) (l : List Nat) : Prop where
  nodup : l.Nodup
  lt : ∀ x ∈ l, x < k
  mem : ∀ i, 1 ≤ i → i < k → i ≤ l.length → ChainMem k W s t c (fun v => decide (v ∈ l.take i))

theorem ChainOrder.full_mem {l : List Nat} (h : ChainOrder k W s t c l) (hl : l.length = k) {x : Nat} (hx : x < k) : x ∈ l := by
  have h1 : l.toFinset = range k := by
    refine Finset.eq_of_subset_of_card_le (fun x hx => mem_range.2 (h.lt x (List.mem_toFinset.1 hx))) ?_
    rw [card_range, List.toFinset_card_of_nodup h.nodup, hl]
  exact List.mem_toFinset.1 (h1 ▸ mem_range.2 hx)

/-- The members are exactly the prefixes. -/
theorem ChainOrder.prefix (hC : ChainCuts k W s t c) {l : List Nat} (h : ChainOrder k W s t c l) (hl : l.length = k) {S : Nat → Bool}
    (hS : ChainMem k W s t c S) : ∃ i, 1 ≤ i ∧ i < k ∧ ∀ v, v < k → S v = decide (v ∈ l.take i) := by
  classical
  let Q : Nat → Prop := fun i => ∃ v, v ∈ l.take i ∧ S v = false
  have hQ : ∃ i, Q i := ⟨k, t, by rw [← hl, List.take_length]; exact h.full_mem hl hC.sink, hS.sink⟩
  obtain ⟨x, hx1, hx2⟩ := Nat.find_spec hQ
  have hmin := fun m (hm : m < Nat.find hQ) => Nat.find_min hQ hm
  have hle : Nat.find hQ ≤ k := Nat.find_min' hQ ⟨t, by rw [← hl, List.take_length]; exact h.full_mem hl hC.sink, hS.sink⟩
  generalize Nat.find hQ = j at *
  have hk2 : 2 ≤ k := by
    have := hC.src; have := hC.sink
    by_contra hc
    have h1 : s = t := by omega
    have := hS.src; rw [h1, hS.sink] at this; cases this
  have hj2 : 2 ≤ j := by
    by_contra hc
    have hs1 := (h.mem 1 (le_refl _) (by omega) (by omega)).src
    have hs1 : s ∈ l.take 1 := by simpa using hs1
    have h1 : x ∈ l.take 1 := by
      refine List.take_subset_take_left l (by omega) hx1
    have hlen : (l.take 1).length ≤ 1 := List.length_take_le 1 l
    have : x = s := by
      match hh : l.take 1, hs1, h1, hlen with
      | [], a, _, _ => simp at a
      | [z], a, b, _ => simp at a b; rw [a, b]
      | _ :: _ :: _, _, _, d => simp at d
    rw [this, hS.src] at hx2; cases hx2
  refine ⟨j - 1, by omega, by omega, fun v hv => ?_⟩
  have hbefore : ∀ u, u ∈ l.take (j - 1) → S u = true := by
    intro u hu
    cases hSu : S u with
    | true => rfl
    | false => exact absurd ⟨u, hu, hSu⟩ (hmin (j - 1) (by omega))
  have htake : l.take j = l.take (j - 1) ++ [l[j - 1]'(by omega)] := by
    conv_lhs => rw [show j = (j - 1) + 1 by omega]
    rw [List.take_succ_eq_append_getElem (by omega)]
  have hxl : x = l[j - 1]'(by omega) := by
    rw [htake, List.mem_append, List.mem_singleton] at hx1
    rcases hx1 with h1 | h1
    · have := hbefore x h1; rw [hx2] at this; cases this
    · exact h1
  have hafter : ∀ u, u < k → S u = true → u ∈ l.take j := by
    rcases Nat.lt_or_ge j k with hjk | hjk
    · have hm := h.mem j (by omega) hjk (by omega)
      rcases hC.chain hm hS with h1 | h1
      · have := h1 x (h.lt x (List.take_subset _ _ hx1)) (by simpa using hx1)
        rw [hx2] at this; cases this
      · intro u hu hSu
        simpa using h1 u hu hSu
    · intro u hu _
      rw [List.take_of_length_le (by omega)]
      exact h.full_mem hl hu
  cases hSv : S v with
  | true =>
    have := hafter v hv hSv
    rw [htake, List.mem_append, List.mem_singleton, ← hxl] at this
    rcases this with h1 | h1
    · simp [h1]
    · rw [h1, hx2] at hSv; cases hSv
  | false =>
    have : ¬ v ∈ l.take (j - 1) := fun hh => by rw [hbefore v hh] at hSv; cases hSv
    simp [this]

end VieCut
