import Verif.Proof.QueueLast
import Verif.Proof.PrefixTurn

/-!
# The order of the components in `findSTCactus`, in general
-/

namespace VieCut
open Finset MGraph Function

namespace STCactus

variable {k c m : Nat} {W : Nat → Nat → Nat} {C : MGraph}

/-- Invariant of the main loop: `j` components were taken. -/
structure TInv (k c m : Nat) (W : Nat → Nat → Nat) (C : MGraph) (j : Nat) (o : Ordering) : Prop where
  hist : Hist (c + 1) k o.q (fun v => if v < k ∧ j ≤ turn m k v then some (linkTo k W (fun u => decide (turn m k u < j)) v) else none)
  best : j < k → (o.q.deleteMax false).1 = turn m k j
  map : ∀ i, i < j → o.map (turn m k i) = i
  rev : ∀ i, i < j → o.rev i = turn m k i
  st : ∃ cont pos, o.st = { resizePositions (MGraph.start k) C.origNodes with lastNode := k, cont := cont, pos := pos } ∧
    (∀ i, i < j → cont i = C.cont (turn m k i)) ∧ ∀ v i, i < j → v ∈ C.cont (turn m k i) → pos v = i

theorem link_le (hP : Prefixes k W c) (hT : Turn k W m) {j v : Nat} (hj : 0 < j) (hv : v < k) (hjv : j ≤ turn m k v) :
    linkTo k W (fun u => decide (turn m k u < j)) v ≤ c := by
  have hlt := turn_lt hT.pos hT.le hv
  rw [← hP.turn_pre hT hj (by omega)]
  exact link_le_cut _ hv (by simp [hjv])

theorem link_one (hP : Prefixes k W c) (hT : Turn k W m) (v : Nat) : linkTo k W (fun u => decide (turn m k u < 1)) v = W 0 v := by
  have h1 := hT.pos
  have h2 := hT.le
  unfold linkTo
  rw [Finset.sum_eq_single 0]
  · have : turn m k 0 = 0 := if_pos (by omega)
    simp [this]
  · intro b hb hb0
    have hb := mem_range.1 hb
    have : ¬ turn m k b < 1 := by unfold turn; split <;> omega
    simp [this]
  · intro h; exact absurd (mem_range.2 (by have := hP.two; omega)) h

theorem link_succ (hT : Turn k W m) {j v : Nat} (hj : j < k) :
    linkTo k W (fun u => decide (turn m k u < j + 1)) v = linkTo k W (fun u => decide (turn m k u < j)) v + W (turn m k j) v := by
  have hlt := turn_lt hT.pos hT.le hj
  unfold linkTo
  rw [show W (turn m k j) v = ∑ u ∈ range k, if u = turn m k j then W u v else 0 from by
    rw [Finset.sum_ite_eq' (range k) (turn m k j), if_pos (mem_range.2 hlt)], ← Finset.sum_add_distrib]
  refine Finset.sum_congr rfl fun u hu => ?_
  by_cases e : u = turn m k j
  · subst e
    simp [turn_turn hT.le hj]
  · have hne : turn m k u ≠ j := by
      intro h; apply e; rw [← h, turn_turn hT.le (mem_range.1 hu)]
    have : turn m k u < j + 1 ↔ turn m k u < j := by omega
    simp only [this, if_neg e, Nat.add_zero]

theorem start_turn (H : Table k C W) (hP : Prefixes k W c) (hadj : 0 < W 0 (k - 1)) (hT : Turn k W m) (hK : 2 * (c + 1) < 2 ^ 32) :
    TInv k c m W C 1 (orderStart c C 0) := by
  have hk := hP.two
  have h1 := hT.pos
  have h2 := hT.le
  have hF : ∀ u v, u < k → v < k → W u v = W v u := fun u v _ _ => hP.symm u v
  have P := H.pairs hF
  have t0 : turn m k 0 = 0 := if_pos (by omega)
  have hiff : ∀ v, v < k → (1 ≤ turn m k v ↔ v ≠ 0) := by
    intro v hv
    constructor
    · rintro h rfl; omega
    · intro h
      by_contra hc
      have : turn m k v = 0 := by omega
      apply h
      rw [← turn_turn h2 hv, this, t0]
  have hle : ∀ v, v < k → v ≠ 0 → W 0 v ≤ c := by
    intro v hv hv0
    rw [← link_one hP hT v]
    exact link_le hP hT (by omega) hv ((hiff v hv).2 hv0)
  refine ⟨?_, fun hk1 => ?_, ?_, ?_, ?_⟩
  · convert start_history P (by omega : 0 < k) (by omega) hle using 1
    funext v
    by_cases hv : v < k
    · rw [link_one hP hT]
      simp only [hv, true_and, hiff v hv]
    · simp [hv]
  · refine start_last H hF (by omega) hK hle (turn_lt h1 h2 hk1) ?_ ?_
    · rw [← hiff _ (turn_lt h1 h2 hk1), turn_turn h2 hk1]
    · intro u hu hu0 hne
      have := hP.turn_best hadj hT (j := 1) (by omega) hk1 hu ((hiff u hu).2 hu0) hne
      rwa [link_one hP hT, link_one hP hT] at this
  · intro i hi
    have : i = 0 := by omega
    subst this; rfl
  · intro i hi
    have : i = 0 := by omega
    subst this; rw [t0]; rfl
  · refine ⟨update (resizePositions (MGraph.start k) C.origNodes).cont 0 (C.cont 0),
      fun v => if v ∈ C.cont 0 then 0 else (resizePositions (MGraph.start k) C.origNodes).pos v, ?_, ?_, ?_⟩
    · unfold orderStart setMembers
      dsimp only
      rw [start_graph P]
    · intro i hi
      have : i = 0 := by omega
      subst this
      rw [t0]; simp
    · intro v i hi hv
      have : i = 0 := by omega
      subst this
      rw [t0] at hv
      simp [hv]

theorem TInv.step (H : Table k C W) (hD : Disjoint k C) (hP : Prefixes k W c) (hadj : 0 < W 0 (k - 1)) (hT : Turn k W m) (hK : 2 * (c + 1) < 2 ^ 32)
    {j : Nat} {o : Ordering} (h : TInv k c m W C j o) (hj : 0 < j) (hjk : j < k) : TInv k c m W C (j + 1) (orderStep c C o j) := by
  have h1 := hT.pos
  have h2 := hT.le
  have hF : ∀ u v, u < k → v < k → W u v = W v u := fun u v _ _ => hP.symm u v
  have P := H.pairs hF
  have hb := h.best hjk
  have hx := turn_lt h1 h2 hjk
  have hin : (fun v => if v < k ∧ j ≤ turn m k v then some (linkTo k W (fun u => decide (turn m k u < j)) v) else none) (turn m k j) =
      some (linkTo k W (fun u => decide (turn m k u < j)) (turn m k j)) := if_pos ⟨hx, by rw [turn_turn h2 hjk]⟩
  have hdel := h.hist.deleteMax hin
  rw [hb] at hdel
  have hne : ∀ v, v < k → v ≠ turn m k j → turn m k v ≠ j := fun v hv hne he => hne (by rw [← he, turn_turn h2 hv])
  -- the keys after the vertex was taken
  have hm1 : ∀ v y, update (fun v => if v < k ∧ j ≤ turn m k v then some (linkTo k W (fun u => decide (turn m k u < j)) v) else none) (turn m k j) none v = some y →
      v < k ∧ v ≠ turn m k j ∧ j + 1 ≤ turn m k v ∧ y = linkTo k W (fun u => decide (turn m k u < j)) v := by
    intro v y hy
    by_cases hv : v = turn m k j
    · subst hv; rw [update_self] at hy; cases hy
    · rw [update_of_ne hv] at hy
      by_cases hc : v < k ∧ j ≤ turn m k v
      · rw [if_pos hc] at hy
        have := hne v hc.1 hv
        exact ⟨hc.1, hv, by omega, (Option.some.inj hy).symm⟩
      · rw [if_neg hc] at hy; cases hy
  have hmin : ∀ v, v < k → j + 1 ≤ turn m k v → min (linkTo k W (fun u => decide (turn m k u < j)) v + W (turn m k j) v) c =
      linkTo k W (fun u => decide (turn m k u < j + 1)) v := by
    intro v hv hjv
    rw [← link_succ hT hjk]
    exact min_eq_left (link_le hP hT (by omega) hv hjv)
  refine ⟨?_, fun hk1 => ?_, fun i hi => ?_, fun i hi => ?_, ?_⟩
  · have hr := raise_history P hK hx hdel
    unfold orderStep
    dsimp only
    rw [hb]
    convert hr using 1
    funext v
    by_cases hvb : v = turn m k j
    · subst hvb
      rw [turn_turn h2 hjk]; simp
    · rw [update_of_ne hvb]
      by_cases hv : v < k
      · have := hne v hv hvb
        by_cases hvl : j + 1 ≤ turn m k v
        · have hvl' : j ≤ turn m k v := by omega
          rw [if_pos ⟨hv, hvl⟩, if_pos ⟨hv, hvb⟩, if_pos ⟨hv, hvl'⟩, Option.map_some, hmin v hv hvl]
        · have hvl' : ¬ j ≤ turn m k v := by omega
          simp [hvl, hvl']
      · simp [hv]
  · have hv := turn_lt h1 h2 hk1
    have htt := turn_turn h2 hk1
    have hvx : turn m k (j + 1) ≠ turn m k j := by
      intro he
      rw [he, turn_turn h2 hjk] at htt; omega
    unfold orderStep
    dsimp only
    rw [hb]
    refine raise_last H hF hK hx hdel (by simp) hv hvx (a := linkTo k W (fun u => decide (turn m k u < j)) (turn m k (j + 1))) ?_ ?_ ?_
    · rw [update_of_ne hvx, if_pos ⟨hv, by omega⟩]
    · intro u y hu
      obtain ⟨a1, a2, a3, a4⟩ := hm1 u y hu
      rw [a4]
      exact link_le hP hT hj a1 (by omega)
    · intro u y hu hux huv hy
      obtain ⟨a1, a2, a3, a4⟩ := hm1 u y hy
      rw [a4, hmin u hu a3, hmin _ hv (by omega)]
      exact hP.turn_best hadj hT (by omega) hk1 hu a3 huv
  · unfold orderStep
    dsimp only
    rw [hb]
    by_cases e : i = j
    · subst e; simp
    · rw [update_of_ne]
      · exact h.map i (by omega)
      · intro he
        have := turn_turn h2 (show i < k by omega)
        rw [he, turn_turn h2 hjk] at this; omega
  · unfold orderStep
    dsimp only
    rw [hb]
    by_cases e : i = j
    · subst e; simp
    · rw [update_of_ne e]
      exact h.rev i (by omega)
  · obtain ⟨cont, pos, s1, s2, s3⟩ := h.st
    refine ⟨update cont j (C.cont (turn m k j)), fun v => if v ∈ C.cont (turn m k j) then j else pos v, ?_, ?_, ?_⟩
    · unfold orderStep setMembers
      dsimp only
      rw [hb, s1]
    · intro i hi
      by_cases e : i = j
      · subst e; simp
      · rw [update_of_ne e]
        exact s2 i (by omega)
    · intro v i hi hv
      by_cases e : i = j
      · subst e; simp [hv]
      · refine (if_neg ?_).trans (s3 v i (by omega) hv)
        intro hvb
        have := hD _ _ v (turn_lt h1 h2 (show i < k by omega)) hx hv hvb
        have h3 := turn_turn h2 (show i < k by omega)
        rw [this, turn_turn h2 hjk] at h3; omega

theorem order_turn (H : Table k C W) (hD : Disjoint k C) (hP : Prefixes k W c) (hadj : 0 < W 0 (k - 1)) (hT : Turn k W m) (hK : 2 * (c + 1) < 2 ^ 32) :
    TInv k c m W C k (order c C 0) := by
  have hk := hP.two
  have key : ∀ j, j + 1 ≤ k → TInv k c m W C (j + 1) (((List.range j).map (· + 1)).foldl (orderStep c C) (orderStart c C 0)) := by
    intro j
    induction j with
    | zero => intro _; exact start_turn H hP hadj hT hK
    | succ j ih =>
      intro hj
      rw [List.range_succ, List.map_append, List.foldl_append]
      simp only [List.map_cons, List.map_nil, List.foldl_cons, List.foldl_nil]
      exact (ih (by omega)).step H hD hP hadj hT hK (by omega) (by omega)
  have hi := key (k - 1) (by omega)
  rw [show k - 1 + 1 = k by omega] at hi
  unfold order
  rw [H.n]
  obtain ⟨cont, pos, s1, s2, s3⟩ := hi.st
  refine ⟨hi.hist, hi.best, hi.map, hi.rev, cont, pos, ?_, s2, s3⟩
  dsimp only
  rw [s1]
  rfl

end STCactus
end VieCut
