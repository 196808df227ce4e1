import Verif.Proof.TurnOrder
import Verif.Proof.STCactusBuild

/-!
# The cycles that `findSTCactus` finds
-/

namespace VieCut
open Finset MGraph Function

namespace STCactus

variable {k c m : Nat} {W : Nat → Nat → Nat} {C : MGraph}

/-- Sums over the edges of a vertex. -/
theorem Pairs.sum_edges (H : Pairs k C W) {x : Nat} (hx : x < k) (f : Nat → Nat → Int) :
    ∑ e ∈ range (C.len x), f (C.edge x e).target (C.edge x e).weight = ∑ y ∈ (range k).erase x, f y (W x y) := by
  refine Finset.sum_bij (fun e _ => (C.edge x e).target) ?_ ?_ ?_ ?_
  · intro e he
    obtain ⟨e1, e2, e3⟩ := H.edge x e hx (mem_range.1 he)
    exact Finset.mem_erase.2 ⟨e2, mem_range.2 e1⟩
  · intro e he e' he' h
    exact H.inj x e e' hx (mem_range.1 he) (mem_range.1 he') h
  · intro y hy
    rw [Finset.mem_erase, mem_range] at hy
    obtain ⟨e, he, ht⟩ := H.all x y hx hy.2 (Ne.symm hy.1)
    exact ⟨e, mem_range.2 he, ht⟩
  · intro e he
    rw [(H.edge x e hx (mem_range.1 he)).2.2]

theorem cycleDegree_sum (x : Nat) (cyc : List Nat) (deg : Int) :
    cycleDegree C x cyc deg = deg + ∑ e ∈ range (C.len x), if (C.edge x e).target ∈ cyc then -((C.edge x e).weight : Int) else (C.edge x e).weight := by
  unfold cycleDegree
  generalize C.len x = n
  induction n with
  | zero => simp
  | succ n ih =>
    rw [List.range_succ, List.foldl_append, ih, Finset.sum_range_succ]
    simp only [List.foldl_cons, List.foldl_nil]
    split <;> omega

/-- The running degree is the value of the cut around the cycle. -/
theorem cycleDegree_eq (H : Pairs k C W) (hw : ∀ u v, W u v = W v u) {x : Nat} (hx : x < k) {cyc : List Nat} (hxc : x ∉ cyc) :
    cycleDegree C x cyc (cutValue k W (fun v => decide (v ∈ cyc)) : Nat) = (cutValue k W (fun v => decide (v ∈ x :: cyc)) : Nat) := by
  have h0 := degree_eq H hx
  have hins := cut_insert (k := k) hw (fun v => decide (v ∈ cyc)) hx (by simp [hxc])
  have hcongr : cutValue k W (fun v => decide (v ∈ cyc) || decide (v = x)) = cutValue k W (fun v => decide (v ∈ x :: cyc)) := by
    refine cutValue_congr fun v _ => ?_
    rw [← Bool.decide_or]
    exact decide_eq_decide.2 (by rw [List.mem_cons]; exact or_comm)
  rw [hcongr] at hins
  rw [cycleDegree_sum] at h0 ⊢
  rw [H.sum_edges hx (fun y w => if y ∈ ([] : List Nat) then -(w : Int) else w)] at h0
  rw [H.sum_edges hx (fun y w => if y ∈ cyc then -(w : Int) else w)]
  have hl : (linkTo k W (fun v => decide (v ∈ cyc)) x : Int) = ∑ y ∈ (range k).erase x, if y ∈ cyc then (W x y : Int) else 0 := by
    unfold linkTo
    rw [← Finset.sum_erase_add (range k) _ (mem_range.2 hx), if_neg (by simp [hxc]), Nat.add_zero]
    push_cast
    refine Finset.sum_congr rfl fun y _ => ?_
    by_cases hy : y ∈ cyc
    · simp [hy, hw y x]
    · simp [hy]
  have hs : (∑ y ∈ (range k).erase x, if y ∈ cyc then -(W x y : Int) else (W x y : Int)) =
      (∑ y ∈ (range k).erase x, (W x y : Int)) - 2 * ∑ y ∈ (range k).erase x, (if y ∈ cyc then (W x y : Int) else 0) := by
    rw [Finset.mul_sum, ← Finset.sum_sub_distrib]
    refine Finset.sum_congr rfl fun y _ => ?_
    split <;> omega
  simp only [List.not_mem_nil, if_false] at h0
  rw [hs, ← hl]
  omega

/-- Value of the cut around an interval of the new order. -/
def around (k m : Nat) (W : Nat → Nat → Nat) (a b : Nat) : Nat :=
  cutValue k (fun u v => W (turn m k u) (turn m k v)) (fun v => decide (a ≤ v ∧ v ≤ b))

theorem around_cyc (hT : Turn k W m) {a b : Nat} {cyc : List Nat} (hcyc : ∀ v, v < k → (v ∈ cyc ↔ a ≤ turn m k v ∧ turn m k v ≤ b)) :
    cutValue k W (fun v => decide (v ∈ cyc)) = around k m W a b := by
  unfold around
  rw [cutValue_turn hT.pos hT.le]
  exact cutValue_congr fun v hv => decide_eq_decide.2 (hcyc v hv)

/-- The inner loop finds the longest cycle. -/
theorem cycle_spec (H : Pairs k C W) (hP : Prefixes k W c) (hc : 0 < c) (hadj : 0 < W 0 (k - 1)) (hT : Turn k W m) {rev : Nat → Nat}
    (hrev : ∀ i, i < k → rev i = turn m k i) {a : Nat} (ha : 0 < a) :
    ∀ (fuel i n : Nat) (cyc : List Nat) (deg : Int), a ≤ i → i < k → k < fuel + i →
      (∀ v, v < k → (v ∈ cyc ↔ a ≤ turn m k v ∧ turn m k v < i)) → cyc.length = i - a →
      deg = (cutValue k W (fun v => decide (v ∈ cyc)) : Nat) → (deg = 0 ∨ deg = c) → (i = a → n = rev a) →
      ∃ cyc' j n', cycle c C rev fuel deg cyc i n = some (cyc', j, n') ∧ i ≤ j ∧ j < k ∧ cyc'.length = j - a ∧ (j = a → n' = rev a) ∧
        (∀ b, i ≤ b → b < j → around k m W a b = c) ∧ (j = k - 1 ∨ around k m W a j ≠ c) := by
  intro fuel
  induction fuel with
  | zero => intro i n cyc deg h1 h2 h3; omega
  | succ fuel ih =>
    intro i n cyc deg h1 h2 h3 hcyc hlen hdeg hok hn
    unfold cycle
    rw [H.n]
    by_cases hlast : i + 1 < k
    swap
    · rw [if_neg (by tauto)]
      exact ⟨cyc, i, n, rfl, le_refl _, h2, hlen, hn, fun b b1 b2 => by omega, Or.inl (by omega)⟩
    rw [if_pos ⟨hok, hlast⟩]
    dsimp only
    have hx : rev i < k := by rw [hrev i h2]; exact turn_lt hT.pos hT.le h2
    have htt : turn m k (rev i) = i := by rw [hrev i h2]; exact turn_turn hT.le h2
    have hxc : rev i ∉ cyc := by rw [hcyc _ hx, htt]; omega
    rw [hdeg, cycleDegree_eq H hP.symm hx hxc]
    have hcyc' : ∀ v, v < k → (v ∈ rev i :: cyc ↔ a ≤ turn m k v ∧ turn m k v ≤ i) := by
      intro v hv
      rw [List.mem_cons, hcyc v hv]
      constructor
      · rintro (rfl | h)
        · rw [htt]; omega
        · omega
      · rintro ⟨v1, v2⟩
        rcases Nat.lt_or_ge (turn m k v) i with h | h
        · exact Or.inr ⟨v1, h⟩
        · left
          rw [hrev i h2, ← turn_turn hT.le hv, show turn m k v = i by omega]
    have har := around_cyc hT hcyc'
    by_cases he : cutValue k W (fun v => decide (v ∈ rev i :: cyc)) = c
    · rw [if_pos (by exact_mod_cast he)]
      obtain ⟨cyc', j, n', r1, r2, r3, r4, r5, r6, r7⟩ := ih (i + 1) (rev i) (rev i :: cyc) _ (by omega) hlast (by omega)
        (fun v hv => by rw [hcyc' v hv]; omega) (by simp; omega) rfl (Or.inr (by exact_mod_cast he)) (by omega)
      refine ⟨cyc', j, n', r1, by omega, r3, r4, r5, fun b b1 b2 => ?_, r7⟩
      rcases Nat.eq_or_lt_of_le b1 with e | e
      · rw [← e, ← har, he]
      · exact r6 b e b2
    · rw [if_neg (by exact_mod_cast he)]
      have hge : c ≤ cutValue k W (fun v => decide (v ∈ rev i :: cyc)) := by
        rw [har]
        exact (hP.turn_good hadj hT).least _ ⟨⟨i, h2, by simp [h1]⟩, ⟨0, by omega, by simp; omega⟩⟩
      cases fuel with
      | zero => omega
      | succ fuel =>
        unfold cycle
        rw [H.n, if_neg]
        · exact ⟨cyc, i, rev i, rfl, le_refl _, h2, hlen, fun e => by rw [e], fun b b1 b2 => by omega, Or.inr (by rw [← har]; exact he)⟩
        · rintro ⟨e1 | e1, -⟩
          · have : (cutValue k W (fun v => decide (v ∈ rev i :: cyc)) : Int) = 0 := e1
            omega
          · exact he (by exact_mod_cast e1)

/-- An element of the order: `(a, 0)` is the vertex `a`, and `(a, n + 1)` the cycle `a, ..., a + n`. -/
def flat (els : List (Nat × Nat)) : List Nat := els.flatMap fun x => if x.2 = 0 then [x.1] else List.range' x.1 x.2

/-- The elements as the code stores them. -/
def lay (els : List (Nat × Nat)) : Layout :=
  { A := els.filterMap fun x => if 0 < x.2 then some (List.range' x.1 x.2) else none
    B := els.filterMap fun x => if x.2 = 0 then some x.1 else none
    ord := els.map fun x => decide (0 < x.2) }

/-- The elements found so far: cycles are as long as possible. -/
structure Els (k c m : Nat) (W : Nat → Nat → Nat) (i : Nat) (els : List (Nat × Nat)) : Prop where
  flat : flat els = List.range i
  head : ∃ l, els = (0, 0) :: l
  run : ∀ x ∈ els, 0 < x.2 → 0 < x.1 ∧ x.1 + x.2 < k ∧ (∀ b, x.1 ≤ b → b < x.1 + x.2 → around k m W x.1 b = c) ∧
    (x.1 + x.2 = k - 1 ∨ around k m W x.1 (x.1 + x.2) ≠ c)
  single : ∀ x ∈ els, x.2 = 0 → 0 < x.1 → x.1 < k - 1 → around k m W x.1 x.1 ≠ c

theorem layoutLoop_spec (H : Pairs k C W) (hP : Prefixes k W c) (hc : 0 < c) (hadj : 0 < W 0 (k - 1)) (hT : Turn k W m) {map rev : Nat → Nat}
    (hrev : ∀ i, i < k → rev i = turn m k i) (hmap : ∀ i, i < k → map (turn m k i) = i) :
    ∀ (fuel i : Nat) (els : List (Nat × Nat)), 0 < i → i < k → k < fuel + i → Els k c m W i els →
      ∃ els', layoutLoop c C map rev fuel i (lay els) = some (lay els') ∧ Els k c m W (k - 1) els' := by
  intro fuel
  induction fuel with
  | zero => intro i els h1 h2 h3; omega
  | succ fuel ih =>
    intro i els h1 h2 h3 he
    unfold layoutLoop
    rw [H.n]
    by_cases hlast : i < k - 1
    swap
    · rw [if_neg hlast]
      refine ⟨els, rfl, ?_⟩
      rw [show k - 1 = i by omega]; exact he
    rw [if_pos hlast]
    obtain ⟨cyc', j, n', r1, r2, r3, r4, r5, r6, r7⟩ := cycle_spec H hP hc hadj hT hrev h1 (k + 1) i (rev i) [] 0 (le_refl _) h2 (by omega)
      (fun v hv => by simp) (by simp) (by
        have : cutValue k W (fun v => decide (v ∈ ([] : List Nat))) = 0 := by unfold cutValue; simp
        rw [this]; rfl) (Or.inl rfl) (fun _ => rfl)
    rw [r1]
    simp only [Option.bind_some]
    rcases Nat.eq_or_lt_of_le r2 with e | e
    · subst e
      have hl0 : ¬ cyc'.length > 0 := by omega
      rw [if_neg hl0, r5 rfl, hrev i h2, hmap i h2]
      have hlay : ({ lay els with B := (lay els).B ++ [i], ord := (lay els).ord ++ [false] } : Layout) = lay (els ++ [(i, 0)]) := by
        simp [lay]
      have := ih (i + 1) (els ++ [(i, 0)]) (by omega) (by omega) (by omega) ⟨?_, ?_, ?_, ?_⟩
      · rw [← hlay] at this
        exact this
      · have := he.flat
        unfold STCactus.flat at this ⊢
        rw [List.flatMap_append, this, List.range_succ]
        simp
      · obtain ⟨l, rfl⟩ := he.head
        exact ⟨l ++ [(i, 0)], rfl⟩
      · intro x hx hx2
        rcases List.mem_append.1 hx with h | h
        · exact he.run x h hx2
        · have : x = (i, 0) := by simpa using h
          subst this; simp at hx2
      · intro x hx hx2 hx3 hx4
        rcases List.mem_append.1 hx with h | h
        · exact he.single x h hx2 hx3 hx4
        · have : x = (i, 0) := by simpa using h
          subst this
          rcases r7 with r7 | r7
          · omega
          · exact r7
    · have hl0 : cyc'.length > 0 := by omega
      rw [if_pos hl0, r4, show j - (j - i) = i by omega]
      have hlay : ({ lay els with A := (lay els).A ++ [List.range' i (j - i)], ord := (lay els).ord ++ [true] } : Layout) = lay (els ++ [(i, j - i)]) := by
        have : 0 < j - i := by omega
        have h0 : ¬ j - i = 0 := by omega
        simp [lay, e, h0]
      have := ih j (els ++ [(i, j - i)]) (by omega) r3 (by omega) ⟨?_, ?_, ?_, ?_⟩
      · rw [← hlay] at this
        exact this
      · have := he.flat
        unfold STCactus.flat at this ⊢
        rw [List.flatMap_append, this]
        have h0 : ¬ j - i = 0 := by omega
        simp only [List.flatMap_cons, List.flatMap_nil, List.append_nil, h0, if_false]
        have := List.range'_append_1 (s := 0) (m := i) (n := j - i)
        rw [Nat.zero_add, show i + (j - i) = j by omega] at this
        rw [List.range_eq_range', this, List.range_eq_range']
      · obtain ⟨l, rfl⟩ := he.head
        exact ⟨l ++ [(i, j - i)], rfl⟩
      · intro x hx hx2
        rcases List.mem_append.1 hx with h | h
        · exact he.run x h hx2
        · have : x = (i, j - i) := by simpa using h
          subst this
          have hj : i + (j - i) = j := by omega
          dsimp only
          rw [hj]
          exact ⟨h1, r3, fun b b1 b2 => r6 b b1 b2, r7⟩
      · intro x hx hx2 hx3 hx4
        rcases List.mem_append.1 hx with h | h
        · exact he.single x h hx2 hx3 hx4
        · have : x = (i, j - i) := by simpa using h
          subst this
          dsimp only at hx2
          omega

theorem layout_spec (H : Pairs k C W) (hP : Prefixes k W c) (hc : 0 < c) (hadj : 0 < W 0 (k - 1)) (hT : Turn k W m) {map rev : Nat → Nat}
    (hrev : ∀ i, i < k → rev i = turn m k i) (hmap : ∀ i, i < k → map (turn m k i) = i) :
    ∃ els, layout c C map rev = some (lay (els ++ [(k - 1, 0)])) ∧ Els k c m W (k - 1) els := by
  have hk := hP.two
  obtain ⟨els, h1, h2⟩ := layoutLoop_spec H hP hc hadj hT hrev hmap (k + 1) 1 [(0, 0)] (by omega) (by omega) (by omega)
    ⟨rfl, ⟨[], rfl⟩, by simp, by simp⟩
  refine ⟨els, ?_, h2⟩
  unfold layout
  rw [H.n]
  have : lay [(0, 0)] = { A := [], B := [0], ord := [false] } := rfl
  rw [← this, h1]
  simp [lay]

end STCactus
end VieCut
