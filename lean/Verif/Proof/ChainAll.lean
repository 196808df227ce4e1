import Verif.Proof.ChainLoop

/-!
# The cuts of the chain of cycles and edges are the minimum cuts
-/

namespace VieCut
open Finset

/-- Value of the cut that separates the interval `a .. b` from the rest. -/
def ival (k : Nat) (W : Nat → Nat → Nat) (a b : Nat) : Nat := cutValue k W (fun v => decide (a ≤ v ∧ v ≤ b))

variable {k c n : Nat} {W : Nat → Nat → Nat} {segs : List (List Nat × Nat)}

theorem filter_split {L1 L2 : List Nat} (h : (L1 ++ L2).filter (fun v => decide (v < k)) = List.range k) :
    ∃ m, m ≤ k ∧ ∀ v, v < k → (v ∈ L1 ↔ v < m) ∧ (v ∈ L2 ↔ m ≤ v) := by
  rw [List.filter_append] at h
  set F1 := L1.filter (fun v => decide (v < k)) with h1
  set F2 := L2.filter (fun v => decide (v < k)) with h2
  have hlen : F1.length ≤ k := by
    have := congrArg List.length h
    simp at this; omega
  have hF1 : F1 = List.range F1.length := by
    have := congrArg (List.take F1.length) h
    rw [List.take_left, List.take_range] at this
    rw [Nat.min_eq_left hlen] at this
    exact this
  have hnd : (F1 ++ F2).Nodup := by rw [h]; exact List.nodup_range
  refine ⟨F1.length, hlen, fun v hv => ?_⟩
  have m1 : v ∈ L1 ↔ v ∈ F1 := by rw [h1, List.mem_filter]; simp [hv]
  have m2 : v ∈ L2 ↔ v ∈ F2 := by rw [h2, List.mem_filter]; simp [hv]
  have m3 : v ∈ F1 ↔ v < F1.length := by
    constructor
    · intro hh; rw [hF1] at hh; exact List.mem_range.1 hh
    · intro hh; rw [hF1]; exact List.mem_range.2 hh
  have m4 : v ∈ F1 ++ F2 := by rw [h]; exact List.mem_range.2 hv
  have m5 : v ∈ F1 → v ∉ F2 := fun a b => (List.nodup_append.1 hnd).2.2 v a v b rfl
  rw [m1, m2]
  refine ⟨m3, fun hh => ?_, fun hh => ?_⟩
  · by_contra hc
    exact m5 (m3.2 (by omega)) hh
  · rcases List.mem_append.1 m4 with hh' | hh'
    · have := m3.1 hh'; omega
    · exact hh'

namespace Prefixes

theorem suffix (h : Prefixes k W c) {i : Nat} (h0 : 0 < i) (hi : i < k) : cutValue k W (fun v => decide (i ≤ v)) = c := by
  rw [← h.compl (h.pre i h0 hi)]
  refine cutValue_congr fun v _ => ?_
  by_cases hv : v < i
  · have : ¬ i ≤ v := by omega
    simp [hv, this]
  · have : i ≤ v := by omega
    simp [hv, this]

/-- The part of a minimum interval from `a'` on. -/
theorem ival_right (h : Prefixes k W c) {a a' b : Nat} (ha : 0 < a) (h1 : a ≤ a') (h2 : a' ≤ b) (hb : b < k) (hv : ival k W a b = c) : ival k W a' b = c := by
  have := (h.meet hv (h.suffix (i := a') (by omega) (by omega)) (x := a') (y := 0) (by omega) (by omega) (by simp [h1, h2]) (by simp)
    (by simp; omega) (by simp; omega)).1
  rw [← this]
  refine cutValue_congr fun v _ => ?_
  by_cases e : a' ≤ v
  · have : a ≤ v := by omega
    simp [e, this]
  · simp [e]

/-- The part of a minimum interval up to `b'`. -/
theorem ival_left (h : Prefixes k W c) {a b b' : Nat} (h1 : a ≤ b') (h2 : b' ≤ b) (hb : b + 1 < k) (hv : ival k W a b = c) : ival k W a b' = c := by
  have := (h.meet hv (h.pre (b' + 1) (by omega) (by omega)) (x := b') (y := k - 1) (by omega) (by omega) (by simp [h1, h2]) (by simp)
    (by simp; omega) (by simp; omega)).1
  rw [← this]
  refine cutValue_congr fun v _ => ?_
  by_cases e : v ≤ b'
  · have : v ≤ b := by omega
    have : v < b' + 1 := by omega
    simp [*]
  · have : ¬ v < b' + 1 := by omega
    simp [*]

theorem ival_union (h : Prefixes k W c) {a b x y : Nat} (ha : 0 < a) (h1 : a ≤ x) (h2 : x ≤ b) (hxy : b ≤ y) (hy : y < k)
    (hv : ival k W a b = c) (hv' : ival k W x y = c) : ival k W a y = c := by
  have := (h.meet hv hv' (x := x) (y := 0) (by omega) (by omega) (by simp [h1, h2]) (by simp; omega) (by simp; omega) (by simp; omega)).2
  rw [← this]
  refine cutValue_congr fun v _ => ?_
  rw [Bool.eq_iff_iff]
  simp only [decide_eq_true_eq, Bool.or_eq_true]
  omega

end Prefixes

/-- The chain was built from the order of the components: cycles are the longest runs of vertices whose intervals are minimum cuts. -/
structure ChainOf (k c n : Nat) (W : Nat → Nat → Nat) (segs : List (List Nat × Nat)) : Prop where
  good : GoodOrder k W c
  even : ∀ y ∈ segs, y.1 ≠ [] → 2 * (c / 2) = c
  nodup : (0 :: verts segs).Nodup
  filt : (0 :: verts segs).filter (fun v => decide (v < k)) = List.range k
  fin : endv 0 segs = k - 1
  lt : ∀ v ∈ 0 :: verts segs, v < n
  all : ∀ v, v < n → v ∈ 0 :: verts segs
  runs : ∀ y ∈ segs, y.1 ≠ [] → ∃ a len, y.1 = List.range' a len ∧ 0 < a ∧ a + len < k ∧ (∀ b, a ≤ b → b < a + len → ival k W a b = c) ∧
    (a + len = k - 1 ∨ ival k W a (a + len) ≠ c)
  cover : ∀ v, 0 < v → v < k - 1 → ival k W v v = c → ∃ y ∈ segs, v ∈ y.1

namespace ChainOf

variable {X : Nat → Bool}

theorem run_ival (H : ChainOf k c n W segs) {y : List Nat × Nat} (hy : y ∈ segs) {a b : Nat} (hab : a ≤ b) (ha : a ∈ y.1) (hb : b ∈ y.1) :
    0 < a ∧ b + 1 < k ∧ ival k W a b = c := by
  obtain ⟨a0, len, e, h1, h2, h3, -⟩ := H.runs y hy (by rintro e; rw [e] at ha; simp at ha)
  rw [e, List.mem_range'_1] at ha hb
  exact ⟨by omega, by omega, H.good.toPrefixes.ival_right h1 ha.1 hab (by omega) (h3 b (by omega) (by omega))⟩

/-- A cut of weight `c` of the chain is a minimum cut. -/
theorem value (H : ChainOf k c n W segs) (hc : 0 < c) (hX : cost c X 0 segs = c) : cutValue k W X = c := by
  have hP := H.good.toPrefixes
  have hk := hP.two
  obtain ⟨s1, A, q, s2, rfl, h1, h2, h3⟩ : ∃ s1 A q s2, segs = s1 ++ (A, q) :: s2 ∧ (∀ x ∈ verts s1, X x = X 0) ∧ Pattern X (endv 0 s1) A q ∧ ∀ x ∈ verts s2, X x = X q := by
    rcases cost_cases (X := X) (p := 0) hc H.even with ⟨h, -⟩ | ⟨-, h⟩
    · omega
    · exact h hX
  have hp : X (endv 0 s1) = X 0 := by
    rcases endv_mem 0 s1 with e | e
    · rw [e]
    · exact h1 _ e
  obtain ⟨A1, A2, A3, rfl, p1, p2, p3, p4⟩ := h2
  rw [hp] at p1 p2 p3 p4
  have hV : 0 :: verts (s1 ++ (A1 ++ A2 ++ A3, q) :: s2) = (0 :: verts s1 ++ A1) ++ (A2 ++ (A3 ++ q :: verts s2)) := by
    rw [verts_append, verts_cons]; simp
  have hfin : k - 1 ∈ q :: verts s2 := by
    have := H.fin
    rw [endv_append] at this
    rw [← this]
    rcases endv_mem q s2 with e | e
    · show endv q s2 ∈ _
      rw [e]; exact List.mem_cons_self
    · exact List.mem_cons_of_mem _ e
  have hone : ∀ x ∈ 0 :: verts s1 ++ A1, X x = X 0 := by
    intro x hx
    rcases List.mem_append.1 hx with hx | hx
    · rcases List.mem_cons.1 hx with e | e
      · rw [e]
      · exact h1 x e
    · exact p1 x hx
  rcases p4 with ⟨q1, rfl⟩ | ⟨q1, q2⟩
  · have hfl := H.filt
    rw [hV] at hfl
    obtain ⟨m, hm, hmem⟩ := filter_split hfl
    have m0 : 0 < m := ((hmem 0 (by omega)).1).1 (by simp)
    have mk : m ≤ k - 1 := ((hmem (k - 1) (by omega)).2).1 (by simp only [List.mem_append]; exact Or.inr (Or.inr hfin))
    have htwo : ∀ x ∈ A2 ++ ([] ++ q :: verts s2), X x ≠ X 0 := by
      intro x hx
      rcases List.mem_append.1 hx with hx | hx
      · exact p2 x hx
      · rcases List.mem_cons.1 hx with e | e
        · rw [e]; exact q1
        · rw [h3 x e]; exact q1
    cases h0 : X 0 with
    | true =>
      rw [← hP.pre m m0 (by omega)]
      refine cutValue_congr fun v hv => ?_
      by_cases e : v < m
      · rw [hone v ((hmem v hv).1.2 e), h0]; simp [e]
      · have := htwo v ((hmem v hv).2.2 (by omega))
        rw [h0] at this
        simp [e, this]
    | false =>
      rw [← hP.suffix m0 (by omega)]
      refine cutValue_congr fun v hv => ?_
      by_cases e : v < m
      · have : ¬ m ≤ v := by omega
        rw [hone v ((hmem v hv).1.2 e), h0]; simp [this]
      · have := htwo v ((hmem v hv).2.2 (by omega))
        rw [h0] at this
        have e : m ≤ v := by omega
        simp [e, this]
  · have hmem0 : (A1 ++ A2 ++ A3, q) ∈ s1 ++ (A1 ++ A2 ++ A3, q) :: s2 := by simp
    obtain ⟨a, len, e, r1, r2, r3, r4⟩ := H.runs _ hmem0 (by simp [q2])
    dsimp only at e
    have hA2 : A2 = List.range' (a + A1.length) A2.length := by
      obtain ⟨j, -, e1, -⟩ := List.range'_eq_append_iff.1 e.symm
      obtain ⟨i, hi, e2, e3⟩ := List.range'_eq_append_iff.1 e1.symm
      have l1 : A1.length = i := by rw [e2, List.length_range']
      have l2 : A2.length = j - i := by rw [e3, List.length_range']
      rw [l1, l2]; rwa [Nat.mul_one] at e3
    have hl2 : 0 < A2.length := List.length_pos_iff.2 q2
    have hle : A1.length + A2.length ≤ len := by
      have hl := congrArg List.length e
      simp only [List.length_append, List.length_range'] at hl
      omega
    have hval := (H.run_ival hmem0 (a := a + A1.length) (b := a + A1.length + A2.length - 1) (by omega)
      (by rw [e, List.mem_range'_1]; omega) (by rw [e, List.mem_range'_1]; omega)).2.2
    have hm : ∀ v, v ∈ A2 ↔ a + A1.length ≤ v ∧ v ≤ a + A1.length + A2.length - 1 := by
      intro v
      rw [hA2, List.mem_range'_1, List.length_range']
      omega
    have hrest : ∀ v, v < k → v ∉ A2 → X v = X 0 := by
      intro v hv hn
      have hv' : v ∈ 0 :: verts (s1 ++ (A1 ++ A2 ++ A3, q) :: s2) := by
        have : v ∈ List.range k := List.mem_range.2 hv
        rw [← H.filt] at this
        exact (List.mem_filter.1 this).1
      rw [hV] at hv'
      rcases List.mem_append.1 hv' with h | h
      · exact hone v h
      · rcases List.mem_append.1 h with h | h
        · exact absurd h hn
        · rcases List.mem_append.1 h with h | h
          · exact p3 v h
          · rcases List.mem_cons.1 h with h | h
            · rw [h]; exact q1
            · rw [h3 v h]; exact q1
    cases h0 : X 0 with
    | false =>
      rw [← hval]
      refine cutValue_congr fun v hv => ?_
      by_cases hh : v ∈ A2
      · have := p2 v hh
        rw [h0] at this
        simp only [(hm v).1 hh, and_self, decide_true]
        simpa using this
      · rw [hrest v hv hh, h0]
        rw [hm] at hh
        simp only [hh, decide_false]
    | true =>
      rw [← hP.compl hval]
      refine cutValue_congr fun v hv => ?_
      by_cases hh : v ∈ A2
      · have := p2 v hh
        rw [h0] at this
        simp only [(hm v).1 hh, and_self, decide_true]
        simpa using this
      · rw [hrest v hv hh, h0]
        rw [hm] at hh
        simp only [hh, decide_false, Bool.not_false]

/-- The vertices from one vertex on form a cut of weight `c` of the chain. -/
theorem suffix_cost (H : ChainOf k c n W segs) {y : Nat} (hy : y ∈ verts segs) :
    ∃ L1 L2, 0 :: verts segs = (0 :: L1) ++ y :: L2 ∧ cost c (fun v => decide (v ∈ y :: L2)) 0 segs = c := by
  obtain ⟨x, hx, hy'⟩ := List.mem_flatMap.1 hy
  clear hy
  have hy : y ∈ x.1 ++ [x.2] := hy'
  clear hy'
  obtain ⟨s1, s2, rfl⟩ := List.append_of_mem hx
  obtain ⟨A, q⟩ := x
  have hev : A ≠ [] → 2 * (c / 2) = c := H.even _ hx
  have hnd := H.nodup
  have hone : ∀ (L1 L2 : List Nat), ((0 :: L1) ++ y :: L2).Nodup → ∀ v ∈ 0 :: L1, decide (v ∈ y :: L2) = false := by
    intro L1 L2 h v hv
    exact decide_eq_false fun hh => (List.nodup_append.1 h).2.2 v hv v hh rfl
  rcases List.mem_append.1 hy with hy | hy
  · obtain ⟨A1, A2, rfl⟩ := List.append_of_mem hy
    have hV : 0 :: verts (s1 ++ (A1 ++ y :: A2, q) :: s2) = (0 :: (verts s1 ++ A1)) ++ y :: (A2 ++ q :: verts s2) := by
      rw [verts_append, verts_cons]; simp
    rw [hV] at hnd
    have h1 := hone _ _ hnd
    refine ⟨_, _, hV, ?_⟩
    have h0 : decide (0 ∈ y :: (A2 ++ q :: verts s2)) = false := h1 0 (by simp)
    have hp : decide (endv 0 s1 ∈ y :: (A2 ++ q :: verts s2)) = false := by
      refine h1 _ ?_
      rcases endv_mem 0 s1 with e | e
      · rw [e]; simp
      · simp [e]
    refine cost_pattern hev (fun v hv => ?_) ⟨A1, y :: A2, [], by simp, fun v hv => ?_, fun v hv => ?_, by simp, Or.inl ⟨?_, rfl⟩⟩ fun v hv => ?_
    · exact (h1 v (by simp [hv])).trans h0.symm
    · exact (h1 v (by simp [hv])).trans hp.symm
    · show decide _ ≠ decide _
      rw [hp]
      have : v ∈ y :: (A2 ++ q :: verts s2) := by
        rcases List.mem_cons.1 hv with e | e
        · simp [e]
        · simp [e]
      rw [decide_eq_true this]; simp
    · show decide _ ≠ decide _
      rw [hp, decide_eq_true (by simp)]; simp
    · show decide _ = decide _
      rw [decide_eq_true (by simp [hv]), decide_eq_true (by simp)]
  · have hyq : y = q := by simpa using hy
    subst hyq
    have hV : 0 :: verts (s1 ++ (A, y) :: s2) = (0 :: (verts s1 ++ A)) ++ y :: verts s2 := by
      rw [verts_append, verts_cons]; simp
    rw [hV] at hnd
    have h1 := hone _ _ hnd
    refine ⟨_, _, hV, ?_⟩
    have h0 : decide (0 ∈ y :: verts s2) = false := h1 0 (by simp)
    have hp : decide (endv 0 s1 ∈ y :: verts s2) = false := by
      refine h1 _ ?_
      rcases endv_mem 0 s1 with e | e
      · rw [e]; simp
      · simp [e]
    refine cost_pattern hev (fun v hv => ?_) ⟨A, [], [], by simp, fun v hv => ?_, by simp, by simp, Or.inl ⟨?_, rfl⟩⟩ fun v hv => ?_
    · exact (h1 v (by simp [hv])).trans h0.symm
    · exact (h1 v (by simp [hv])).trans hp.symm
    · show decide _ ≠ decide _
      rw [hp, decide_eq_true (by simp)]; simp
    · show decide _ = decide _
      rw [decide_eq_true (by simp [hv]), decide_eq_true (by simp)]

/-- A minimum interval lies in a cycle. -/
theorem in_run (H : ChainOf k c n W segs) {a b : Nat} (ha : 0 < a) (hab : a ≤ b) (hb : b + 1 < k) (hv : ival k W a b = c) :
    ∃ y ∈ segs, a ∈ y.1 ∧ b ∈ y.1 := by
  have hP := H.good.toPrefixes
  obtain ⟨y, hy, hay⟩ := H.cover a ha (by omega) (hP.ival_left (le_refl _) hab hb hv)
  refine ⟨y, hy, hay, ?_⟩
  obtain ⟨a0, len, e, h1, h2, h3, h4⟩ := H.runs y hy (by rintro e; rw [e] at hay; simp at hay)
  rw [e, List.mem_range'_1] at hay ⊢
  by_contra hn
  have hb' : a0 + len ≤ b := by omega
  rcases h4 with h4 | h4
  · omega
  · apply h4
    exact hP.ival_left (b := b) (by omega) hb' hb (hP.ival_union h1 hay.1 (le_refl a) hab (by omega) (h3 a hay.1 hay.2) hv)

/-- A minimum cut is a cut of weight `c` of the chain. -/
theorem lift (H : ChainOf k c n W segs) {Y : Nat → Bool} (hY : ProperCut k Y) (hc : cutValue k W Y = c) (h0 : Y 0 = false) :
    ∃ X, (∀ v, v < k → X v = Y v) ∧ cost c X 0 segs = c := by
  rcases H.good.shape Y hY hc h0 with ⟨i, i1, i2, h⟩ | ⟨a, b, h1, h2, h3, h⟩
  · have hi : i ∈ verts segs := by
      have : i ∈ List.range k := List.mem_range.2 i2
      rw [← H.filt] at this
      rcases List.mem_cons.1 (List.mem_filter.1 this).1 with e | e
      · omega
      · exact e
    obtain ⟨L1, L2, e1, e2⟩ := H.suffix_cost hi
    refine ⟨_, fun v hv => ?_, e2⟩
    rw [h v hv, decide_eq_decide]
    have hf := H.filt
    rw [e1] at hf
    obtain ⟨m, hm, hmem⟩ := filter_split hf
    have hf' := hf
    rw [show (0 :: L1) ++ i :: L2 = ((0 :: L1) ++ [i]) ++ L2 by simp] at hf'
    obtain ⟨m', hm', hmem'⟩ := filter_split hf'
    have hmi : m = i := by
      have c1 := (hmem i i2).2.1 (by simp)
      have c2 := (hmem' i i2).1.1 (by simp)
      by_contra hne
      have hlt : m < i := by omega
      have c3 := (hmem m (by omega)).2.2 (le_refl _)
      have c4 := (hmem' m (by omega)).1.2 (by omega)
      have c5 := H.nodup
      rw [e1] at c5
      rcases List.mem_append.1 c4 with c4 | c4
      · exact (List.nodup_append.1 c5).2.2 m c4 m c3 rfl
      · have : m = i := by simpa using c4
        omega
    have := (hmem v hv).2
    rw [this, hmi]
  · obtain ⟨y, hy, hya, hyb⟩ := H.in_run h1 h2 h3 (by
      rw [← hc]; exact cutValue_congr fun v hv => (h v hv).symm)
    refine ⟨fun v => decide (a ≤ v ∧ v ≤ b), fun v hv => (h v hv).symm, ?_⟩
    obtain ⟨s1, s2, rfl⟩ := List.append_of_mem hy
    obtain ⟨A, q⟩ := y
    obtain ⟨a0, len, e, r1, r2, -, -⟩ := H.runs _ hy (by rintro e; rw [e] at hya; simp at hya)
    dsimp only at e hya hyb
    have hV : 0 :: verts (s1 ++ (A, q) :: s2) = (0 :: verts s1) ++ (A ++ q :: verts s2) := by
      rw [verts_append, verts_cons]; simp
    have hnd := H.nodup
    rw [hV, List.nodup_append, List.nodup_append] at hnd
    obtain ⟨-, ⟨-, -, n1⟩, n2⟩ := hnd
    have hmA : ∀ v, a ≤ v → v ≤ b → v ∈ A := by
      intro v v1 v2
      rw [e, List.mem_range'_1] at hya hyb ⊢
      omega
    have hout : ∀ v, v ∉ A → decide (a ≤ v ∧ v ≤ b) = false := by
      intro v hv
      exact decide_eq_false fun hh => hv (hmA v hh.1 hh.2)
    have hs1 : ∀ v ∈ 0 :: verts s1, decide (a ≤ v ∧ v ≤ b) = false := fun v hv => hout v fun hh => n2 v hv v (List.mem_append_left _ hh) rfl
    have hs2 : ∀ v ∈ q :: verts s2, decide (a ≤ v ∧ v ≤ b) = false := fun v hv => hout v fun hh => n1 v hh v hv rfl
    have hp : decide (a ≤ endv 0 s1 ∧ endv 0 s1 ≤ b) = false := by
      refine hs1 _ ?_
      rcases endv_mem 0 s1 with e | e
      · rw [e]; simp
      · simp [e]
    rw [e, List.mem_range'_1] at hya hyb
    refine cost_pattern (H.even _ hy) (fun v hv => ?_) ⟨List.range' a0 (a - a0), List.range' a (b + 1 - a), List.range' (b + 1) (a0 + len - (b + 1)), ?_,
      fun v hv => ?_, fun v hv => ?_, fun v hv => ?_, Or.inr ⟨?_, ?_⟩⟩ fun v hv => ?_
    · exact (hs1 v (List.mem_cons_of_mem _ hv)).trans (hs1 0 List.mem_cons_self).symm
    · rw [e]
      have g1 := List.range'_append (s := a0) (m := a - a0) (n := b + 1 - a) (step := 1)
      rw [Nat.one_mul, show a0 + (a - a0) = a by omega] at g1
      have g2 := List.range'_append (s := a0) (m := a - a0 + (b + 1 - a)) (n := a0 + len - (b + 1)) (step := 1)
      rw [Nat.one_mul, show a0 + (a - a0 + (b + 1 - a)) = b + 1 by omega] at g2
      rw [g1, g2]
      congr 1; omega
    · rw [List.mem_range'_1] at hv
      exact (decide_eq_false (by omega)).trans hp.symm
    · rw [List.mem_range'_1] at hv
      show decide _ ≠ decide _
      rw [hp, decide_eq_true (by omega)]; simp
    · rw [List.mem_range'_1] at hv
      exact (decide_eq_false (by omega)).trans hp.symm
    · exact (hs2 q List.mem_cons_self).trans hp.symm
    · intro hh
      have := congrArg List.length hh
      simp at this; omega
    · exact (hs2 v (List.mem_cons_of_mem _ hv)).trans (hs2 q List.mem_cons_self).symm

/-- Every proper cut of the chain has weight at least `c`. -/
theorem least (H : ChainOf k c n W segs) (hc : 0 < c) (hX : ProperCut n X) : c ≤ cost c X 0 segs := by
  rcases cost_cases (X := X) (p := 0) hc H.even with ⟨-, h⟩ | ⟨h, -⟩
  · exfalso
    obtain ⟨⟨u, hu, u1⟩, ⟨v, hv, v1⟩⟩ := hX
    have hall : ∀ v, v < n → X v = X 0 := by
      intro v hv
      rcases List.mem_cons.1 (H.all v hv) with e | e
      · rw [e]
      · exact h v e
    rw [hall u hu] at u1
    rw [hall v hv, u1] at v1
    cases v1
  · exact h

/-- Two vertices of the chain are separated by a cut of weight `c`, one way or the other. -/
theorem separate (H : ChainOf k c n W segs) {x y : Nat} (hx : x < n) (hy : y < n) (hxy : x ≠ y) :
    ∃ X : Nat → Bool, X x ≠ X y ∧ cost c X 0 segs = c := by
  have key : ∀ x y, x < n → y ∈ verts segs → x ≠ y → (∃ X : Nat → Bool, X x ≠ X y ∧ cost c X 0 segs = c) ∨ x ∈ verts segs ∧ ∃ L1 L2, 0 :: verts segs = L1 ++ y :: L2 ∧ x ∈ L2 := by
    intro x y hx hy hxy
    obtain ⟨L1, L2, e1, e2⟩ := H.suffix_cost hy
    have hm := H.all x hx
    rw [e1] at hm
    rcases List.mem_append.1 hm with hm | hm
    · left
      refine ⟨_, ?_, e2⟩
      have hnd := H.nodup
      rw [e1] at hnd
      rw [decide_eq_true (List.mem_cons_self), decide_eq_false fun hh => (List.nodup_append.1 hnd).2.2 x hm x hh rfl]
      simp
    · right
      have hm2 : x ∈ L2 := by
        rcases List.mem_cons.1 hm with e | e
        · exact absurd e hxy
        · exact e
      refine ⟨?_, _, _, e1, hm2⟩
      rw [List.cons_append] at e1
      rw [(List.cons.inj e1).2]
      simp [hm2]
  rcases List.mem_cons.1 (H.all y hy) with e | e
  · rcases List.mem_cons.1 (H.all x hx) with e' | e'
    · omega
    · rcases key y x hy e' (Ne.symm hxy) with ⟨X, h1, h2⟩ | ⟨h1, -⟩
      · exact ⟨X, Ne.symm h1, h2⟩
      · have := H.nodup
        rw [List.nodup_cons] at this
        exact absurd (e ▸ h1) this.1
  · rcases key x y hx e hxy with ⟨X, h1, h2⟩ | ⟨h1, L1, L2, e1, hm⟩
    · exact ⟨X, h1, h2⟩
    · rcases key y x hy h1 (Ne.symm hxy) with ⟨X, h1, h2⟩ | ⟨-, M1, M2, e2, hm'⟩
      · exact ⟨X, Ne.symm h1, h2⟩
      · exfalso
        obtain ⟨P1, P2, rfl⟩ := List.append_of_mem hm
        have hnd := H.nodup
        have e3 : M1 ++ x :: M2 = (L1 ++ y :: P1) ++ x :: P2 := by rw [← e2, e1]; simp
        have e4 : M2 = P2 := by
          have hnd1 := hnd
          rw [e2] at hnd1
          rcases List.append_eq_append_iff.1 e3 with ⟨z, z1, z2⟩ | ⟨z, z1, z2⟩
          · cases z with
            | nil => simpa using z2
            | cons w z =>
              exfalso
              rw [List.cons_append] at z2
              have hw := (List.cons.inj z2).1
              rw [(List.cons.inj z2).2] at hnd1
              have := (List.nodup_append.1 hnd1).2.1
              simp at this
          · cases z with
            | nil => simpa using z2.symm
            | cons w z =>
              exfalso
              rw [List.cons_append] at z2
              rw [z1, ← (List.cons.inj z2).1] at hnd1
              have := (List.nodup_append.1 hnd1).2.2 x (by simp) x (by simp)
              exact this rfl
        rw [e4] at hm'
        rw [e1] at hnd
        have := (List.nodup_append.1 hnd).2.1
        simp [hm'] at this

end ChainOf
end VieCut
