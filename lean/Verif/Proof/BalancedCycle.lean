import Verif.Proof.BalancedCuts

/-! # One cycle: `investigateCycle` -/

namespace VieCut
namespace Balanced
open Finset MGraph

/-- The two cut edges of a record. -/
def result (C : MGraph) (s : St) : (Nat × Nat) × (Nat × Nat) :=
  if s.inCycle then ((s.n, s.e), ((C.edge s.n2 s.e2).target, (C.edge s.n2 s.e2).rev)) else ((s.n, s.e), (s.n, s.e))

/-- The only edges that leave `X` are the two given ones. -/
structure Delim (C : MGraph) (X : Nat → Bool) (r : (Nat × Nat) × (Nat × Nat)) : Prop where
  lt1 : r.1.1 < C.n
  lt2 : r.2.1 < C.n
  len1 : r.1.2 < C.len r.1.1
  len2 : r.2.2 < C.len r.2.1
  in1 : X r.1.1 = true
  in2 : X r.2.1 = true
  out1 : X (C.edge r.1.1 r.1.2).target = false
  out2 : X (C.edge r.2.1 r.2.2).target = false
  only : ∀ x y, x < C.n → C.Adj x y → X x = true → X y = false →
    (x = r.1.1 ∧ y = (C.edge r.1.1 r.1.2).target) ∨ (x = r.2.1 ∧ y = (C.edge r.2.1 r.2.2).target)

/-- The record describes a cut of weight `c`, unless nothing was found. -/
def Valid (E : Env) (c : Nat) (s : St) : Prop :=
  s.weight = 0 ∨ ∃ X : Nat → Bool, lighter E.total (ws E.C E.vw X) = s.weight ∧ cutValue E.C.n E.C.toGraph.wt X = c ∧ Delim E.C X (result E.C s)

/-- Everything except the record is the same. -/
def Frame (s s' : St) : Prop := s'.status = s.status ∧ s'.sub = s.sub ∧ s'.parent = s.parent ∧ s'.out = s.out

theorem Frame.refl (s : St) : Frame s s := ⟨rfl, rfl, rfl, rfl⟩

theorem Frame.trans {s s' s'' : St} (h : Frame s s') (h' : Frame s' s'') : Frame s s'' :=
  ⟨h'.1.trans h.1, h'.2.1.trans h.2.1, h'.2.2.1.trans h.2.2.1, h'.2.2.2.trans h.2.2.2⟩

theorem store_frame (E : Env) (cv : List Nat) (back front inw : Nat) (s : St) : Frame s (store E cv back front inw s) := by
  unfold store
  split <;> exact ⟨rfl, rfl, rfl, rfl⟩

theorem findEdge_spec {C : MGraph} {u x : Nat} (h : C.Adj u x) (old : Nat) : findEdge C u x old < C.len u ∧ (C.edge u (findEdge C u x old)).target = x := by
  unfold findEdge
  cases hf : (List.range (C.len u)).find? fun e => (C.edge u e).target == x with
  | none =>
    obtain ⟨e, he, ht⟩ := h
    have := List.find?_eq_none.1 hf e (List.mem_range.2 he)
    simp [ht] at this
  | some e =>
    exact ⟨List.mem_range.1 (List.mem_of_find?_eq_some hf), by simpa using List.find?_some hf⟩

variable {C : MGraph} {c r : Nat} {par : Nat → Nat} {D : Nat → Finset Nat}

theorem climb_eq {parent sub : Nat → Nat} {a k : Nat} : ∀ {t f : Nat}, k < f → par^[k] t = a → (∀ i, i < k → par^[i] t ≠ a) →
    (∀ i, i < k → parent (par^[i] t) = par^[i + 1] t) →
    climb parent sub a f t = some ((List.range k).map fun i => (par^[i + 1] t, sub (par^[i + 1] t) - sub (par^[i] t))) := by
  induction k with
  | zero =>
    intro t f hf h1 _ _
    obtain ⟨f, rfl⟩ : ∃ g, f = g + 1 := ⟨f - 1, by omega⟩
    unfold climb
    rw [if_pos (show t = a from h1)]
    rfl
  | succ k ih =>
    intro t f hf h1 h2 h3
    obtain ⟨f, rfl⟩ : ∃ g, f = g + 1 := ⟨f - 1, by omega⟩
    unfold climb
    rw [if_neg (show ¬ t = a from h2 0 (by omega))]
    have e0 : parent t = par t := h3 0 (by omega)
    rw [e0, ih (t := par t) (f := f) (by omega) h1 (fun i hi => h2 (i + 1) (by omega)) (fun i hi => h3 (i + 1) (by omega))]
    rw [List.range_succ_eq_map, List.map_cons, List.map_map]
    rfl

/-! ## Weights of petals and arcs -/

section
variable {t a k : Nat} (T : Tree C r par D) (h : BackEdge C par D t a k)
include T h

theorem sum_le_petal (vw : Nat → Nat) {i : Nat} (hi : i < k) :
    ∑ q ∈ range C.n, (if petal par D t k q ≤ i then vw q else 0) = ∑ q ∈ D (par^[i] t), vw q := by
  rw [← Finset.sum_filter]
  refine Finset.sum_congr ?_ fun _ _ => rfl
  ext q
  rw [Finset.mem_filter, Finset.mem_range, petal_le_iff T h hi]
  exact ⟨fun hq => hq.2, fun hq => ⟨T.lt (iter_lt T h (by omega)) hq, hq⟩⟩

/-- The weights computed for the cycle are the weights of the petals. -/
theorem petal_weight (vw : Nat → Nat) {sub : Nat → Nat} (hsub : ∀ i, i < k → sub (par^[i] t) = ∑ q ∈ D (par^[i] t), vw q) {i : Nat} (hi : i ≤ k) :
    ∑ q ∈ range C.n, (if petal par D t k q = i then vw q else 0) =
      if i = k then (∑ q ∈ range C.n, vw q) - sub (par^[k - 1] t) else if i = 0 then sub t else sub (par^[i] t) - sub (par^[i - 1] t) := by
  have htwo := h.two
  have split : ∀ i, ∑ q ∈ range C.n, (if petal par D t k q ≤ i + 1 then vw q else 0) =
      ∑ q ∈ range C.n, (if petal par D t k q ≤ i then vw q else 0) + ∑ q ∈ range C.n, (if petal par D t k q = i + 1 then vw q else 0) := by
    intro i
    rw [← Finset.sum_add_distrib]
    refine Finset.sum_congr rfl fun q _ => ?_
    rcases Nat.lt_trichotomy (petal par D t k q) (i + 1) with hp | hp | hp
    · rw [if_pos (by omega), if_pos (by omega), if_neg (by omega)]; omega
    · rw [if_pos (by omega), if_neg (by omega), if_pos hp]; omega
    · rw [if_neg (by omega), if_neg (by omega), if_neg (by omega)]
  split_ifs with h1 h2
  · subst h1
    have hs := split (i - 1)
    rw [show i - 1 + 1 = i from by omega, sum_le_petal T h vw (by omega : i - 1 < i), ← hsub (i - 1) (by omega)] at hs
    have : ∑ q ∈ range C.n, (if petal par D t i q ≤ i then vw q else 0) = ∑ q ∈ range C.n, vw q :=
      Finset.sum_congr rfl fun q _ => by rw [if_pos (petal_le par D t i q)]
    omega
  · subst h2
    have := sum_le_petal T h vw (by omega : 0 < k)
    rw [← hsub 0 (by omega)] at this
    rw [show par^[0] t = t from rfl] at this
    rw [← this]
    exact Finset.sum_congr rfl fun q _ => by simp only [Nat.le_zero]
  · have hs := split (i - 1)
    rw [show i - 1 + 1 = i from by omega, sum_le_petal T h vw (by omega : i - 1 < k), sum_le_petal T h vw (by omega : i < k),
      ← hsub (i - 1) (by omega), ← hsub i (by omega)] at hs
    omega

omit T h in
theorem arc_eq_ws (vw : Nat → Nat) {cw : List Nat}
    (hcw : ∀ i, i ≤ k → cw.getD i 0 = ∑ q ∈ range C.n, (if petal par D t k q = i then vw q else 0)) {b f : Nat} (hf : f ≤ b + (k + 1)) :
    arc cw (k + 1) b f = ws C vw (arcSet par D t k b f) := by
  unfold arc ws
  have : ∀ j ∈ Ico b f, cw.getD (j % (k + 1)) 0 = ∑ q ∈ range C.n, (if petal par D t k q = j % (k + 1) then vw q else 0) := fun j _ =>
    hcw _ (Nat.le_of_lt_succ (Nat.mod_lt _ (Nat.succ_pos k)))
  rw [Finset.sum_congr rfl this, Finset.sum_comm]
  refine Finset.sum_congr rfl fun q _ => ?_
  by_cases hq : arcSet par D t k b f q = true
  · rw [if_pos hq]
    obtain ⟨j, h1, h2, h3⟩ := arcSet_iff.1 hq
    rw [Finset.sum_eq_single j]
    · rw [if_pos h3.symm]
    · intro i hi hne
      rw [Finset.mem_Ico] at hi
      rw [if_neg]
      intro he
      rw [← h3] at he
      rcases Nat.lt_or_gt_of_ne hne with hlt | hlt
      · exact mod_close hlt (by omega) he.symm
      · exact mod_close hlt (by omega) he
    · intro hn
      exact absurd (Finset.mem_Ico.2 ⟨h1, h2⟩) hn
  · rw [if_neg hq]
    refine Finset.sum_eq_zero fun j hj => ?_
    rw [Finset.mem_Ico] at hj
    rw [if_neg]
    intro he
    exact hq (arcSet_iff.2 ⟨j, hj.1, hj.2, he.symm⟩)

end

variable {E : Env}

/-- Storing an arc keeps the record valid. -/
theorem store_valid (hF : Facts E.C c) (htot : E.total = ∑ q ∈ range E.C.n, E.vw q) (T : Tree E.C r par D) {t a k : Nat}
    (h : BackEdge E.C par D t a k) {cw : List Nat}
    (hcw : ∀ i, i ≤ k → cw.getD i 0 = ∑ q ∈ range E.C.n, (if petal par D t k q = i then E.vw q else 0)) {B F : Nat} (hBF : B ≤ F)
    (hFB : F ≤ B + (k + 1)) (hF1 : 1 ≤ F) {s : St} (hs : Valid E c s) :
    Valid E c (store E (cyc par t k) (k + 1 + B) F (arc cw (k + 1) B F) s) := by
  unfold store
  split
  swap
  · exact hs
  rename_i hge
  by_cases hz : lighter E.total (arc cw (k + 1) B F) = 0
  · exact Or.inl hz
  right
  have hfull : arc cw (k + 1) 0 (k + 1) = E.total := by
    rw [arc_eq_ws E.vw hcw (by omega), htot]
    unfold ws
    refine Finset.sum_congr rfl fun q _ => ?_
    rw [if_pos]
    have := petal_le par D t k q
    exact arcSet_iff.2 ⟨petal par D t k q, by omega, by omega, Nat.mod_eq_of_lt (by omega)⟩
  have hlt1 : B < F := by
    rcases Nat.lt_or_ge B F with hh | hh
    · exact hh
    · exfalso
      apply hz
      have : arc cw (k + 1) B F = 0 := by unfold arc; rw [Finset.Ico_eq_empty (by omega)]; rfl
      unfold lighter
      omega
  have hlt2 : F < B + (k + 1) := by
    rcases Nat.lt_or_ge F (B + (k + 1)) with hh | hh
    · exact hh
    · exfalso
      apply hz
      have : F = B + (k + 1) := by omega
      rw [this, arc_full, hfull]
      unfold lighter
      omega
  obtain ⟨e1, e2, e3, e4⟩ := arc_ends T h hlt1 hlt2
  have hm : ∀ i, (cyc par t k).getD (i % (k + 1)) 0 = par^[i % (k + 1)] t := fun i =>
    cyc_getD par (Nat.le_of_lt_succ (Nat.mod_lt _ (Nat.succ_pos k)))
  have hlt : ∀ i, par^[i % (k + 1)] t < E.C.n := fun i => iter_lt T h (Nat.le_of_lt_succ (Nat.mod_lt _ (Nat.succ_pos k)))
  have s1 := (iter_step T h hF.cons (F - 1)).1
  have s2 := (iter_step T h hF.cons (k + 1 + B - 1)).1
  rw [show F - 1 + 1 = F from by omega] at s1
  rw [show k + 1 + B - 1 + 1 = B + (k + 1) from by omega, Nat.add_mod_right] at s2
  obtain ⟨f1, f2⟩ := findEdge_spec s1 s.e
  obtain ⟨g1, g2⟩ := findEdge_spec s2 s.e2
  refine ⟨arcSet par D t k B F, ?_, arc_value T h hF hlt1 hlt2, ?_⟩
  · rw [← arc_eq_ws E.vw hcw hFB]
  · have hb : (k + 1 + B) % (k + 1) = B % (k + 1) := Nat.add_mod_left _ _
    have hback := hF.cons.back _ _ (hlt _) g1
    have hpart := hF.cons.partner _ _ (hlt _) g1
    unfold result
    dsimp only
    rw [if_pos rfl, cyc_length, hm, hm, hm, hm, hb]
    refine ⟨hlt _, ?_, f1, ?_, e1, ?_, ?_, ?_, ?_⟩
    · dsimp only; rw [g2]; exact hlt _
    · dsimp only; exact hpart
    · dsimp only; rw [g2]; exact e3
    · dsimp only; rw [f2]; exact e2
    · dsimp only; rw [hback.1]; exact e4
    · intro x y hx hxy h1 h2
      dsimp only
      rw [f2, hback.1, g2]
      exact arc_leave T h hF hx hxy h1 h2

theorem investigate_spec (hF : Facts E.C c) (htot : E.total = ∑ q ∈ range E.C.n, E.vw q) (hpos : 0 < E.total) (T : Tree E.C r par D) {t a k : Nat}
    (hk : k < E.C.n) (h : BackEdge E.C par D t a k) {s : St} (hpar : ∀ i, i < k → s.parent (par^[i] t) = par^[i + 1] t)
    (hsub : ∀ i, i < k → s.sub (par^[i] t) = ∑ q ∈ D (par^[i] t), E.vw q) (hs : Valid E c s) :
    ∃ s', investigateCycle E t a s = some s' ∧ Frame s s' ∧ Valid E c s' ∧ s.weight ≤ s'.weight ∧
      ∀ b f, b < f → f ≤ k + 1 → f < b + (k + 1) → lighter E.total (ws E.C E.vw (arcSet par D t k b f)) ≤ s'.weight := by
  have htwo := h.two
  unfold investigateCycle
  rw [climb_eq (par := par) (k := k) (by omega) h.top h.first hpar]
  rw [Option.bind_some]
  have hcv : (t :: ((List.range k).map fun i => (par^[i + 1] t, s.sub (par^[i + 1] t) - s.sub (par^[i] t))).map (·.1)) = cyc par t k := by
    unfold cyc
    rw [List.range_succ_eq_map, List.map_cons, List.map_map, List.map_map]
    rfl
  have hcw0 : (s.sub t :: ((List.range k).map fun i => (par^[i + 1] t, s.sub (par^[i + 1] t) - s.sub (par^[i] t))).map (·.2)) =
      s.sub t :: (List.range k).map fun i => s.sub (par^[i + 1] t) - s.sub (par^[i] t) := by
    rw [List.map_map]; rfl
  dsimp only
  rw [hcv, hcw0, cyc_length, show k + 1 - 1 = k from rfl, show k + 1 - 2 = k - 1 from by omega, cyc_getD par (by omega : k - 1 ≤ k)]
  generalize hcwd : (s.sub t :: (List.range k).map fun i => s.sub (par^[i + 1] t) - s.sub (par^[i] t)).set k (E.total - s.sub (par^[k - 1] t)) = cw
  have hcw : ∀ i, i ≤ k → cw.getD i 0 = ∑ q ∈ range E.C.n, (if petal par D t k q = i then E.vw q else 0) := by
    intro i hi
    rw [petal_weight T h E.vw hsub hi, ← hcwd, List.getD_eq_getElem?_getD, List.getElem?_set]
    by_cases hik : i = k
    · subst hik
      rw [if_pos rfl, if_pos (by simp), if_pos rfl, htot]
      rfl
    · rw [if_neg (Ne.symm hik), if_neg hik]
      rcases i with _ | i
      · rfl
      · rw [if_neg (by omega), List.getElem?_cons_succ, List.getElem?_map, List.getElem?_range (by omega)]
        rfl
  have hfull : arc cw (k + 1) 0 (k + 1) = E.total := by
    rw [arc_eq_ws E.vw hcw (by omega), htot]
    unfold ws
    refine Finset.sum_congr rfl fun q _ => ?_
    rw [if_pos]
    have := petal_le par D t k q
    exact arcSet_iff.2 ⟨petal par D t k q, by omega, by omega, Nat.mod_eq_of_lt (by omega)⟩
  have hin : cw.getD 0 0 = arc cw (k + 1) 0 1 := by
    unfold arc
    rw [Nat.Ico_succ_singleton, Finset.sum_singleton, Nat.zero_mod]
  have hL : (cyc par t k).length = k + 1 := cyc_length par t k
  obtain ⟨s', w1, w2, w3, w4⟩ := window_spec E (cv := cyc par t k) (cw := cw) hpos (by rw [hL]; exact hfull)
    (P := fun s' => Frame s s' ∧ Valid E c s') (by
      intro B F s' hB hBF hFB hF1 hs'
      rw [hL] at hB hFB ⊢
      exact ⟨hs'.1.trans (store_frame _ _ _ _ _ _), store_valid hF htot T h hcw hBF hFB hF1 hs'.2⟩)
    (3 * (k + 1) + 3) 0 1 s ⟨Frame.refl s, hs⟩ (by omega) (by omega) (by rw [hL]; omega) (by omega) (by rw [hL]; omega)
    (fun b g hb => by omega) (by
      intro g h1 h2
      have : g = 0 := by omega
      subst this
      have : arc cw (cyc par t k).length 0 0 = 0 := by unfold arc; simp
      rw [this]
      unfold lighter
      exact ⟨by omega, by omega⟩)
  rw [hL, Nat.add_zero, ← hin] at w1
  refine ⟨s', w1, w2.1, w2.2, w3, ?_⟩
  intro b f hbf hfk hfb
  have := w4 b f (by rw [hL]; omega) (by omega) (by rw [hL]; omega)
  rwa [hL, arc_eq_ws E.vw hcw (by omega)] at this

/-- A tree edge of weight `c` keeps the record valid. -/
theorem tryEdge_valid (hF : Facts E.C E.mincut) (htot : E.total = ∑ q ∈ range E.C.n, E.vw q) (T : Tree E.C r par D) {n e t : Nat}
    (hn : n < E.C.n) (he : e < E.C.len n) (ht : (E.C.edge n e).target = t) (hp : par t = n) (htr : t ≠ r) {s : St}
    (hsub : s.sub t = ∑ q ∈ D t, E.vw q) (hs : Valid E E.mincut s) :
    Valid E E.mincut (tryEdge E n e t s) ∧ s.weight ≤ (tryEdge E n e t s).weight ∧
    (E.C.toGraph.wt t (par t) = E.mincut → lighter E.total (ws E.C E.vw fun x => decide (x ∈ D t)) ≤ (tryEdge E n e t s).weight) := by
  have hpos := hF.pos
  have hadj : E.C.Adj n t := ⟨e, he, ht⟩
  have htn := adj_lt hF.cons hn hadj
  have hws : ws E.C E.vw (fun x => decide (x ∈ D t)) = s.sub t := by
    rw [hsub]
    unfold ws
    rw [← Finset.sum_filter]
    refine Finset.sum_congr ?_ fun _ _ => rfl
    ext q
    rw [Finset.mem_filter, Finset.mem_range, decide_eq_true_eq]
    exact ⟨fun hq => hq.2, fun hq => ⟨T.lt htn hq, hq⟩⟩
  have hwt : E.C.toGraph.wt t (par t) = (E.C.edge n e).weight := by
    rw [hp, hF.symm, ← ht, hF.wt_of_edge hn he]
  unfold tryEdge
  split
  · rename_i hc
    refine ⟨Or.inr ⟨fun x => !decide (x ∈ D t), ?_, ?_, ?_⟩, by dsimp only; omega, fun _ => by rw [hws]⟩
    · have := ws_compl (C := E.C) E.vw (fun x => decide (x ∈ D t))
      rw [hws, ← htot] at this
      dsimp only
      unfold lighter
      omega
    all_goals
      have hno : ¬ ∃ l, IsCycle E.C l ∧ OnCycle l t (par t) := by
        rintro ⟨l, hl, ho⟩
        have := hF.wt_in htn (T.par_adj t htn htr) ⟨l, hl, ho⟩
        omega
      have honly : ∀ x y, x < E.C.n → E.C.Adj x y → (!decide (x ∈ D t)) = true → (!decide (y ∈ D t)) = false → x = n ∧ y = t := by
        intro x y hx hxy h1 h2
        have h1' : x ∉ D t := by simpa using h1
        have h2' : y ∈ D t := by simpa using h2
        have := T.leave_bridge hF.cons htn hx h2' h1' (adj_symm hF.cons hx hxy) hno
        exact ⟨by rw [this.2, hp], this.1⟩
      have hin : (!decide (n ∈ D t)) = true := by
        have := T.par_not t htn htr
        rw [hp] at this
        simp [this]
      have hout : (!decide (t ∈ D t)) = false := by simp [T.self t htn]
    · rw [cut_one (w := E.C.toGraph.wt) (p := (n, t)) (mem_pairs.2 ⟨⟨hn, htn⟩, hin, hout⟩) (by
        intro z hz hw
        obtain ⟨⟨z1, z2⟩, z3, z4⟩ := mem_pairs.1 (show (z.1, z.2) ∈ _ from hz)
        have := honly z.1 z.2 z1 (adj_of_wt z1 hw) z3 z4
        exact Prod.ext this.1 this.2)]
      dsimp only
      rw [hF.symm, ← hp, hwt]; exact hc.2
    · unfold result
      dsimp only
      rw [if_neg (by simp)]
      refine ⟨hn, hn, he, he, hin, hin, ?_, ?_, ?_⟩
      · dsimp only; rw [ht]; exact hout
      · dsimp only; rw [ht]; exact hout
      · intro x y hx hxy h1 h2
        left
        dsimp only
        rw [ht]
        exact honly x y hx hxy h1 h2
  · rename_i hc
    refine ⟨hs, le_refl _, fun hw => ?_⟩
    rw [hws]
    by_contra hlt
    exact hc ⟨by omega, by rw [← hwt]; exact hw⟩

end Balanced
end VieCut
