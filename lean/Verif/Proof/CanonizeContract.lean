import Verif.Proof.CanonizeCuts

/-!
# An empty vertex of two junctions with a tree edge is contracted into its neighbour
-/

namespace VieCut
open Function Finset MGraph

namespace CactusOf
variable {E : Nat → Prop} {P : (Nat → Bool) → Prop} {C : MGraph} {c : Nat}

theorem posIn (h : CactusOf E P C c) : PosIn E C := (held_iff.1 h.held).1

theorem posW (h : CactusOf E P C c) (hc : 0 < c) : PosW C [] := fun u b hu _ hb => by
  rcases h.weights u b hu hb with h1 | h1 <;> omega

theorem W_cases (h : CactusOf E P C c) {u v : Nat} (hu : u < C.n) (hv : v < C.n) (hW : C.W u v ≠ 0) : C.W u v = c ∨ 2 * C.W u v = c :=
  (allW_cnt (Q := fun w => w = c ∨ 2 * w = c) h.simp0 h.valid).1 h.weights u v hu hv (cnt_pos_of_W hW)

theorem W_comm (h : CactusOf E P C c) {u v : Nat} (hu : u < C.n) (hv : v < C.n) : C.W u v = C.W v u :=
  h.valid.W_symm hu (by simp) hv (by simp)

/-- Nothing is at an empty vertex. -/
theorem pos_ne (h : CactusOf E P C c) {v : Nat} (hv : v < C.n) (he : C.cont v = []) {e : Nat} (hE : E e) : C.pos e ≠ v := by
  intro hp
  have := (h.held.mem v e hv).2 ⟨hE, hp⟩
  rw [he] at this
  simp at this

/-- The ends of an edge of weight `c` have no common neighbour. -/
theorem no_common (h : CactusOf E P C c) {v t b : Nat} (hv : v < C.n) (ht : t < C.n) (hb : b < C.n) (hvt : v ≠ t) (hbv : b ≠ v) (hbt : b ≠ t)
    (hw : C.W v t = c) : C.W v b = 0 ∨ C.W t b = 0 := by
  obtain ⟨X, x1, x2, x3⟩ := h.separating v t hv ht hvt
  cases hXb : X b
  · left
    have := sum_le_cv h.valid hv X [t, b] (by simp [hbt.symm]) (by simp [ht, hb]) (by simp [x1, x2, hXb])
    simp at this
    unfold MGraph.cv at this
    omega
  · right
    have := sum_le_cv h.valid ht X [v, b] (by simp [hbv.symm]) (by simp [hv, hb]) (by simp [x1, x2, hXb])
    simp at this
    rw [h.W_comm ht hv] at this
    unfold MGraph.cv at this
    omega

theorem contractTree (h : CactusOf E P C c) (hc : 0 < c) {v e : Nat} (hv : v < C.n) (hempty : C.cont v = []) (he : e < C.len v)
    (hw : (C.edge v e).weight = c) (hsum : rowSum C (fun _ w => w) v = 2 * c) : CactusOf E P (C.contractEdge v e) c := by
  classical
  obtain ⟨⟨φ, hC⟩, hs, hn⟩ := contractEdge_spec h.valid h.simp0 hv he
  set C' := C.contractEdge v e with hC'
  have hWt := edge_weight_W h.simp0 h.valid hv he
  obtain ⟨k1, k2⟩ := (valid_iff.1 h.valid).1 v e hv he
  have htv : (C.edge v e).target ≠ v := by
    obtain ⟨_, _, _, _, _, k6⟩ := h.valid.pv v e ⟨hv, by simp, he⟩
    tauto
  set t := (C.edge v e).target with htd
  rw [hw] at hWt
  obtain ⟨f1, f2, f3, f4⟩ := con_facts hC.con
  have hker : ∀ a b, a < C.n → b < C.n → a ≠ v → b ≠ v → φ a = φ b → a = b := by
    intro a b ha hb hav hbv hh
    rcases (hC.ker a b ha hb).1 hh with h1 | ⟨h1, h2⟩
    · exact h1
    · simp only [List.mem_cons, List.not_mem_nil, or_false] at h1 h2
      rw [h1.resolve_left hav, h2.resolve_left hbv]
  have hφ : φ v = φ t := (hC.ker v t hv k1).2 (Or.inr ⟨by simp, by simp⟩)
  have hrep : ∀ p, p < C'.n → ∃ a, a < C.n ∧ a ≠ v ∧ φ a = p := by
    intro p hp
    obtain ⟨a, ha, rfl⟩ := f2 p hp
    by_cases hav : a = v
    · exact ⟨t, k1, htv, by rw [hav, hφ]⟩
    · exact ⟨a, ha, hav, rfl⟩
  have htwin : ∀ X, C.cv X = c → C.cv (update X v (X t)) = c := by
    intro X hX
    by_cases hXt : X t = X v
    · rw [hXt, update_eq_self]; exact hX
    · have hX' : X t = !X v := by
        revert hXt; cases X t <;> cases X v <;> simp
      have h1 := star_le h.valid hv X
      have h2 := sum_le_cv (g := C) h.valid hv X [t] (by simp) (by simp [k1]) (by simp [hXt])
      have h3 : C.W v t ≤ star C v X (X v) := by
        rw [star_W h.valid hv]
        refine le_trans ?_ (Finset.single_le_sum (f := fun t => if X t ≠ X v then C.W v t else 0) (fun _ _ => Nat.zero_le _) (mem_range.2 k1))
        rw [if_pos hXt]
      have h4 := star_compl (g := C) v X (X v)
      have h5 := star_flip h.valid hv X
      rw [hX']
      omega
  have hlift : ∀ X, C.cv X = c → ∃ T : Nat → Bool, C'.cv T = c ∧ ∀ a, a < C.n → a ≠ v → T (φ a) = X a := by
    intro X hX
    let T : Nat → Bool := fun p => decide (∃ u, u < C.n ∧ u ≠ v ∧ φ u = p ∧ X u = true)
    have hT : ∀ a, a < C.n → a ≠ v → T (φ a) = X a := by
      intro a ha hav
      cases hXa : X a
      · refine decide_eq_false ?_
        rintro ⟨u, u1, u2, u3, u4⟩
        rw [hker u a u1 ha u2 hav u3, hXa] at u4
        simp at u4
      · exact decide_eq_true ⟨a, ha, hav, rfl, hXa⟩
    refine ⟨T, ?_, hT⟩
    rw [f3, ← htwin X hX]
    refine cutValue_congr fun u hu => ?_
    by_cases huv : u = v
    · rw [huv, update_self, hφ]; exact hT t k1 htv
    · rw [update_of_ne huv]; exact hT u hu huv
  obtain ⟨p1, p2⟩ := hC.posE E h.posIn
  have hpos : ∀ e, E e → C'.pos e = φ (C.pos e) := fun e he => p2 e he (h.held.lt e he)
  refine ⟨consistent_iff.2 hC.valid, noParallel_of_simple hC.valid hs, hC.last h.ready, hC.csize h.room, held_iff.2 ⟨p1, ?_⟩, ?_, ?_, ?_, ?_⟩
  · intro e he
    rw [hpos e he]; exact f1 _ (h.held.lt e he)
  · refine (allW_cnt (Q := fun w => w = c ∨ 2 * w = c) hs hC.valid).2 fun p q hp hq hcn => ?_
    have hpq : p ≠ q := by
      rintro rfl
      obtain ⟨b, hb, ht⟩ := exists_edge_of_cnt hcn
      obtain ⟨_, _, _, _, _, k6⟩ := hC.valid.pv p b ⟨hp, by simp, hb⟩
      rw [ht] at k6
      tauto
    have hpw : 0 < C'.W p q := W_pos_of_cnt (fun u b hu hb => hC.posw (h.posW hc) u b hu (by simp) hb) hp hcn
    have hwt := hC.con.wt p q (by rw [toGraph_n]; exact hp) (by rw [toGraph_n]; exact hq) hpq
    rw [toGraph_wt C' hp, toGraph_n] at hwt
    have hwt : C'.W p q = ∑ a ∈ range C.n, ∑ b ∈ range C.n, if φ a = p ∧ φ b = q then C.W a b else 0 := by
      rw [hwt]
      refine Finset.sum_congr rfl fun a ha => Finset.sum_congr rfl fun b _ => ?_
      rw [toGraph_wt C (mem_range.1 ha)]
    have hex : ∃ a b, a < C.n ∧ b < C.n ∧ φ a = p ∧ φ b = q ∧ C.W a b ≠ 0 := by
      by_contra hno
      push Not at hno
      rw [Finset.sum_eq_zero fun a ha => Finset.sum_eq_zero fun b hb => ite_zero_of fun hh =>
        hno a b (mem_range.1 ha) (mem_range.1 hb) hh.1 hh.2] at hwt
      omega
    obtain ⟨a, b, ha, hb, hap, hbq, hWab⟩ := hex
    have huniq : ∀ a' b', a' < C.n → b' < C.n → φ a' = p → φ b' = q → C.W a' b' ≠ 0 → a' = a ∧ b' = b := by
      intro a' b' ha' hb' hap' hbq' hW'
      have key : ∀ x y z, x < C.n → y < C.n → z < C.n → x ≠ y → φ x = φ y → φ z ≠ φ x → C.W x z ≠ 0 → C.W y z ≠ 0 → False := by
        intro x y z hx hy hz hxy hf hzf h1 h2
        rcases (hC.ker x y hx hy).1 hf with h3 | ⟨h3, h4⟩
        · exact hxy h3
        · simp only [List.mem_cons, List.not_mem_nil, or_false] at h3 h4
          have hzv : z ≠ v := by
            rintro rfl
            rcases h3 with rfl | rfl
            · exact hzf rfl
            · exact hzf hφ
          have hzt : z ≠ t := by
            rintro rfl
            rcases h3 with rfl | rfl
            · exact hzf hφ.symm
            · exact hzf rfl
          have hnc := h.no_common hv k1 hz htv.symm hzv hzt hWt
          rcases h3 with rfl | rfl <;> rcases h4 with rfl | rfl <;> first | exact hxy rfl | (rcases hnc with h5 | h5 <;> contradiction)
      by_cases hb2 : b' = b
      · subst hb2
        refine ⟨?_, rfl⟩
        by_contra haa
        exact key a' a b' ha' ha hb haa (hap'.trans hap.symm) (by rw [hbq', hap']; exact hpq.symm) hW' hWab
      · exfalso
        by_cases ha2 : a' = a
        · subst ha2
          refine key b' b a' hb' hb ha hb2 (hbq'.trans hbq.symm) (by rw [hbq', hap']; exact hpq) ?_ ?_
          · rwa [h.W_comm hb' ha]
          · rwa [h.W_comm hb ha]
        · have h1 := (hC.ker a' a ha' ha).1 (hap'.trans hap.symm)
          have h2 := (hC.ker b' b hb' hb).1 (hbq'.trans hbq.symm)
          have h3 := h1.resolve_left ha2
          have h4 := h2.resolve_left hb2
          exact hpq (by rw [← hap, ← hbq]; exact (hC.ker a b ha hb).2 (Or.inr ⟨h3.2, h4.2⟩))
    have hone : C'.W p q = C.W a b := by
      rw [hwt, Finset.sum_eq_single a, Finset.sum_eq_single b]
      · rw [if_pos ⟨hap, hbq⟩]
      · intro b' hb' hne
        refine ite_zero_of fun hh => ?_
        by_contra hW'
        exact hne (huniq a b' ha (mem_range.1 hb') hh.1 hh.2 hW').2
      · intro hh; exact absurd (mem_range.2 hb) hh
      · intro a' ha' hne
        refine Finset.sum_eq_zero fun b' hb' => ite_zero_of fun hh => ?_
        by_contra hW'
        exact hne (huniq a' b' (mem_range.1 ha') (mem_range.1 hb') hh.1 hh.2 hW').1
      · intro hh; exact absurd (mem_range.2 ha) hh
    rw [hone]
    exact h.W_cases ha hb hWab
  · intro X hX
    have h1 := h.least _ (f4 X hX)
    have h2 := f3 X
    unfold MGraph.cv at h2
    omega
  · intro f
    rw [← h.splits f]
    constructor
    · rintro ⟨T, t1, t2, t3⟩
      refine ⟨fun x => T (φ x), f4 T t1, ?_, ?_⟩
      · rw [← t2]; exact (f3 T).symm
      · intro e he
        rw [← t3 e he, hpos e he]
    · rintro ⟨X, x1, x2, x3⟩
      obtain ⟨T, t1, t2⟩ := hlift X x2
      refine ⟨T, ?_, t1, ?_⟩
      · by_contra hnp
        have h0 : C'.cv T = 0 := by
          unfold MGraph.cv cutValue
          refine Finset.sum_eq_zero fun a ha => Finset.sum_eq_zero fun b hb => if_neg fun hh => ?_
          exact hnp ⟨⟨a, mem_range.1 ha, hh.1⟩, ⟨b, mem_range.1 hb, hh.2⟩⟩
        omega
      · intro e he
        rw [← x3 e he, hpos e he]
        exact t2 _ (h.held.lt e he) (h.pos_ne hv hempty he)
  · intro x y hx hy hxy
    obtain ⟨a, ha, hav, rfl⟩ := hrep x hx
    obtain ⟨b, hb, hbv, rfl⟩ := hrep y hy
    obtain ⟨X, x1, x2, x3⟩ := h.separating a b ha hb (fun hh => hxy (by rw [hh]))
    obtain ⟨T, t1, t2⟩ := hlift X x3
    exact ⟨T, by rw [t2 a ha hav, x1], by rw [t2 b hb hbv, x2], t1⟩

end CactusOf
end VieCut
