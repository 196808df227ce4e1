import Verif.Proof.CanonizeSearch

/-!
# Three disjoint minimum cuts that cover the graph: the value is even
-/

namespace VieCut
open Function Finset MGraph

theorem cutValue_disjoint {n : Nat} {w : Nat → Nat → Nat} (hw : ∀ u v, w u v = w v u) (S T : Nat → Bool)
    (hd : ∀ x, x < n → S x = true → T x = false) :
    ∃ k, cutValue n w S + cutValue n w T = cutValue n w (fun x => S x || T x) + 2 * k := by
  refine ⟨∑ u ∈ range n, ∑ v ∈ range n, if S u = true ∧ T v = true then w u v else 0, ?_⟩
  have hcomm : (∑ u ∈ range n, ∑ v ∈ range n, if S u = true ∧ T v = true then w u v else 0) =
      ∑ u ∈ range n, ∑ v ∈ range n, if T u = true ∧ S v = true then w u v else 0 := by
    rw [Finset.sum_comm]
    refine Finset.sum_congr rfl fun u _ => Finset.sum_congr rfl fun v _ => ?_
    rw [hw v u]
    by_cases h1 : S v = true <;> by_cases h2 : T u = true <;> simp [h1, h2]
  rw [two_mul]
  have : (∑ u ∈ range n, ∑ v ∈ range n, if S u = true ∧ T v = true then w u v else 0) +
      (∑ u ∈ range n, ∑ v ∈ range n, if S u = true ∧ T v = true then w u v else 0) =
      (∑ u ∈ range n, ∑ v ∈ range n, if S u = true ∧ T v = true then w u v else 0) +
      ∑ u ∈ range n, ∑ v ∈ range n, if T u = true ∧ S v = true then w u v else 0 := by rw [← hcomm]
  rw [this]
  unfold cutValue
  rw [← Finset.sum_add_distrib, ← Finset.sum_add_distrib, ← Finset.sum_add_distrib]
  refine Finset.sum_congr rfl fun u hu => ?_
  rw [← Finset.sum_add_distrib, ← Finset.sum_add_distrib, ← Finset.sum_add_distrib]
  refine Finset.sum_congr rfl fun v hv => ?_
  have h1 := hd u (mem_range.1 hu)
  have h2 := hd v (mem_range.1 hv)
  have key : ∀ (a b d e : Bool) (x : Nat), (a = true → b = false) → (d = true → e = false) →
      (if a = true ∧ d = false then x else 0) + (if b = true ∧ e = false then x else 0) =
        (if (a || b) = true ∧ (d || e) = false then x else 0) +
          ((if a = true ∧ e = true then x else 0) + if b = true ∧ d = true then x else 0) := by
    intro a b d e x
    cases a <;> cases b <;> cases d <;> cases e <;> simp
  exact key _ _ _ _ _ h1 h2

namespace GraphModification
variable {E : Nat → Prop} {P : (Nat → Bool) → Prop} {C : MGraph} {c v : Nat}

/-- The cut of what can be reached from `p` without `v` consists of edges at `v`. -/
theorem reach_cv (h : CactusOf E P C c) (hv : v < C.n) {p : Nat} (hp : p < C.n) (hpv : p ≠ v) {R : Nat → Bool}
    (hR : ∀ x, R x = true ↔ Relation.ReflTransGen (StepAvoiding C v) p x) : C.cv R = star C v R false := by
  have hRv : R v = false := by
    rw [← Bool.not_eq_true, hR]
    exact fun hh => (h.joined_of_reach hv hp hpv hh).2.1 rfl
  rw [cv_W, star_W h.valid hv]
  unfold cutValue
  refine Finset.sum_congr rfl fun u hu => ?_
  have hu := mem_range.1 hu
  rw [Finset.sum_eq_single v]
  · rw [hRv, h.W_comm hu hv]
    cases R u <;> simp
  · intro t ht htv
    refine ite_zero_of fun hh => ?_
    by_contra hW
    obtain ⟨b, hb, he⟩ := exists_edge_of_cnt (cnt_pos_of_W hW)
    have : R t = true := (hR t).2 (((hR u).1 hh.1).tail ⟨hu, by
      unfold targets
      rw [List.mem_map]
      exact ⟨b, List.mem_range.2 hb, he⟩, htv⟩)
    rw [hh.2] at this
    simp at this
  · intro hh; exact absurd (mem_range.2 hv) hh

/-- With three tree edges and no others at an empty vertex, `c` is even when the splits are minimum cuts of a graph. -/
theorem parity (h : CactusOf E P C c) (hc : 0 < c) (hv : v < C.n) (hempty : C.cont v = []) {g : MGraph} (hg : Piece E g c)
    (hP : ∀ f, P f → Split g E c f) {t1 t2 t3 : Nat} (l1 : t1 < C.n) (l2 : t2 < C.n) (l3 : t3 < C.n) (n1 : t1 ≠ v) (n2 : t2 ≠ v)
    (n3 : t3 ≠ v) (n12 : t1 ≠ t2) (n13 : t1 ≠ t3) (n23 : t2 ≠ t3) (w1 : C.W v t1 = c) (w2 : C.W v t2 = c) (w3 : C.W v t3 = c)
    (hall : ∀ b, b < C.n → C.W v b ≠ 0 → b = t1 ∨ b = t2 ∨ b = t3)
    (hstar : ∀ X b, star C v X b = (if b = X t1 then 0 else c) + (if b = X t2 then 0 else c) + if b = X t3 then 0 else c) :
    2 * (c / 2) = c := by
  classical
  let R : Nat → Nat → Bool := fun t x => decide (Relation.ReflTransGen (StepAvoiding C v) t x)
  have hR : ∀ t x, R t x = true ↔ Relation.ReflTransGen (StepAvoiding C v) t x := fun t x => decide_eq_true_iff
  have hself : ∀ t, R t t = true := fun t => (hR t t).2 Relation.ReflTransGen.refl
  have hside : ∀ t, t < C.n → t ≠ v → ∀ x, R t x = true → x < C.n ∧ x ≠ v ∧ SameSide C v c t x := fun t ht htv x hx =>
    h.joined_of_reach hv ht htv ((hR t x).1 hx)
  have hdis : ∀ s t, s < C.n → t < C.n → s ≠ v → t ≠ v → s ≠ t → C.W v s = c → C.W v t = c → ∀ x, R s x = true → R t x = false := by
    intro s t hs ht hsv htv hst ws wt x hx
    cases hh : R t x
    · rfl
    · obtain ⟨x1, _, x3⟩ := hside s hs hsv x hx
      obtain ⟨_, _, y3⟩ := hside t ht htv x hh
      have := h.joined_le hv hs ht hst (h.joined_trans hv x1 x3 y3.symm)
      omega
  have hoff : ∀ s t, s < C.n → t < C.n → s ≠ v → t ≠ v → s ≠ t → C.W v s = c → C.W v t = c → R s t = false := by
    intro s t hs ht hsv htv hst ws wt
    exact hdis t s ht hs htv hsv hst.symm wt ws t (hself t)
  have c1 : C.cv (R t1) = c := by
    rw [reach_cv h hv l1 n1 (hR t1), hstar, hself, hoff t1 t2 l1 l2 n1 n2 n12 w1 w2, hoff t1 t3 l1 l3 n1 n3 n13 w1 w3]; simp
  have c2 : C.cv (R t2) = c := by
    rw [reach_cv h hv l2 n2 (hR t2), hstar, hself, hoff t2 t1 l2 l1 n2 n1 n12.symm w2 w1, hoff t2 t3 l2 l3 n2 n3 n23 w2 w3]; simp
  have c3 : C.cv (R t3) = c := by
    rw [reach_cv h hv l3 n3 (hR t3), hstar, hself, hoff t3 t1 l3 l1 n3 n1 n13.symm w3 w1, hoff t3 t2 l3 l2 n3 n2 n23.symm w3 w2]; simp
  have hcover : ∀ u, u < C.n → u ≠ v → R t1 u = true ∨ R t2 u = true ∨ R t3 u = true := by
    intro u hu huv
    by_contra hno
    push Not at hno
    let X : Nat → Bool := fun x => decide (x = v) || R t1 x || R t2 x || R t3 x
    have hXv : X v = true := by simp [X]
    have hXu : X u = false := by
      show (decide (u = v) || R t1 u || R t2 u || R t3 u) = false
      simp [huv, hno.1, hno.2.1, hno.2.2]
    have hle := h.least X ⟨⟨v, hv, hXv⟩, ⟨u, hu, hXu⟩⟩
    have h0 : C.cv X = 0 := by
      rw [cv_W]
      unfold cutValue
      refine Finset.sum_eq_zero fun a ha => Finset.sum_eq_zero fun b hb => ite_zero_of fun hh => ?_
      have ha := mem_range.1 ha
      have hb := mem_range.1 hb
      by_contra hW
      obtain ⟨e, he, het⟩ := exists_edge_of_cnt (cnt_pos_of_W hW)
      have hbt : b ∈ targets C a := by
        unfold targets
        rw [List.mem_map]
        exact ⟨e, List.mem_range.2 he, het⟩
      obtain ⟨hXa, hXb⟩ := hh
      have hXb : ((decide (b = v) || R t1 b) || R t2 b || R t3 b) = false := hXb
      simp only [Bool.or_eq_false_iff, decide_eq_false_iff_not] at hXb
      obtain ⟨⟨⟨b1, b2⟩, b3⟩, b4⟩ := hXb
      by_cases hav : a = v
      · rw [hav] at hW
        rcases hall b hb hW with rfl | rfl | rfl
        · rw [hself] at b2; simp at b2
        · rw [hself] at b3; simp at b3
        · rw [hself] at b4; simp at b4
      · have hXa : ((decide (a = v) || R t1 a) || R t2 a || R t3 a) = true := hXa
        simp only [Bool.or_eq_true, decide_eq_true_eq] at hXa
        have hcl : ∀ t, R t a = true → R t b = true := fun t ht => (hR t b).2 (((hR t a).1 ht).tail ⟨ha, hbt, b1⟩)
        rcases hXa with ((ha1 | ha1) | ha1) | ha1
        · exact hav ha1
        · rw [hcl t1 ha1] at b2; simp at b2
        · rw [hcl t2 ha1] at b3; simp at b3
        · rw [hcl t3 ha1] at b4; simp at b4
    unfold MGraph.cv at h0
    omega
  have hT : ∀ t, C.cv (R t) = c → ∃ T : Nat → Bool, cutValue g.n g.toGraph.wt T = c ∧ ∀ e, E e → T (g.pos e) = R t (C.pos e) := by
    intro t ht
    obtain ⟨T, _, T2, T3⟩ := hP (fun e => R t (C.pos e)) ((h.splits _).1 ⟨R t, proper_of_cv (by omega), ht, fun e _ => rfl⟩)
    exact ⟨T, T2, T3⟩
  obtain ⟨T1, a1, b1⟩ := hT t1 c1
  obtain ⟨T2, a2, b2⟩ := hT t2 c2
  obtain ⟨T3, a3, b3⟩ := hT t3 c3
  have hw := hg.valid.wf.wt_symm
  obtain ⟨k, hk⟩ := cutValue_disjoint (n := g.n) hw T1 T2 (by
    intro x hx hx1
    obtain ⟨e, he, rfl⟩ := hg.exists_elem hx
    rw [b1 e he] at hx1
    rw [b2 e he]
    exact hdis t1 t2 l1 l2 n1 n2 n12 w1 w2 _ hx1)
  have h3 : cutValue g.n g.toGraph.wt (fun x => T1 x || T2 x) = c := by
    rw [← a3, ← cutValue_compl hw T3]
    refine cutValue_congr fun x hx => ?_
    obtain ⟨e, he, rfl⟩ := hg.exists_elem hx
    rw [b1 e he, b2 e he, b3 e he]
    have hlt := h.held.lt e he
    have hne := h.pos_ne hv hempty he
    have k1 := hcover _ hlt hne
    have k2 := hdis t1 t3 l1 l3 n1 n3 n13 w1 w3 (C.pos e)
    have k3 := hdis t2 t3 l2 l3 n2 n3 n23 w2 w3 (C.pos e)
    revert k1 k2 k3
    generalize R t1 (C.pos e) = x
    generalize R t2 (C.pos e) = y
    generalize R t3 (C.pos e) = z
    cases x <;> cases y <;> cases z <;> simp
  omega

end GraphModification
end VieCut
