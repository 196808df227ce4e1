import Verif.Proof.CactusPieces

/-!
# A leaf of weight `c` is taken out of a piece
-/

namespace VieCut
open Function Finset MGraph

theorem ite_zero_of {p : Prop} [Decidable p] {a : Nat} (h : p → a = 0) : (if p then a else 0) = 0 := by
  split
  · exact h (by assumption)
  · rfl

/-- Facts of a contraction between mutable graphs. -/
theorem con_facts {g g' : MGraph} {φ : Nat → Nat} (hC : IsContraction g.toGraph g'.toGraph φ) :
    (∀ u, u < g.n → φ u < g'.n) ∧ (∀ p, p < g'.n → ∃ u, u < g.n ∧ φ u = p) ∧ (∀ T, g'.cv T = g.cv (fun x => T (φ x))) ∧
    ∀ T, ProperCut g'.n T → ProperCut g.n (fun x => T (φ x)) := by
  have hlt : ∀ u, u < g.n → φ u < g'.n := by
    intro u hu
    have := hC.lt u (by rw [toGraph_n]; exact hu)
    rwa [toGraph_n] at this
  have hsurj : ∀ p, p < g'.n → ∃ u, u < g.n ∧ φ u = p := by
    intro p hp
    have := hC.surj p (by rw [toGraph_n]; exact hp)
    rwa [toGraph_n] at this
  refine ⟨hlt, hsurj, ?_, ?_⟩
  · intro T
    have := cutValue_quotient (n := g.toGraph.n) (k := g'.toGraph.n) hC.lt hC.wt T
    rw [toGraph_n, toGraph_n] at this
    exact this
  · rintro T ⟨⟨a, ha, h1⟩, ⟨b, hb, h2⟩⟩
    obtain ⟨u, hu, rfl⟩ := hsurj a ha
    obtain ⟨v, hv, rfl⟩ := hsurj b hb
    exact ⟨⟨u, hu, h1⟩, ⟨v, hv, h2⟩⟩

/-- Where the vertices go when the leaf `u` at `t` is deleted. -/
def leafMap (g : MGraph) (u t v : Nat) : Nat := relab u (g.n - 1) (if v = u then t else v)

theorem relab_lt {u n v : Nat} (hu : u < n) (hv : v < n) (hne : v ≠ u) : relab u (n - 1) v < n - 1 :=
  (relab_spec (D := []) hu (by simp) hv (by simpa using hne)).1

theorem relab_inj' {u n v w : Nat} (hu : u < n) (hv : v < n) (hne : v ≠ u) (hw : w < n) (hne' : w ≠ u) :
    relab u (n - 1) v = relab u (n - 1) w ↔ v = w :=
  relab_inj (D := []) hu (by simp) hv (by simpa using hne) hw (by simpa using hne')

theorem relab_surj {u n p : Nat} (hu : u < n) (hp : p < n - 1) : ∃ v, v < n ∧ v ≠ u ∧ relab u (n - 1) v = p := by
  by_cases h : p = u
  · refine ⟨n - 1, by omega, by omega, ?_⟩
    unfold relab; rw [if_pos rfl, h]
  · refine ⟨p, by omega, h, ?_⟩
    unfold relab; rw [if_neg (by omega)]

theorem deleteLeaf_con {g : MGraph} (hg : Valid g) {u t c : Nat} (hl : LeafAt g u t c) :
    IsContraction g.toGraph (g.deleteVertex u).toGraph (leafMap g u t) := by
  obtain ⟨d1, d2, d3, _⟩ := deleteVertex_spec hg hl.lt
  have hsub : ∀ v, v < g.n → (if v = u then t else v) < g.n ∧ (if v = u then t else v) ≠ u := by
    intro v hv
    split
    · exact ⟨hl.ltt, hl.ne⟩
    · exact ⟨hv, by assumption⟩
  refine ⟨?_, ?_, d1.wf, ?_⟩
  · intro v hv
    rw [toGraph_n] at hv ⊢
    rw [d2]
    exact relab_lt hl.lt (hsub v hv).1 (hsub v hv).2
  · intro p hp
    rw [toGraph_n, d2] at hp
    obtain ⟨v, hv, hne, e⟩ := relab_surj hl.lt hp
    exact ⟨v, by rw [toGraph_n]; exact hv, by unfold leafMap; rw [if_neg hne]; exact e⟩
  · intro p q hp hq hpq
    rw [toGraph_n, d2] at hp hq
    obtain ⟨a, ha, hau, rfl⟩ := relab_surj hl.lt hp
    obtain ⟨b, hb, hbu, rfl⟩ := relab_surj hl.lt hq
    have hab : a ≠ b := fun h => hpq (by rw [h])
    rw [toGraph_wt _ (by rw [d2]; exact hp), (d3 a b ha hb hau hbu).1, toGraph_n]
    have hφ : ∀ x y, x < g.n → y < g.n → y ≠ u → (leafMap g u t x = relab u (g.n - 1) y ↔ (if x = u then t else x) = y) := by
      intro x y hx hy hyu
      exact relab_inj' hl.lt (hsub x hx).1 (hsub x hx).2 hy hyu
    rw [Finset.sum_eq_single a, Finset.sum_eq_single b, if_pos, toGraph_wt g ha]
    · rw [hφ a a ha ha hau, hφ b b hb hb hbu, if_neg hau, if_neg hbu]; exact ⟨rfl, rfl⟩
    · intro y hy hyb
      refine ite_zero_of ?_
      intro hxy
      rw [hφ a a ha ha hau, hφ y b (mem_range.1 hy) hb hbu] at hxy
      by_cases hyu : y = u
      · rw [if_pos hyu] at hxy
        rw [toGraph_wt g ha, hyu, hg.W_symm ha (by simp) hl.lt (by simp), hl.row a ha, if_neg (fun h => hab (h.trans hxy.2))]
      · rw [if_neg hyu] at hxy
        exact absurd hxy.2 hyb
    · intro hn; exact absurd (mem_range.2 hb) hn
    · intro x hx hxa
      refine Finset.sum_eq_zero fun y hy => ?_
      refine ite_zero_of ?_
      intro hxy
      rw [hφ x a (mem_range.1 hx) ha hau, hφ y b (mem_range.1 hy) hb hbu] at hxy
      by_cases hxu : x = u
      · rw [if_pos hxu] at hxy
        by_cases hyu : y = u
        · rw [if_pos hyu] at hxy
          exact absurd (hxy.1.symm.trans hxy.2) hab
        · rw [if_neg hyu] at hxy
          rw [hxu, hxy.2, toGraph_wt g hl.lt, hl.row b hb, if_neg (fun h => hab (hxy.1.symm.trans h.symm))]
      · rw [if_neg hxu] at hxy
        exact absurd hxy.1 hxa
    · intro hn; exact absurd (mem_range.2 ha) hn

/-- The cut around a leaf. -/
theorem LeafAt.single {g : MGraph} (hg : Valid g) {u t c : Nat} (h : LeafAt g u t c) (b : Bool) :
    g.cv (fun v => if v = u then b else !b) = c := by
  rw [h.cut hg]
  have h0 : g.cv (update (fun v => if v = u then b else !b) u (if t = u then b else !b)) = 0 := by
    unfold cv cutValue
    refine Finset.sum_eq_zero fun x _ => Finset.sum_eq_zero fun y _ => ?_
    rw [if_neg]
    rintro ⟨h1, h2⟩
    have key : ∀ x, update (fun v => if v = u then b else !b) u (if t = u then b else !b) x = !b := by
      intro x
      rw [if_neg h.ne]
      by_cases hx : x = u
      · rw [hx, update_self]
      · rw [update_of_ne hx, if_neg hx]
    rw [key] at h1 h2
    exact absurd (h1.symm.trans h2) (by simp)
  rw [h0, if_neg]
  · omega
  · rw [if_pos rfl, if_neg h.ne]; cases b <;> simp

theorem LeafAt.proper {g : MGraph} {u t c : Nat} (h : LeafAt g u t c) (b : Bool) :
    ProperCut g.n (fun v => if v = u then b else !b) := by
  cases b
  · exact ⟨⟨t, h.ltt, by simp [h.ne]⟩, ⟨u, h.lt, by simp⟩⟩
  · exact ⟨⟨u, h.lt, by simp⟩, ⟨t, h.ltt, by simp [h.ne]⟩⟩

namespace Piece
variable {E : Nat → Prop} {g : MGraph} {c : Nat}

/-- Deletion of a leaf of weight `c`: the rest is a piece, and the splits are those of the rest, with the leaf on the side of its
neighbour, and the split that isolates the leaf. -/
theorem deleteLeaf (h : Piece E g c) (hc : 0 < c) {u t : Nat} (hl : LeafAt g u t c) :
    Piece (fun e => E e ∧ g.pos e ≠ u) (g.deleteVertex u) c ∧
    (∀ e, E e → g.pos e ≠ u → (g.deleteVertex u).pos e = relab u (g.n - 1) (g.pos e)) ∧
    ∀ x, E x → g.pos x = t → ∀ f, Split g E c f ↔ (Split (g.deleteVertex u) (fun e => E e ∧ g.pos e ≠ u) c f ∧ ∀ e ∈ g.cont u, f e = f x) ∨
      ∃ b : Bool, ∀ e, E e → f e = if e ∈ g.cont u then b else !b := by
  obtain ⟨d1, d2, d3, d4, d5, d6, d7, d8, d9⟩ := deleteVertex_spec h.valid hl.lt
  obtain ⟨p1, p2, p3⟩ := d6 E h.posIn
  have hcon := deleteLeaf_con h.valid hl
  obtain ⟨c1, c2, c3, c4⟩ := con_facts hcon
  have hpos : ∀ e, E e → g.pos e ≠ u → (g.deleteVertex u).pos e = relab u (g.n - 1) (g.pos e) :=
    fun e he hne => p2 e he (h.held.lt e he) hne
  have hmap : ∀ v, v ≠ u → leafMap g u t v = relab u (g.n - 1) v := by
    intro v hv; unfold leafMap; rw [if_neg hv]
  have hmapu : leafMap g u t u = leafMap g u t t := by
    unfold leafMap; rw [if_pos rfl, if_neg hl.ne]
  have hcont : ∀ e, E e → (e ∈ g.cont u ↔ g.pos e = u) := by
    intro e he
    rw [h.held.mem u e hl.lt]; exact ⟨fun h => h.2, fun h => ⟨he, h⟩⟩
  have hheld : Held (fun e => E e ∧ g.pos e ≠ u) (g.deleteVertex u) := by
    refine ⟨?_, ?_, p1.nodup⟩
    · rintro e ⟨he, hne⟩
      rw [hpos e he hne, d2]
      exact relab_lt hl.lt (h.held.lt e he) hne
    · intro p e hp
      constructor
      · intro hm
        obtain ⟨he, hpe⟩ := p1.back p hp e hm
        refine ⟨⟨he, fun hu => ?_⟩, hpe⟩
        have := p3 e he hu
        omega
      · rintro ⟨⟨he, hne⟩, hpe⟩
        rw [← hpe]
        exact p1.mem e he (by omega)
  refine ⟨⟨consistent_iff.2 d1, noParallel_of_simple d1 ?_, ?_, ?_, ?_, hheld, ?_, ?_, ?_⟩, hpos, ?_⟩
  · intro a b ha _ hb _
    rw [d2] at ha hb
    obtain ⟨a, ha', hau, rfl⟩ := relab_surj hl.lt ha
    obtain ⟨b, hb', hbu, rfl⟩ := relab_surj hl.lt hb
    rw [(d3 a b ha' hb' hau hbu).2]
    exact h.simp0 a b ha' (by simp) hb' (by simp)
  · rw [d8, d2, h.ready]
  · rw [d9, d2]; have := h.room; omega
  · intro a b ha hb; exact d7 h.posW a b ha (by simp) hb
  · rintro e ⟨he, _⟩; rw [d5]; exact h.known e he
  · intro p hp
    have hp' := hp
    rw [d2] at hp'
    obtain ⟨v, hv, hvu, rfl⟩ := relab_surj hl.lt hp'
    obtain ⟨e, he, rfl⟩ := h.exists_elem hv
    exact List.ne_nil_of_mem ((hheld.mem _ e hp).2 ⟨⟨he, hvu⟩, hpos e he hvu⟩)
  · intro X hX
    have := h.least _ (c4 X hX)
    have h2 := c3 X
    unfold cv at h2
    omega
  · intro x hx hxt f
    have hxu : g.pos x ≠ u := by rw [hxt]; exact hl.ne
    constructor
    · rintro ⟨X, x1, x2, x3⟩
      have hcut := hl.cut h.valid X
      by_cases hXu : X u = X t
      · rw [if_pos hXu, add_zero, ← hXu, update_eq_self] at hcut
        left
        let T : Nat → Bool := fun p => X (if p = u then g.n - 1 else p)
        have hT : ∀ v, v < g.n → T (leafMap g u t v) = X v := by
          intro v hv
          have key : ∀ v, v < g.n → v ≠ u → T (relab u (g.n - 1) v) = X v := by
            intro v hv hvu
            have := (relab_spec (D := []) hl.lt (by simp) hv (by simpa using hvu)).2.2
            show X _ = X v
            rw [this]
          by_cases hvu : v = u
          · rw [hvu, hmapu, hmap t hl.ne, key t hl.ltt hl.ne, hXu]
          · rw [hmap v hvu, key v hv hvu]
        have hTc : (g.deleteVertex u).cv T = c := by
          rw [c3]
          rw [← x2]
          exact cutValue_congr fun v hv => hT v hv
        refine ⟨⟨T, proper_of_val (fun h0 => by have : c = 0 := hTc.symm.trans h0; omega), hTc, ?_⟩, ?_⟩
        · rintro e ⟨he, hne⟩
          rw [hpos e he hne, ← hmap _ hne, hT _ (h.held.lt e he)]
          exact x3 e he
        · intro e he
          obtain ⟨he1, he2⟩ := (h.held.mem u e hl.lt).1 he
          rw [← x3 e he1, ← x3 x hx, he2, hxt, hXu]
      · rw [if_neg hXu] at hcut
        right
        have h0 : g.cv (update X u (X t)) = 0 := by unfold cv at *; omega
        have hall : ∀ v, v < g.n → v ≠ u → X v = X t := by
          intro v hv hvu
          by_contra hne
          have hp : ProperCut g.n (update X u (X t)) := by
            have e1 : update X u (X t) v = X v := update_of_ne hvu _ _
            have e2 : update X u (X t) t = X t := update_of_ne hl.ne _ _
            cases h1 : X v <;> cases h2 : X t
            · exact absurd (h1.trans h2.symm) hne
            · exact ⟨⟨t, hl.ltt, by rw [← h2, e2]⟩, ⟨v, hv, by rw [← h2, e1, h1]⟩⟩
            · exact ⟨⟨v, hv, by rw [← h2, e1, h1]⟩, ⟨t, hl.ltt, by rw [← h2, e2]⟩⟩
            · exact absurd (h1.trans h2.symm) hne
          have := h.least _ hp
          unfold cv at h0
          omega
        refine ⟨X u, fun e he => ?_⟩
        rw [← x3 e he]
        by_cases hu : g.pos e = u
        · rw [if_pos ((hcont e he).2 hu), hu]
        · rw [if_neg (fun hm => hu ((hcont e he).1 hm)), hall _ (h.held.lt e he) hu]
          revert hXu
          cases X u <;> cases X t <;> simp
    · rintro (⟨⟨T, t1, t2, t3⟩, hfx⟩ | ⟨b, hb⟩)
      · refine ⟨fun v => T (leafMap g u t v), c4 T t1, by rw [← t2]; exact (c3 T).symm, ?_⟩
        intro e he
        show T (leafMap g u t (g.pos e)) = f e
        by_cases hu : g.pos e = u
        · have e1 := t3 x ⟨hx, hxu⟩
          rw [hpos x hx hxu, hxt] at e1
          rw [hu, hmapu, hmap _ hl.ne, e1]
          exact (hfx e ((hcont e he).2 hu)).symm
        · rw [hmap _ hu, ← hpos e he hu]
          exact t3 e ⟨he, hu⟩
      · refine ⟨_, hl.proper b, hl.single h.valid b, fun e he => ?_⟩
        rw [hb e he]
        by_cases hu : g.pos e = u
        · rw [if_pos hu, if_pos ((hcont e he).2 hu)]
        · rw [if_neg hu, if_neg (fun hm => hu ((hcont e he).1 hm))]

end Piece
end VieCut
