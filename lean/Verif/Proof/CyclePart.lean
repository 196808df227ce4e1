import Verif.Proof.HeavyEdges

/-!
# A vertex with two neighbours is contracted, and put back on an edge of the cactus
-/

namespace VieCut
open Function Finset MGraph HeavyEdges

/-- `u` has exactly two neighbours. -/
structure Deg2 (g : MGraph) (u t0 t1 w0 w1 : Nat) : Prop where
  lt : u < g.n
  lt0 : t0 < g.n
  lt1 : t1 < g.n
  ne0 : t0 ≠ u
  ne1 : t1 ≠ u
  ne : t0 ≠ t1
  row : ∀ v, v < g.n → g.W u v = if v = t0 then w0 else if v = t1 then w1 else 0

theorem Deg2.swap {g : MGraph} {u t0 t1 w0 w1 : Nat} (h : Deg2 g u t0 t1 w0 w1) : Deg2 g u t1 t0 w1 w0 := by
  refine ⟨h.lt, h.lt1, h.lt0, h.ne1, h.ne0, h.ne.symm, fun v hv => ?_⟩
  rw [h.row v hv]
  by_cases h0 : v = t0
  · rw [if_pos h0, if_neg (fun e => h.ne (h0.symm.trans e)), if_pos h0]
  · rw [if_neg h0]
    by_cases h1 : v = t1
    · rw [if_pos h1, if_pos h1]
    · rw [if_neg h1, if_neg h1, if_neg h0]

theorem deg2_of_len {g : MGraph} (hg : Valid g) (hs : Simple g []) {u : Nat} (hu : u < g.n) (hl : g.len u = 2) :
    Deg2 g u (g.edge u 0).target (g.edge u 1).target (g.edge u 0).weight (g.edge u 1).weight := by
  obtain ⟨h1, _, _, _, _, h2⟩ := (valid_iff.1 hg).1 u 0 hu (by omega)
  obtain ⟨k1, _, _, _, _, k2⟩ := (valid_iff.1 hg).1 u 1 hu (by omega)
  have hne : (g.edge u 0).target ≠ (g.edge u 1).target := by
    intro e
    have := cnt_le_one (hs u (g.edge u 1).target hu (by simp) k1 (by simp)) (b := 0) (b' := 1) (by omega) (by omega) e rfl
    omega
  refine ⟨hu, h1, k1, h2, k2, hne, fun v _ => ?_⟩
  unfold W rowSum
  rw [hl, Finset.sum_range_succ, Finset.sum_range_one]
  dsimp only
  by_cases hv : v = (g.edge u 0).target
  · rw [if_pos hv, if_pos hv.symm, if_neg (fun e => hne (hv.symm.trans e.symm))]; omega
  · rw [if_neg hv, if_neg (fun h => hv h.symm)]
    by_cases hv1 : v = (g.edge u 1).target
    · rw [if_pos hv1, if_pos hv1.symm]; omega
    · rw [if_neg hv1, if_neg (fun h => hv1 h.symm)]

theorem Deg2.flip {g : MGraph} (hg : Valid g) {u t0 t1 w0 w1 : Nat} (h : Deg2 g u t0 t1 w0 w1) (X : Nat → Bool) :
    g.cv (update X u (!X u)) + (if X u = X t0 then 0 else w0) + (if X u = X t1 then 0 else w1) =
      g.cv X + (if X u = X t0 then w0 else 0) + if X u = X t1 then w1 else 0 := by
  have hf := cut_flip hg.wf X (u := u) (by rw [toGraph_n]; exact h.lt)
  have hsum : ∀ k : Nat → Bool, (∑ v ∈ range g.n, if k v = true then g.toGraph.wt u v else 0) =
      (if k t0 = true then w0 else 0) + if k t1 = true then w1 else 0 := by
    intro k
    have hsub : ({t0, t1} : Finset Nat) ⊆ range g.n := by
      intro x hx
      rw [mem_insert, mem_singleton] at hx
      rcases hx with rfl | rfl
      · exact mem_range.2 h.lt0
      · exact mem_range.2 h.lt1
    rw [← Finset.sum_subset hsub]
    · rw [Finset.sum_pair h.ne, toGraph_wt g h.lt, toGraph_wt g h.lt, h.row t0 h.lt0, h.row t1 h.lt1, if_pos rfl, if_neg h.ne.symm, if_pos rfl]
    · intro v hv hnv
      rw [mem_insert, mem_singleton, not_or] at hnv
      refine ite_zero_of fun _ => ?_
      rw [toGraph_wt g h.lt, h.row v (mem_range.1 hv), if_neg hnv.1, if_neg hnv.2]
  have hcr : crossing g.toGraph X u = (if X u = X t0 then 0 else w0) + if X u = X t1 then 0 else w1 := by
    have := hsum (fun v => decide (X v ≠ X u))
    unfold crossing
    rw [toGraph_n]
    simp only [decide_eq_true_eq] at this
    rw [this]
    congr 1
    · by_cases e : X u = X t0
      · rw [if_pos e, if_neg (by simp [e])]
      · rw [if_neg e, if_pos (fun h => e h.symm)]
    · by_cases e : X u = X t1
      · rw [if_pos e, if_neg (by simp [e])]
      · rw [if_neg e, if_pos (fun h => e h.symm)]
  have hd : g.toGraph.deg u = w0 + w1 := by
    rw [hg.wf.deg_eq, toGraph_n]
    have := hsum (fun _ => true)
    simpa using this
  rw [hcr, hd, toGraph_n] at hf
  unfold cv
  split_ifs at hf ⊢ <;> omega

namespace Piece
variable {E : Nat → Prop} {g : MGraph} {c : Nat}

/-- What a cut of value `c` that separates `u` from its heavier neighbour looks like. -/
theorem deg2_cases (h : Piece E g c) {u t0 t1 w0 w1 : Nat} (hd : Deg2 g u t0 t1 w0 w1) (hle : w1 ≤ w0) {X : Nat → Bool}
    (hX : g.cv X = c) (hne : X u ≠ X t0) :
    (X u = X t1 ∧ w0 = w1 ∧ g.cv (update X u (!X u)) = c) ∨ (X u ≠ X t1 ∧ g.cv (update X u (!X u)) + w0 + w1 = c) := by
  have hf := hd.flip h.valid X
  rw [hX, if_neg hne, if_neg hne] at hf
  by_cases h1 : X u = X t1
  · left
    rw [if_pos h1, if_pos h1] at hf
    have hp : ProperCut g.n (update X u (!X u)) := by
      have e0 : update X u (!X u) t0 = X t0 := update_of_ne hd.ne0 _ _
      have e1 : update X u (!X u) t1 = X t1 := update_of_ne hd.ne1 _ _
      rw [h1] at hne
      cases h0 : X t0
      · exact ⟨⟨t1, hd.lt1, by rw [e1]; simpa [h0] using hne⟩, ⟨t0, hd.lt0, by rw [e0, h0]⟩⟩
      · exact ⟨⟨t0, hd.lt0, by rw [e0, h0]⟩, ⟨t1, hd.lt1, by rw [e1]; simpa [h0] using hne⟩⟩
    have hge : c ≤ g.cv (update X u (!X u)) := h.least _ hp
    exact ⟨h1, by omega, by omega⟩
  · right
    rw [if_neg h1, if_neg h1] at hf
    exact ⟨h1, by omega⟩

/-- Contraction with the heavier of two neighbours, when the vertex alone is not a cut of value `c`. -/
theorem deg2_const (h : Piece E g c) {u t0 t1 w0 w1 : Nat} (hd : Deg2 g u t0 t1 w0 w1) (hlt : w1 < w0) (hsum : w0 + w1 ≠ c)
    {X : Nat → Bool} (hX : g.cv X = c) : X u = X t0 := by
  by_contra hne
  rcases h.deg2_cases hd (by omega) hX hne with ⟨_, e, _⟩ | ⟨_, e⟩
  · omega
  · have hf := hd.flip h.valid (fun v => decide (v = u))
    have hp : ProperCut g.n (fun v => decide (v = u)) := ⟨⟨u, hd.lt, by simp⟩, ⟨t0, hd.lt0, by simp [hd.ne0]⟩⟩
    have hge : c ≤ g.cv (fun v => decide (v = u)) := h.least _ hp
    have h0 : g.cv (update (fun v => decide (v = u)) u (!(decide (u = u)))) = 0 := by
      unfold cv cutValue
      refine Finset.sum_eq_zero fun x _ => Finset.sum_eq_zero fun y _ => ?_
      rw [if_neg]
      rintro ⟨h1, _⟩
      by_cases hx : x = u
      · rw [hx, update_self] at h1; simp at h1
      · rw [update_of_ne hx] at h1; simp [hx] at h1
    rw [h0, if_neg (by simp [hd.ne0]), if_neg (by simp [hd.ne1]), if_neg (by simp [hd.ne0]), if_neg (by simp [hd.ne1])] at hf
    omega

/-- A vertex on a cycle is taken out of the lists and contracted into its heavier neighbour. -/
theorem cycleOut (h : Piece E g c) (hc : 0 < c) {u t0 t1 w0 w1 : Nat} (hd : Deg2 g u t0 t1 w0 w1) (hle : w1 ≤ w0) (hsum : w0 + w1 = c)
    {g1 g' : MGraph} {S : List Nat} {φ : Nat → Nat} (e1 : g1.n = g.n) (e2 : g1.toGraph = g.toGraph) (e3 : g1.cont = update g.cont u [])
    (e4 : ∀ e, e ∉ g.cont u → g1.pos e = g.pos e) (e5 : g1.lastNode = g.lastNode) (e6 : g1.contSize = g.contSize)
    (e7 : g1.origNodes = g.origNodes) (e8 : PosW g1 []) (hS : ∀ v, v ∈ S ↔ v = t0 ∨ v = u)
    (hC : Contracted g1 g' S φ) (hs : Simple g' []) :
    Piece (fun e => E e ∧ g.pos e ≠ u) g' c ∧
    ∀ x0 x1, E x0 → g.pos x0 = t0 → E x1 → g.pos x1 = (if w1 < w0 then t0 else t1) → ∀ f, Split g E c f ↔
      (Split g' (fun e => E e ∧ g.pos e ≠ u) c f ∧ ((∀ e ∈ g.cont u, f e = f x0) ∨ ∀ e ∈ g.cont u, f e = f x1)) ∨
      ∃ b : Bool, ∀ e, E e → f e = if e ∈ g.cont u then b else !b := by
  have hcont : ∀ e, E e → (e ∈ g.cont u ↔ g.pos e = u) := by
    intro e he
    rw [h.held.mem u e hd.lt]; exact ⟨fun h => h.2, fun h => ⟨he, h⟩⟩
  have hp1 : ∀ e, E e → g.pos e ≠ u → g1.pos e = g.pos e := fun e he hne => e4 e (fun hm => hne ((hcont e he).1 hm))
  have hPI : PosIn (fun e => E e ∧ g.pos e ≠ u) g1 := by
    refine ⟨?_, ?_, ?_⟩
    · intro p hp e he
      rw [e3] at he
      by_cases hpu : p = u
      · rw [hpu, update_self] at he; simp at he
      · rw [update_of_ne hpu] at he
        obtain ⟨a1, a2⟩ := (h.held.mem p e (by omega)).1 he
        have : g.pos e ≠ u := by rw [a2]; exact hpu
        exact ⟨⟨a1, this⟩, by rw [hp1 e a1 this]; exact a2⟩
    · rintro e ⟨he, hne⟩ _
      rw [hp1 e he hne, e3, update_of_ne hne]
      exact (h.held.mem _ e (h.held.lt e he)).2 ⟨he, rfl⟩
    · intro p hp
      rw [e3]
      by_cases hpu : p = u
      · rw [hpu, update_self]; exact List.nodup_nil
      · rw [update_of_ne hpu]; exact h.held.nodup p (by omega)
  obtain ⟨p1, p2⟩ := hC.posE _ hPI
  have hcon := hC.con
  rw [e2] at hcon
  obtain ⟨c1, c2, c3, c4⟩ := con_facts hcon
  have hker : ∀ a b, a < g.n → b < g.n → (φ a = φ b ↔ a = b ∨ ((a = t0 ∨ a = u) ∧ (b = t0 ∨ b = u))) := by
    intro a b ha hb
    rw [hC.ker a b (by omega) (by omega), hS, hS]
  have hφ : φ u = φ t0 := (hker u t0 hd.lt hd.lt0).2 (Or.inr ⟨Or.inr rfl, Or.inl rfl⟩)
  have hpos : ∀ e, E e → g.pos e ≠ u → g'.pos e = φ (g.pos e) := by
    intro e he hne
    have := p2 e ⟨he, hne⟩ (by rw [hp1 e he hne, e1]; exact h.held.lt e he)
    rw [this, hp1 e he hne]
  have hheld : Held (fun e => E e ∧ g.pos e ≠ u) g' := by
    refine held_iff.2 ⟨p1, ?_⟩
    rintro e ⟨he, hne⟩
    rw [hpos e he hne]
    exact c1 _ (h.held.lt e he)
  have hT : ∀ X : Nat → Bool, X u = X t0 → ∃ T : Nat → Bool, ∀ v, v < g.n → T (φ v) = X v := by
    intro X hX
    classical
    refine ⟨fun p => if hp : ∃ v, v < g.n ∧ φ v = p then X hp.choose else false, fun v hv => ?_⟩
    have hp : ∃ v', v' < g.n ∧ φ v' = φ v := ⟨v, hv, rfl⟩
    dsimp only
    rw [dif_pos hp]
    obtain ⟨q1, q2⟩ := hp.choose_spec
    rcases (hker _ _ q1 hv).1 q2 with hh | ⟨h1, h2⟩
    · rw [hh]
    · rcases h1 with h1 | h1 <;> rcases h2 with h2 | h2 <;> rw [h1, h2] <;> first | rfl | exact hX | exact hX.symm
  refine ⟨⟨consistent_iff.2 hC.valid, noParallel_of_simple hC.valid hs, hC.last (by rw [e5, e1]; exact h.ready),
    hC.csize (by rw [e1, e6]; exact h.room), fun a b ha hb => hC.posw e8 a b ha (by simp) hb, hheld, ?_, ?_, ?_⟩, ?_⟩
  · rintro e ⟨he, _⟩; rw [hC.orig, e7]; exact h.known e he
  · intro p hp
    obtain ⟨v, hv, rfl⟩ := c2 p hp
    obtain ⟨v', hv', hne, hvv⟩ : ∃ v', v' < g.n ∧ v' ≠ u ∧ φ v' = φ v := by
      by_cases hvu : v = u
      · exact ⟨t0, hd.lt0, hd.ne0, by rw [hvu, hφ]⟩
      · exact ⟨v, hv, hvu, rfl⟩
    obtain ⟨e, he, rfl⟩ := h.exists_elem hv'
    exact List.ne_nil_of_mem ((hheld.mem _ e hp).2 ⟨⟨he, hne⟩, by rw [hpos e he hne, hvv]⟩)
  · intro X hX
    have := h.least _ (c4 X hX)
    have h2 := c3 X
    unfold cv at h2
    omega
  · intro x0 x1 hx0 hx0t hx1 hx1t f
    have hx0u : g.pos x0 ≠ u := by rw [hx0t]; exact hd.ne0
    have back : ∀ X : Nat → Bool, X u = X t0 → g.cv X = c → (∀ e, E e → g.pos e ≠ u → X (g.pos e) = f e) →
        Split g' (fun e => E e ∧ g.pos e ≠ u) c f := by
      intro X hXu hXc hXf
      obtain ⟨T, hT⟩ := hT X hXu
      have hTc : g'.cv T = c := by
        rw [c3, ← hXc]
        exact cutValue_congr fun v hv => hT v hv
      refine ⟨T, proper_of_val (fun h0 => by have : c = 0 := hTc.symm.trans h0; omega), hTc, ?_⟩
      rintro e ⟨he, hne⟩
      rw [hpos e he hne, hT _ (h.held.lt e he)]
      exact hXf e he hne
    constructor
    · rintro ⟨X, y1, y2, y3⟩
      by_cases hXu : X u = X t0
      · left
        refine ⟨back X hXu y2 (fun e he _ => y3 e he), Or.inl fun e he => ?_⟩
        obtain ⟨he1, he2⟩ := (h.held.mem u e hd.lt).1 he
        rw [← y3 e he1, ← y3 x0 hx0, he2, hx0t, hXu]
      · rcases h.deg2_cases hd hle y2 hXu with ⟨a1, a2, a3⟩ | ⟨a1, a2⟩
        · left
          have hflip : (!X u) = X t0 := by
            revert hXu
            cases X u <;> cases X t0 <;> simp
          refine ⟨back (update X u (!X u)) (by rw [update_self, update_of_ne hd.ne0, hflip]) a3 (fun e he hne => ?_), Or.inr fun e he => ?_⟩
          · rw [update_of_ne hne]; exact y3 e he
          · obtain ⟨he1, he2⟩ := (h.held.mem u e hd.lt).1 he
            rw [if_neg (by omega)] at hx1t
            rw [← y3 e he1, ← y3 x1 hx1, he2, hx1t, a1]
        · right
          have h0 : g.cv (update X u (!X u)) = 0 := by omega
          have hall : ∀ v, v < g.n → v ≠ u → X v = X t0 := by
            intro v hv hvu
            by_contra hne
            have hp : ProperCut g.n (update X u (!X u)) := by
              have e1 : update X u (!X u) v = X v := update_of_ne hvu _ _
              have e2 : update X u (!X u) t0 = X t0 := update_of_ne hd.ne0 _ _
              cases h1 : X v <;> cases h2 : X t0
              · exact absurd (h1.trans h2.symm) hne
              · exact ⟨⟨t0, hd.lt0, by rw [e2, h2]⟩, ⟨v, hv, by rw [e1, h1]⟩⟩
              · exact ⟨⟨v, hv, by rw [e1, h1]⟩, ⟨t0, hd.lt0, by rw [e2, h2]⟩⟩
              · exact absurd (h1.trans h2.symm) hne
            have hge : c ≤ g.cv (update X u (!X u)) := h.least _ hp
            omega
          refine ⟨X u, fun e he => ?_⟩
          rw [← y3 e he]
          by_cases hu : g.pos e = u
          · rw [if_pos ((hcont e he).2 hu), hu]
          · rw [if_neg (fun hm => hu ((hcont e he).1 hm)), hall _ (h.held.lt e he) hu]
            revert hXu
            cases X u <;> cases X t0 <;> simp
    · rintro (⟨⟨T, y1, y2, y3⟩, hfx⟩ | ⟨b, hb⟩)
      · have hval : ∀ e, E e → g.pos e ≠ u → T (φ (g.pos e)) = f e := by
          intro e he hne
          rw [← hpos e he hne]
          exact y3 e ⟨he, hne⟩
        have hTc : g.cv (fun v => T (φ v)) = c := by rw [← c3]; exact y2
        by_cases hfirst : ∀ e ∈ g.cont u, f e = f x0
        · refine ⟨fun v => T (φ v), c4 T y1, hTc, ?_⟩
          intro e he
          show T (φ (g.pos e)) = f e
          by_cases hu : g.pos e = u
          · rw [hu, hφ, ← hx0t, hval x0 hx0 hx0u]
            exact (hfirst e ((hcont e he).2 hu)).symm
          · exact hval e he hu
        · have hfx1 := hfx.resolve_left hfirst
          have hw : w0 = w1 := by
            by_contra hne
            rw [if_pos (by omega)] at hx1t
            apply hfirst
            intro e he
            rw [hfx1 e he, ← hval x0 hx0 hx0u, ← hval x1 hx1 (by rw [hx1t]; exact hd.ne0), hx1t, hx0t]
          rw [if_neg (by omega)] at hx1t
          have hx1u : g.pos x1 ≠ u := by rw [hx1t]; exact hd.ne1
          have hne01 : f x0 ≠ f x1 := by
            intro e
            exact hfirst fun a ha => by rw [hfx1 a ha, e]
          set X : Nat → Bool := fun v => T (φ v) with hXd
          have hX0 : X t0 = f x0 := by rw [← hval x0 hx0 hx0u, hx0t]
          have hX1 : X t1 = f x1 := by rw [← hval x1 hx1 hx1u, hx1t]
          have hXu : X u = X t0 := by rw [hXd]; show T (φ u) = T (φ t0); rw [hφ]
          have hflip : (!X u) = X t1 := by
            rw [hXu, hX0, hX1]
            revert hne01
            cases f x0 <;> cases f x1 <;> simp
          have hne1 : X u ≠ X t1 := by rw [← hflip]; simp
          have hf := hd.flip h.valid X
          rw [if_pos hXu, if_pos hXu, if_neg hne1, if_neg hne1, hTc] at hf
          have hfc : g.cv (update X u (!X u)) = c := by omega
          refine ⟨update X u (!X u), proper_of_val (fun h0 => by have : c = 0 := hfc.symm.trans h0; omega), hfc, ?_⟩
          intro e he
          by_cases hu : g.pos e = u
          · rw [hu, update_self, hflip, hX1]
            exact (hfx1 e ((hcont e he).2 hu)).symm
          · rw [update_of_ne hu]; exact hval e he hu
      · have hp : ProperCut g.n (fun v => if v = u then b else !b) := by
          cases b
          · exact ⟨⟨t0, hd.lt0, by simp [hd.ne0]⟩, ⟨u, hd.lt, by simp⟩⟩
          · exact ⟨⟨u, hd.lt, by simp⟩, ⟨t0, hd.lt0, by simp [hd.ne0]⟩⟩
        have h0 : g.cv (update (fun v => if v = u then b else !b) u (!(if u = u then b else !b))) = 0 := by
          unfold cv cutValue
          refine Finset.sum_eq_zero fun x _ => Finset.sum_eq_zero fun y _ => ?_
          have key : ∀ x, update (fun v => if v = u then b else !b) u (!(if u = u then b else !b)) x = !b := by
            intro x
            rw [if_pos rfl]
            by_cases hx : x = u
            · rw [hx, update_self]
            · rw [update_of_ne hx, if_neg hx]
          rw [key, key, if_neg]
          rintro ⟨h1, h2⟩
          exact absurd (h1.symm.trans h2) (by simp)
        have hf := hd.flip h.valid (fun v => if v = u then b else !b)
        have q0 : (if u = u then b else !b) ≠ if t0 = u then b else !b := by rw [if_pos rfl, if_neg hd.ne0]; cases b <;> simp
        have q1 : (if u = u then b else !b) ≠ if t1 = u then b else !b := by rw [if_pos rfl, if_neg hd.ne1]; cases b <;> simp
        rw [h0, if_neg q0, if_neg q1, if_neg q0, if_neg q1] at hf
        refine ⟨fun v => if v = u then b else !b, hp, ?_, fun e he => ?_⟩
        · unfold cv at hf; omega
        · rw [hb e he]
          dsimp only
          by_cases hu : g.pos e = u
          · rw [if_pos hu, if_pos ((hcont e he).2 hu)]
          · rw [if_neg hu, if_neg (fun hm => hu ((hcont e he).1 hm))]

end Piece

theorem newEdge_prefix (g : MGraph) (s t w : Nat) {u b : Nat} (hst : s ≠ t) (hb : b < g.len u) :
    (g.newEdgeOrder s t w).edge u b = g.edge u b ∧ g.len u ≤ (g.newEdgeOrder s t w).len u := by
  have key : ∀ s t, s < t → (g.newEdge s t w).edge u b = g.edge u b ∧ g.len u ≤ (g.newEdge s t w).len u := by
    intro s t hst
    unfold newEdge
    rw [if_pos hst]
    simp only [pushEdge, setEdge]
    constructor
    · by_cases hut : u = t
      · subst hut
        rw [update_self, update_of_ne (a := b)]
        · rw [update_of_ne (by omega)]
        · rw [update_of_ne (by omega)]; omega
      · rw [update_of_ne hut]
        by_cases hus : u = s
        · subst hus
          rw [update_self, update_of_ne (by omega)]
        · rw [update_of_ne hus]
    · by_cases hut : u = t
      · subst hut
        rw [update_self, update_of_ne (by omega)]; omega
      · rw [update_of_ne hut]
        by_cases hus : u = s
        · subst hus; rw [update_self]; omega
        · rw [update_of_ne hus]
  unfold newEdgeOrder
  by_cases h1 : s < t
  · rw [if_pos h1]; exact key s t h1
  · rw [if_neg h1, if_pos (by omega)]; exact key t s (by omega)

namespace CactusOf
variable {E : Nat → Prop} {P : (Nat → Bool) → Prop} {C : MGraph} {c : Nat}

/-- One step of `reInsertCycles`. -/
theorem putCycle {E' : Nat → Prop} {P' : (Nat → Bool) → Prop} (h : CactusOf E' P' C c) (hc : 0 < c) {L : List Nat} (hL : L.Nodup) {x0 x1 : Nat}
    (hx0 : E' x0) (hx1 : E' x1) (hE : ∀ e, E e ↔ E' e ∨ e ∈ L) (hd : ∀ e ∈ L, ¬ E' e) (heven : x0 ≠ x1 → 2 * (c / 2) = c) {R : MGraph}
    (hR : HeavyEdges.putCycle c C ((x0, x1), L) = some R) :
    CactusOf E (fun f => (P' f ∧ ((∀ e ∈ L, f e = f x0) ∨ ∀ e ∈ L, f e = f x1)) ∨ ∃ b : Bool, ∀ e, E e → f e = if e ∈ L then b else !b) R c := by
  have hq0 : C.pos x0 < C.n := h.held.lt x0 hx0
  have hq1 : C.pos x1 < C.n := h.held.lt x1 hx1
  unfold HeavyEdges.putCycle at hR
  dsimp only at hR
  by_cases hq : C.pos x0 = C.pos x1
  · rw [if_pos hq] at hR
    have hR' : HeavyEdges.putLeaf c C (x0, L) = R := by
      rw [Option.some.injEq] at hR
      rw [← hR]
      unfold HeavyEdges.putLeaf STCactus.setMembers
      dsimp only
      rw [update_idem]
      congr 1
      funext e
      split <;> rfl
    rw [← hR']
    refine (h.attach (E := E) hc hL hx0 hE hd).congr fun f => ?_
    have : P' f → f x0 = f x1 := by
      intro hf
      obtain ⟨X, _, _, y3⟩ := (h.splits f).2 hf
      rw [← y3 x0 hx0, ← y3 x1 hx1, hq]
    constructor
    · rintro (⟨a, b⟩ | a)
      · exact Or.inl ⟨a, Or.inl b⟩
      · exact Or.inr a
    · rintro (⟨a, b | b⟩ | a)
      · exact Or.inl ⟨a, b⟩
      · exact Or.inl ⟨a, fun e he => by rw [b e he, this a]⟩
      · exact Or.inr a
  · rw [if_neg hq] at hR
    have hev := heven (fun e => hq (by rw [e]))
    set q0 := C.pos x0 with hq0d
    set q1 := C.pos x1 with hq1d
    obtain ⟨a1, a2, a3, a4, a5, a6, a7, a8, a9, a10, a11⟩ := newEmpty_all h.valid h.ready
    rw [Option.map_eq_some_iff] at hR
    obtain ⟨e, hfind, hR⟩ := hR
    have he0 := List.mem_of_find?_eq_some hfind
    have het := List.find?_some hfind
    rw [List.mem_range, (a11 q0 hq0).1] at he0
    rw [(a11 q0 hq0).2, beq_iff_eq] at het
    rw [h.ready] at hR
    have hn0 : q0 ≠ C.n := by omega
    have hn1 : q1 ≠ C.n := by omega
    set D0 := C.newEmptyNode with hD0
    obtain ⟨b1, b2, b3⟩ := newEdgeOrder_all a1 hn0 (by omega) (by omega) (c / 2)
    have f1 := fr_eq (newEdgeOrder_fr D0 q0 C.n (c / 2))
    have hs0 := simple_newEmpty h.valid h.ready h.simp0
    have hz : ∀ p, p < C.n → D0.cnt p C.n = 0 := by
      intro p hp
      rw [a1.cnt_symm (by omega) (by simp) (by omega) (by simp)]
      exact a9 _
    have hs1 : Simple (D0.newEdgeOrder q0 C.n (c / 2)) [] := simple_newEdge a1 hs0 hn0 (by omega) (by omega) (hz q0 hq0) _
    have hw0 : AllW (fun w => w = c ∨ 2 * w = c) D0 := allW_newEmpty (Q := fun w => w = c ∨ 2 * w = c) h.valid h.ready h.weights
    have hw1 : AllW (fun w => w = c ∨ 2 * w = c) (D0.newEdgeOrder q0 C.n (c / 2)) := allW_newEdge a1 hw0 hn0 (by omega) (by omega) (Or.inr hev)
    have hcnt1 : (D0.newEdgeOrder q0 C.n (c / 2)).cnt q1 C.n = 0 := by
      rw [cnt_newEdge a1 hn0 (by omega) (by omega), hz q1 hq1, if_neg]
      rintro (⟨e, _⟩ | ⟨e, _⟩)
      · exact hq e.symm
      · exact hn1 e
    have p1 := newEdge_prefix D0 q0 C.n (c / 2) hn0 (u := q0) (b := e) (by rw [(a11 q0 hq0).1]; exact he0)
    set D1 := D0.newEdgeOrder q0 C.n (c / 2) with hD1
    have n1 : D1.n = C.n + 1 := f1.1.trans a2
    obtain ⟨k1, k2, k3⟩ := newEdgeOrder_all b1 hn1 (by omega) (by omega) (c / 2)
    have f2 := fr_eq (newEdgeOrder_fr D1 q1 C.n (c / 2))
    have hs2 : Simple (D1.newEdgeOrder q1 C.n (c / 2)) [] := simple_newEdge b1 hs1 hn1 (by omega) (by omega) hcnt1 _
    have hw2 : AllW (fun w => w = c ∨ 2 * w = c) (D1.newEdgeOrder q1 C.n (c / 2)) := allW_newEdge b1 hw1 hn1 (by omega) (by omega) (Or.inr hev)
    have he1 : e < D1.len q0 := lt_of_lt_of_le (by rw [(a11 q0 hq0).1]; exact he0) p1.2
    have p2 := newEdge_prefix D1 q1 C.n (c / 2) hn1 (u := q0) (b := e) he1
    set D2 := D1.newEdgeOrder q1 C.n (c / 2) with hD2
    have n2 : D2.n = C.n + 1 := f2.1.trans n1
    have he2 : e < D2.len q0 := lt_of_lt_of_le he1 p2.2
    have hedge : D2.edge q0 e = C.edge q0 e := by rw [p2.1, p1.1, (a11 q0 hq0).2]
    have ht2 : (D2.edge q0 e).target = q1 := by rw [hedge]; exact het
    have hcut2 : ∀ X, D2.cv X = C.cv X + (if X q0 = X C.n then 0 else c / 2) + if X q1 = X C.n then 0 else c / 2 := by
      intro X
      rw [k3, b3, a10]
    have hwe : (D2.edge q0 e).weight = c ∨ 2 * (D2.edge q0 e).weight = c := hw2 q0 e (by omega) he2
    -- the graph after the weight of the edge has been lowered
    obtain ⟨D3, hD3, v3, s3, fr3, w3, c3⟩ : ∃ D3, D3 = (if (D2.edge q0 e).weight = c / 2 then D2.deleteEdge q0 e
        else D2.setEdgeWeight q0 e ((D2.edge q0 e).weight - c / 2)) ∧ Valid D3 ∧ Simple D3 [] ∧ D3.fr = D2.fr ∧
        AllW (fun w => w = c ∨ 2 * w = c) D3 ∧ ∀ X, D3.cv X + (if X q0 = X q1 then 0 else c / 2) = D2.cv X := by
      refine ⟨_, rfl, ?_⟩
      have hq0n : q0 < D2.n := by omega
      by_cases hw : (D2.edge q0 e).weight = c / 2
      · rw [if_pos hw]
        obtain ⟨z1, _, z3⟩ := deleteEdge_spec k1 hq0n he2
        refine ⟨z1, ?_, deleteEdge_fr _ _ _, ?_, ?_⟩
        · intro a b ha _ hb _
          rw [(fr_eq (deleteEdge_fr D2 q0 e)).1] at ha hb
          have := hs2 a b ha (by simp) hb (by simp)
          have := z3 (fun x w => if x = b then 1 else 0) a
          unfold cnt at *
          omega
        · exact allW_deleteEdge k1 hw2 hq0n he2
        · intro X
          have := deleteEdge_all k1 hq0n he2 X
          rw [ht2, hw] at this
          exact this
      · rw [if_neg hw]
        have hwc : (D2.edge q0 e).weight = c := by omega
        obtain ⟨z1, _, z3⟩ := setEdgeWeight_spec k1 hq0n he2 ((D2.edge q0 e).weight - c / 2)
        refine ⟨z1, ?_, setEdgeWeight_fr _ _ _ _, ?_, ?_⟩
        · intro a b ha _ hb _
          rw [(fr_eq (setEdgeWeight_fr D2 q0 e _)).1] at ha hb
          have h1 := hs2 a b ha (by simp) hb (by simp)
          have h2 := z3 (fun x w => if x = b then 1 else 0) a
          unfold cnt at *
          omega
        · exact allW_setEdgeWeight k1 hw2 hq0n he2 (Or.inr (by omega))
        · intro X
          have := setEdgeWeight_all k1 hq0n he2 (w := (D2.edge q0 e).weight - c / 2) (by omega) X
          rw [ht2, hwc, show c - (c - c / 2) = c / 2 by omega] at this
          rw [hwc]
          exact this
    have f3 := fr_eq fr3
    rw [← hD3] at hR
    subst hR
    obtain ⟨f11, f12, f13, f14, f15, _⟩ := f1
    obtain ⟨f21, f22, f23, f24, f25, _⟩ := f2
    obtain ⟨f31, f32, f33, f34, f35, _⟩ := f3
    have n3 : D3.n = C.n + 1 := f31.trans n2
    refine h.grow hc hL hx0 hx1 hE hd (setMembers_valid v3 _ _) s3 n3 ?_ ?_ ?_ ?_ ?_ w3 ?_
    · show D3.lastNode = D3.n
      rw [f32, f22, f12, a3, n3]
    · show D3.n ≤ D3.contSize
      rw [f33, f23, f13, a4, n3]
      have := h.room; omega
    · intro v
      show (if v ∈ L then C.n else D3.pos v) = _
      rw [f35, f25, f15, a6]
    · intro p hp
      show update D3.cont C.n L p = _
      rw [update_of_ne (by omega), f34, f24, f14, a5, update_of_ne (by have := h.room; omega)]
    · show update D3.cont C.n L C.n = _
      rw [update_self]
    · intro X
      have e1 : (STCactus.setMembers D3 C.n L).cv X = D3.cv X := rfl
      have e2 := c3 X
      rw [hcut2] at e2
      rw [e1]
      show D3.cv X = C.cv X + if X C.n = X q0 ∨ X C.n = X q1 then 0 else c
      revert e2
      generalize X q0 = a, X q1 = b, X C.n = d
      intro e2
      cases a <;> cases b <;> cases d <;> simp at e2 ⊢ <;> omega

end CactusOf

/-- What a step of the reduction and its reversal have to satisfy. -/
structure Undo (E : Nat → Prop) (g : MGraph) (c : Nat) (E' : Nat → Prop) (g' : MGraph) (recs : List ((Nat × Nat) × List Nat)) : Prop where
  sub : ∀ e, E' e → E e
  piece : Piece E' g' c
  back : ∀ C C', CactusOf E' (Split g' E' c) C c → reInsertCycles c C recs = some C' → CactusOf E (Split g E c) C' c

theorem Undo.trans {E E1 E2 : Nat → Prop} {g g1 g2 : MGraph} {c : Nat} {r1 r2 : List ((Nat × Nat) × List Nat)}
    (h1 : Undo E g c E1 g1 r1) (h2 : Undo E1 g1 c E2 g2 r2) : Undo E g c E2 g2 (r1 ++ r2) := by
  refine ⟨fun e he => h1.sub e (h2.sub e he), h2.piece, fun C C' hC hr => ?_⟩
  unfold reInsertCycles at hr
  rw [List.reverse_append, List.foldlM_append] at hr
  obtain ⟨C1, hr1, hr2⟩ := Option.bind_eq_some_iff.1 hr
  exact h1.back C1 C' (h2.back C C1 hC hr1) hr2

theorem cycleStep_spec {E : Nat → Prop} {g : MGraph} {c : Nat} (h : Piece E g c) (hc : 0 < c) {n : Nat} (hn : n < g.n)
    (recs : List ((Nat × Nat) × List Nat)) :
    ∃ E' r, (cycleStep c (g, recs) n).2 = recs ++ r ∧ Undo E g c E' (cycleStep c (g, recs) n).1 r := by
  have hid : ∃ E' r, ((g, recs) : MGraph × _).2 = recs ++ r ∧ Undo E g c E' ((g, recs) : MGraph × List ((Nat × Nat) × List Nat)).1 r := by
    refine ⟨E, [], by simp, fun _ h => h, h, fun C C' hC hr => ?_⟩
    have : C = C' := by
      unfold reInsertCycles at hr
      simpa using hr
    rw [← this]; exact hC
  by_cases hl : g.len n = 2
  swap
  · unfold cycleStep
    dsimp only
    rw [if_neg (fun hh => hl hh.1), if_neg (fun hh => hl hh.1)]
    exact hid
  have hd := deg2_of_len h.valid h.simp0 hn hl
  obtain ⟨t01, t02, t03, _, _, _⟩ := (valid_iff.1 h.valid).1 n 0 hn (by omega)
  obtain ⟨t11, t12, t13, _, _, _⟩ := (valid_iff.1 h.valid).1 n 1 hn (by omega)
  have hwd : g.wdeg n = (g.edge n 0).weight + (g.edge n 1).weight := by
    rw [h.valid.wdeg n hn (by simp)]
    unfold rowSum
    rw [hl, Finset.sum_range_succ, Finset.sum_range_one]
  unfold cycleStep
  dsimp only
  by_cases hA : g.wdeg n = c
  · rw [if_pos ⟨hl, hA⟩]
    have hne0 : (g.cont (g.edge n 0).target).isEmpty = false := by rw [List.isEmpty_eq_false_iff]; exact h.full _ t01
    have hne1 : (g.cont (g.edge n 1).target).isEmpty = false := by rw [List.isEmpty_eq_false_iff]; exact h.full _ t11
    rw [hne0, hne1, if_neg (by simp)]
    set g1 : MGraph := { g with cont := update g.cont n [], pos := fun v => if v ∈ g.cont n then undefinedNode else g.pos v } with hg1
    have hv1 : Valid g1 := h.valid.of_eq rfl rfl rfl rfl rfl
    have hs1 : Simple g1 [] := h.simp0
    have hpw : PosW g1 [] := h.posW
    -- the general step
    have main : ∀ i t0 t1 w0 w1, i < 2 → (g.edge n i).target = t0 → Deg2 g n t0 t1 w0 w1 → w1 ≤ w0 → w0 + w1 = c →
        ∃ E' r, (recs ++ [(((g.cont t0).headD 0, (g.cont (if w1 < w0 then t0 else t1)).headD 0), g.cont n)] = recs ++ r) ∧
          Undo E g c E' (g1.contractEdgeSparseTarget t0 (g.edge n i).rev) r := by
      intro i t0 t1 w0 w1 hi hit hd hle hsum
      obtain ⟨i1, i2, i3, _, _, _⟩ := (valid_iff.1 h.valid).1 n i hn (by omega)
      rw [hit] at i1 i2 i3
      obtain ⟨⟨φ, hC⟩, hs', _⟩ := contractEdgeSparseTarget_spec (g := g1) (node := t0) (edge := (g.edge n i).rev) hv1 hs1 i1 i2
      obtain ⟨o1, o2⟩ := h.cycleOut hc hd hle hsum (g1 := g1) rfl rfl rfl
        (fun e he => by show (if e ∈ g.cont n then undefinedNode else g.pos e) = _; rw [if_neg he]) rfl rfl rfl hpw
        (S := [t0, (g1.edge t0 (g.edge n i).rev).target]) (fun v => by
          have : (g1.edge t0 (g.edge n i).rev).target = n := i3
          rw [this]; simp) hC hs'
      have hn1 : (if w1 < w0 then t0 else t1) < g.n := by split; exacts [hd.lt0, hd.lt1]
      obtain ⟨x1, x2⟩ := h.head_elem hd.lt0
      obtain ⟨y1, y2⟩ := h.head_elem hn1
      refine ⟨fun e => E e ∧ g.pos e ≠ n, _, rfl, fun e he => he.1, o1, fun C C' hC hr => ?_⟩
      have hr' : HeavyEdges.putCycle c C (((g.cont t0).headD 0, (g.cont (if w1 < w0 then t0 else t1)).headD 0), g.cont n) = some C' := by
        unfold reInsertCycles at hr
        simpa using hr
      refine (hC.putCycle (E := E) hc (h.held.nodup _ hn) ⟨x1, by rw [x2]; exact hd.ne0⟩ ⟨y1, by rw [y2]; split; exacts [hd.ne0, hd.ne1]⟩ ?_ ?_ ?_ hr').congr
        fun f => (o2 _ _ x1 x2 y1 y2 f).symm
      · intro e
        rw [h.held.mem _ e hn]
        constructor
        · intro he
          by_cases hp : g.pos e = n
          · exact Or.inr ⟨he, hp⟩
          · exact Or.inl ⟨he, hp⟩
        · rintro (hh | hh) <;> exact hh.1
      · intro e he
        rw [h.held.mem _ e hn] at he
        exact fun hh => hh.2 he.2
      · intro hne
        by_cases hw : w1 < w0
        · rw [if_pos hw] at hne; exact absurd rfl hne
        · omega
    by_cases hgt : (g.edge n 1).weight > (g.edge n 0).weight
    · have hnl : ¬ (g.edge n 1).weight < (g.edge n 0).weight := by omega
      simp only [if_pos hgt, if_neg hnl]
      have := main 1 _ _ _ _ (by omega) rfl hd.swap (by omega) (by omega)
      rw [if_pos hgt] at this
      exact this
    · simp only [if_neg hgt]
      exact main 0 _ _ _ _ (by omega) rfl hd (by omega) (by omega)
  · rw [if_neg (fun hh => hA hh.2)]
    by_cases hB : (g.edge n 0).weight ≠ (g.edge n 1).weight
    · rw [if_pos ⟨hl, hB⟩]
      have main : ∀ i t0 t1 w0 w1, i < 2 → (g.edge n i).target = t0 → Deg2 g n t0 t1 w0 w1 → w1 < w0 → w0 + w1 ≠ c →
          ∃ E' r, recs = recs ++ r ∧ Undo E g c E' (g.contractEdgeSparseTarget t0 (g.edge n i).rev) r := by
        intro i t0 t1 w0 w1 hi hit hd hlt hsum
        obtain ⟨i1, i2, i3, _, _, _⟩ := (valid_iff.1 h.valid).1 n i hn (by omega)
        rw [hit] at i1 i2 i3
        obtain ⟨⟨φ, hC⟩, hs', _⟩ := contractEdgeSparseTarget_spec (g := g) (node := t0) (edge := (g.edge n i).rev) h.valid h.simp0 i1 i2
        rw [i3] at hC
        obtain ⟨o1, o2, _⟩ := h.contract hC hs' (by
          intro X _ hX a b _ _ ha hb
          have := h.deg2_const hd hlt hsum hX
          simp only [List.mem_cons, List.not_mem_nil, or_false] at ha hb
          rcases ha with rfl | rfl <;> rcases hb with rfl | rfl <;> first | rfl | exact this | exact this.symm)
        refine ⟨E, [], by simp, fun _ h => h, o1, fun C C' hC hr => ?_⟩
        have : C = C' := by
          unfold reInsertCycles at hr
          simpa using hr
        rw [← this]
        exact hC.congr o2
      by_cases hgt : (g.edge n 0).weight < (g.edge n 1).weight
      · simp only [if_pos hgt]
        exact main 1 _ _ _ _ (by omega) rfl hd.swap (by omega) (by omega)
      · simp only [if_neg hgt]
        exact main 0 _ _ _ _ (by omega) rfl hd (by omega) (by omega)
    · rw [if_neg (fun hh => hB hh.2)]
      exact hid

/-- `contractCycleEdges` leaves a piece, and a cactus of what is left becomes a cactus of the whole by `reInsertCycles`, unless that exits. -/
theorem contractCycleEdges_spec {E : Nat → Prop} {g : MGraph} {c : Nat} (h : Piece E g c) (hc : 0 < c) :
    ∃ E', Undo E g c E' (contractCycleEdges c g).1 (contractCycleEdges c g).2 := by
  have key : ∀ fuel n (E : Nat → Prop) (g : MGraph) (recs : List ((Nat × Nat) × List Nat)), Piece E g c →
      ∃ E' r, (cycleLoop c fuel n (g, recs)).2 = recs ++ r ∧ Undo E g c E' (cycleLoop c fuel n (g, recs)).1 r := by
    intro fuel
    induction fuel with
    | zero =>
      intro n E g recs h
      refine ⟨E, [], by simp [cycleLoop], fun _ h => h, h, fun C C' hC hr => ?_⟩
      have : C = C' := by
        unfold reInsertCycles at hr
        simpa using hr
      rw [← this]; exact hC
    | succ fuel ih =>
      intro n E g recs h
      unfold cycleLoop
      by_cases hn : n < g.n
      · rw [if_pos hn]
        obtain ⟨E1, r1, e1, u1⟩ := cycleStep_spec h hc hn recs
        obtain ⟨E2, r2, e2, u2⟩ := ih (n + 1) E1 (cycleStep c (g, recs) n).1 (cycleStep c (g, recs) n).2 u1.piece
        refine ⟨E2, r1 ++ r2, ?_, u1.trans u2⟩
        rw [← List.append_assoc, ← e1]
        exact e2
      · rw [if_neg hn]
        refine ⟨E, [], by simp, fun _ h => h, h, fun C C' hC hr => ?_⟩
        have : C = C' := by
          unfold reInsertCycles at hr
          simpa using hr
        rw [← this]; exact hC
  obtain ⟨E', r, e, u⟩ := key g.n 0 E g [] h
  refine ⟨E', ?_⟩
  unfold contractCycleEdges
  rw [e, List.nil_append]
  exact u

end VieCut
