import Verif.Proof.RecFlow
import Verif.Proof.CanonizeCuts

/-!
# Every minimum cut respects the classes, or all vertices outside of one class are on one side
-/

namespace VieCut
open Finset MGraph Function

namespace RecCactus

theorem STClasses.cases {E : Nat → Prop} {G : MGraph} {c k s t : Nat} {lab : Nat → Nat} (hp : Piece E G c) (H : STClasses G lab k s t c)
    {X : Nat → Bool} (hX : G.cv X = c) :
    (∀ u v, u < G.n → v < G.n → lab u = lab v → X u = X v) ∨
    ∃ i, i < k ∧ ∀ u v, u < G.n → v < G.n → lab u ≠ i → lab v ≠ i → X u = X v := by
  have hsymm : ∀ u v, G.toGraph.wt u v = G.toGraph.wt v u := fun u v => hp.valid.wf.wt_symm u v
  by_contra hno
  rw [not_or] at hno
  obtain ⟨h1, h2⟩ := hno
  push Not at h1 h2
  obtain ⟨u, v, hu, hv, huv, hne⟩ := h1
  obtain ⟨a, b, ha, hb, hai, hbi, hab⟩ := h2 (lab u) (H.lt u hu)
  have hst : X s = X t := by
    by_contra hst
    exact hne (H.same X hX hst u v hu hv huv)
  -- the ends of the flow are outside
  have main : ∀ Z : Nat → Bool, G.cv Z = c → Z s = false → Z t = false → ∀ u v w, u < G.n → v < G.n → w < G.n → lab u = lab v →
      Z u = true → Z v = false → lab w ≠ lab u → Z w = true → False := by
    intro Z hZ zs zt u v w hu hv hw huv zu zv hwu zw
    have hlw := H.lt w hw
    have hlu := H.lt u hu
    have hlast := H.last
    have hfirst := H.first
    rcases Nat.lt_or_gt_of_ne hwu with hlt | hlt
    · have hY := H.pre (lab u) (by omega) hlu
      have hsub := cutValue_submodular (n := G.n) hsymm Z (fun v => decide (lab v < lab u))
      have l1 := hp.least (fun x => Z x && decide (lab x < lab u)) ⟨⟨w, hw, by simp [zw, hlt]⟩, ⟨t, H.sink, by simp [zt]⟩⟩
      have l2 := hp.least (fun x => Z x || decide (lab x < lab u)) ⟨⟨u, hu, by simp [zu]⟩, ⟨t, H.sink, by
        have : ¬ lab t < lab u := by omega
        simp [zt, this]⟩⟩
      have e : G.cv (fun x => Z x || decide (lab x < lab u)) = c := by
        unfold MGraph.cv at hZ hY ⊢
        omega
      have := H.same _ e (by
        have h1 : lab s < lab u := by omega
        have h2 : ¬ lab t < lab u := by omega
        simp [zs, zt, h1, h2]) u v hu hv huv
      simp [zu, zv, huv] at this
    · have hY := H.pre (lab u + 1) (by omega) (by omega)
      have hsub := cutValue_posimodular (n := G.n) hsymm (fun v => decide (lab v < lab u + 1)) Z
      have hsl : lab s < lab u + 1 := by omega
      have htl : ¬ lab t < lab u + 1 := by omega
      have l1 := hp.least (fun x => decide (lab x < lab u + 1) && !Z x) ⟨⟨s, H.src, by simp [zs, hsl]⟩, ⟨t, H.sink, by simp [htl]⟩⟩
      have l2 := hp.least (fun x => Z x && !decide (lab x < lab u + 1)) ⟨⟨w, hw, by
        have : ¬ lab w < lab u + 1 := by omega
        simp [zw, this]⟩, ⟨t, H.sink, by simp [zt]⟩⟩
      have e : G.cv (fun x => decide (lab x < lab u + 1) && !Z x) = c := by
        unfold MGraph.cv at hZ hY ⊢
        omega
      have := H.same _ e (by simp [zs, zt, hsl, htl]) u v hu hv huv
      simp [zu, zv, huv] at this
  have pick : ∀ Z : Nat → Bool, G.cv Z = c → Z s = false → Z t = false → Z u ≠ Z v → Z a ≠ Z b → False := by
    intro Z hZ zs zt zuv zab
    obtain ⟨w, hw, hwi, hwt⟩ : ∃ w, w < G.n ∧ lab w ≠ lab u ∧ Z w = true := by
      cases hz : Z a with
      | true => exact ⟨a, ha, hai, hz⟩
      | false => exact ⟨b, hb, hbi, by rw [hz] at zab; simpa using Ne.symm zab⟩
    cases hz : Z u with
    | true => exact main Z hZ zs zt u v w hu hv hw huv hz (by rw [hz] at zuv; simpa using Ne.symm zuv) hwi hwt
    | false => exact main Z hZ zs zt v u w hv hu hw huv.symm (by rw [hz] at zuv; simpa using Ne.symm zuv) hz (by rw [← huv]; exact hwi) hwt
  cases hs : X s with
  | false => exact pick X hX hs (hst ▸ hs) hne hab
  | true =>
    refine pick (fun x => !X x) ?_ (by simp [hs]) (by simp [← hst, hs]) (by simpa using hne) (by simpa using hab)
    exact (cutValue_compl hsymm X).trans hX

/-- Splits of `E` by cuts of value `c` that do not separate vertices related by `R`. -/
def SplitR (G : MGraph) (E : Nat → Prop) (c : Nat) (R : Nat → Nat → Prop) (f : Nat → Bool) : Prop :=
  ∃ X, ProperCut G.n X ∧ G.cv X = c ∧ (∀ u v, u < G.n → v < G.n → R u v → X u = X v) ∧ ∀ e, E e → X (G.pos e) = f e

theorem SplitR.split {G : MGraph} {E : Nat → Prop} {c : Nat} {R : Nat → Nat → Prop} {f : Nat → Bool} (h : SplitR G E c R f) : Split G E c f := by
  obtain ⟨X, h1, h2, _, h4⟩ := h
  exact ⟨X, h1, h2, h4⟩

theorem SplitR.mono {G : MGraph} {E : Nat → Prop} {c : Nat} {R R' : Nat → Nat → Prop} {f : Nat → Bool}
    (hR : ∀ u v, u < G.n → v < G.n → R' u v → u = v ∨ R u v) (h : SplitR G E c R f) : SplitR G E c R' f := by
  obtain ⟨X, h1, h2, h3, h4⟩ := h
  refine ⟨X, h1, h2, fun u v hu hv hr => ?_, h4⟩
  rcases hR u v hu hv hr with h | h
  · rw [h]
  · exact h3 u v hu hv h

/-- Elements at related vertices are on one side. -/
theorem SplitR.eq {G : MGraph} {E : Nat → Prop} {c : Nat} {R : Nat → Nat → Prop} {f : Nat → Bool} (h : SplitR G E c R f) (hH : Held E G)
    {a b : Nat} (ha : E a) (hb : E b) (hr : R (G.pos a) (G.pos b)) : f a = f b := by
  obtain ⟨X, _, _, h3, h4⟩ := h
  rw [← h4 a ha, ← h4 b hb]
  exact h3 _ _ (hH.lt a ha) (hH.lt b hb) hr

/-- All minimum cuts: those of the classes, and those inside one class. -/
theorem STClasses.splits {E : Nat → Prop} {G : MGraph} {c k s t : Nat} {lab : Nat → Nat} (hp : Piece E G c) (H : STClasses G lab k s t c)
    (f : Nat → Bool) :
    Split G E c f ↔ SplitR G E c (fun u v => lab u = lab v) f ∨ ∃ i, i < k ∧ SplitR G E c (fun u v => lab u ≠ i ∧ lab v ≠ i) f := by
  constructor
  · rintro ⟨X, h1, h2, h3⟩
    rcases H.cases hp h2 with h | ⟨i, hi, h⟩
    · exact .inl ⟨X, h1, h2, h, h3⟩
    · exact .inr ⟨i, hi, X, h1, h2, fun u v hu hv hr => h u v hu hv hr.1 hr.2, h3⟩
  · rintro (h | ⟨i, _, h⟩) <;> exact h.split

/-- `g'` is the graph in which the fibres of `φ` are vertices. -/
structure IsQuot (E : Nat → Prop) (g g' : MGraph) (c : Nat) (φ : Nat → Nat) : Prop where
  piece : Piece E g' c
  lt : ∀ u, u < g.n → φ u < g'.n
  surj : ∀ p, p < g'.n → ∃ u, u < g.n ∧ φ u = p
  cut : ∀ T : Nat → Bool, g'.cv T = g.cv (fun x => T (φ x))
  pos : ∀ e, E e → g'.pos e = φ (g.pos e)

theorem IsQuot.splits {E : Nat → Prop} {g g' : MGraph} {c : Nat} {φ : Nat → Nat} (h : IsQuot E g g' c φ) (hH : Held E g) (f : Nat → Bool) :
    Split g' E c f ↔ SplitR g E c (fun u v => φ u = φ v) f := by
  constructor
  · rintro ⟨T, t1, t2, t3⟩
    refine ⟨fun x => T (φ x), ?_, by rw [← h.cut]; exact t2, fun u v _ _ huv => by simp only [huv], fun e he => ?_⟩
    · obtain ⟨⟨a, ha, h1⟩, ⟨b, hb, h2⟩⟩ := t1
      obtain ⟨u, hu, rfl⟩ := h.surj a ha
      obtain ⟨v, hv, rfl⟩ := h.surj b hb
      exact ⟨⟨u, hu, h1⟩, ⟨v, hv, h2⟩⟩
    · show T (φ (g.pos e)) = f e
      rw [← h.pos e he]
      exact t3 e he
  · rintro ⟨X, x1, x2, hconst, x3⟩
    classical
    let T : Nat → Bool := fun p => if hp : ∃ u, u < g.n ∧ φ u = p then X hp.choose else false
    have hT : ∀ u, u < g.n → T (φ u) = X u := by
      intro u hu
      have hp : ∃ u', u' < g.n ∧ φ u' = φ u := ⟨u, hu, rfl⟩
      show (if hp : ∃ u', u' < g.n ∧ φ u' = φ u then X hp.choose else false) = _
      rw [dif_pos hp]
      exact hconst _ _ hp.choose_spec.1 hu hp.choose_spec.2
    refine ⟨T, ?_, ?_, fun e he => ?_⟩
    · obtain ⟨⟨a, ha, h1⟩, ⟨b, hb, h2⟩⟩ := x1
      exact ⟨⟨φ a, h.lt a ha, by rw [hT a ha]; exact h1⟩, ⟨φ b, h.lt b hb, by rw [hT b hb]; exact h2⟩⟩
    · have e1 := h.cut T
      unfold cv at e1
      rw [e1, ← x2]
      exact cutValue_congr fun u hu => hT u hu
    · rw [h.pos e he, hT _ (hH.lt e he)]
      exact x3 e he

theorem isQuot_contracted {E : Nat → Prop} {g g' : MGraph} {c : Nat} (h : Piece E g c) {S : List Nat} {φ : Nat → Nat}
    (hC : Contracted g g' S φ) (hs : Simple g' []) : IsQuot E g g' c φ := by
  obtain ⟨p1, p2⟩ := hC.posE E h.posIn
  have hpos : ∀ e, E e → g'.pos e = φ (g.pos e) := fun e he => p2 e he (h.held.lt e he)
  have hlt : ∀ u, u < g.n → φ u < g'.n := by
    intro u hu
    have := hC.con.lt u (by rw [toGraph_n]; exact hu)
    rwa [toGraph_n] at this
  have hsurj : ∀ p, p < g'.n → ∃ u, u < g.n ∧ φ u = p := by
    intro p hp
    have := hC.con.surj p (by rw [toGraph_n]; exact hp)
    rwa [toGraph_n] at this
  have hcut : ∀ T, g'.cv T = g.cv (fun x => T (φ x)) := by
    intro T
    have := cutValue_quotient (n := g.toGraph.n) (k := g'.toGraph.n) hC.con.lt hC.con.wt T
    rw [toGraph_n, toGraph_n] at this
    exact this
  refine ⟨⟨consistent_iff.2 hC.valid, noParallel_of_simple hC.valid hs, hC.last h.ready, hC.csize h.room,
    fun u b hu hb => hC.posw h.posW u b hu (by simp) hb, held_iff.2 ⟨p1, fun e he => ?_⟩, ?_, ?_, ?_⟩, hlt, hsurj, hcut, hpos⟩
  · rw [hpos e he]; exact hlt _ (h.held.lt e he)
  · intro e he; rw [hC.orig]; exact h.known e he
  · intro p hp
    obtain ⟨u, hu, rfl⟩ := hsurj p hp
    obtain ⟨e, he, rfl⟩ := h.exists_elem hu
    have := p1.mem e he (by rw [hpos e he]; exact hlt _ hu)
    rw [hpos e he] at this
    exact List.ne_nil_of_mem this
  · rintro X ⟨⟨a, ha, h1⟩, ⟨b, hb, h2⟩⟩
    obtain ⟨u, hu, rfl⟩ := hsurj a ha
    obtain ⟨v, hv, rfl⟩ := hsurj b hb
    have := h.least (fun x => X (φ x)) ⟨⟨u, hu, h1⟩, ⟨v, hv, h2⟩⟩
    have h2 := hcut X
    unfold cv at h2
    omega

end RecCactus
end VieCut
