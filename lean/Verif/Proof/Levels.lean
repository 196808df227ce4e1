import Verif.Model.Inexact
import Verif.Proof.NOI
import Verif.Proof.PRTests

/-! # Invariants of algorithms that contract and update a bound -/

namespace VieCut
open Finset Graph

variable {γ : Type} [GraphLike γ] {good : γ → Prop}

/-- The current graph is a contraction of the input and the bound is the value of a cut of the input. -/
structure LvlInv (good : γ → Prop) (G : Graph) (s : NOIState γ) : Prop where
  ok : good s.cur
  con : ∃ φ, IsContraction G s.view φ
  mindeg : 2 ≤ s.view.n → ∀ u, u < s.view.n → s.mincut ≤ s.view.deg u
  attained : ∃ S, ProperCut G.n S ∧ cutValue G.n G.wt S = s.mincut
  le : s.mincut ≤ G.minDegree

/-- The flags describe a cut of the value of the bound, and the stored partition indices lead to the current graph. -/
structure FlagInv (G : Graph) (s : NOIState γ) : Prop where
  con : IsContraction G s.view (coarseID s.maps)
  flags : ProperCut G.n s.inCut ∧ cutValue G.n G.wt s.inCut = s.mincut

theorem isContraction_id {G : Graph} (hG : G.WF) : IsContraction G G (fun v => v) := by
  refine ⟨fun u hu => hu, fun p hp => ⟨p, hp, rfl⟩, hG, ?_⟩
  intro p q hp hq _
  rw [Finset.sum_eq_single p]
  · rw [Finset.sum_eq_single q]
    · simp
    · intro x _ hx; simp [hx]
    · intro h; exact absurd (mem_range.2 hq) h
  · intro x _ hx
    refine Finset.sum_eq_zero fun y _ => ?_
    simp [hx]
  · intro h; exact absurd (mem_range.2 hp) h

theorem IsContraction.cut {G H : Graph} {φ : Nat → Nat} (h : IsContraction G H φ) (T : Nat → Bool) :
    cutValue H.n H.wt T = cutValue G.n G.wt (fun x => T (φ x)) := cutValue_quotient h.lt h.wt T

theorem IsContraction.proper {G H : Graph} {φ : Nat → Nat} (h : IsContraction G H φ) {T : Nat → Bool}
    (hT : ProperCut H.n T) : ProperCut G.n (fun x => T (φ x)) := by
  obtain ⟨⟨p, hp, hp'⟩, ⟨q, hq, hq'⟩⟩ := hT
  obtain ⟨u, hu, rfl⟩ := h.surj p hp
  obtain ⟨v, hv, rfl⟩ := h.surj q hq
  exact ⟨⟨u, hu, hp'⟩, ⟨v, hv, hq'⟩⟩

theorem IsContraction.le_n {G H : Graph} {φ : Nat → Nat} (h : IsContraction G H φ) : H.n ≤ G.n := by
  have : range H.n ⊆ (range G.n).image φ := by
    intro p hp
    obtain ⟨u, hu, he⟩ := h.surj p (mem_range.1 hp)
    exact mem_image.2 ⟨u, mem_range.2 hu, he⟩
  have h1 := card_le_card this
  have h2 := card_image_le (s := range G.n) (f := φ)
  simp at h1 h2
  omega

theorem IsContraction.deg_le {G H : Graph} (hG : G.WF) {φ : Nat → Nat} (h : IsContraction G H φ) {u : Nat}
    (hu : u < H.n) : H.deg u ≤ G.totalWeight := by
  rw [← h.wf.cut_singleton hu, h.cut]
  exact cutValue_le_total hG _

theorem totalWeight_eq {G : Graph} (hG : G.WF) :
    G.totalWeight = ∑ u ∈ range G.n, ∑ v ∈ range G.n, G.wt u v := by
  have h1 : G.totalWeight = ∑ u ∈ range G.n, G.deg u := by
    have := sum_filter_range G.n (fun _ => true) G.deg
    simpa [Graph.totalWeight] using this
  rw [h1]
  exact Finset.sum_congr rfl fun u _ => hG.deg_eq u

theorem IsContraction.total_le {G H : Graph} (hG : G.WF) {φ : Nat → Nat} (h : IsContraction G H φ) :
    H.totalWeight ≤ G.totalWeight := by
  rw [totalWeight_eq hG, totalWeight_eq h.wf]
  calc ∑ p ∈ range H.n, ∑ q ∈ range H.n, H.wt p q
      ≤ ∑ p ∈ range H.n, ∑ q ∈ range H.n, ∑ u ∈ range G.n, ∑ v ∈ range G.n,
          (if φ u = p ∧ φ v = q then G.wt u v else 0) := by
        refine Finset.sum_le_sum fun p hp => Finset.sum_le_sum fun q hq => ?_
        by_cases hpq : p = q
        · subst hpq; rw [h.wf.wt_self]; exact Nat.zero_le _
        · rw [h.wt p q (mem_range.1 hp) (mem_range.1 hq) hpq]
    _ = ∑ u ∈ range G.n, ∑ v ∈ range G.n, ∑ p ∈ range H.n, ∑ q ∈ range H.n,
          (if φ u = p ∧ φ v = q then G.wt u v else 0) := by
        have h1 : ∀ p ∈ range H.n, (∑ q ∈ range H.n, ∑ u ∈ range G.n, ∑ v ∈ range G.n,
            (if φ u = p ∧ φ v = q then G.wt u v else 0)) = ∑ u ∈ range G.n, ∑ v ∈ range G.n, ∑ q ∈ range H.n,
            (if φ u = p ∧ φ v = q then G.wt u v else 0) := by
          intro p _
          rw [Finset.sum_comm]
          exact Finset.sum_congr rfl fun u _ => Finset.sum_comm
        rw [Finset.sum_congr rfl h1, Finset.sum_comm]
        exact Finset.sum_congr rfl fun u _ => Finset.sum_comm
    _ ≤ ∑ u ∈ range G.n, ∑ v ∈ range G.n, G.wt u v := by
        refine Finset.sum_le_sum fun u hu => Finset.sum_le_sum fun v hv => ?_
        rw [Finset.sum_eq_single (φ u)]
        · rw [Finset.sum_eq_single (φ v)]
          · simp
          · intro q _ hq; rw [if_neg]; rintro ⟨_, h'⟩; exact hq h'.symm
          · intro h'; exact absurd (mem_range.2 (h.lt v (mem_range.1 hv))) h'
        · intro p _ hp
          refine Finset.sum_eq_zero fun q _ => ?_
          rw [if_neg]; rintro ⟨h', _⟩; exact hp h'.symm
        · intro h'; exact absurd (mem_range.2 (h.lt u (mem_range.1 hu))) h'

/-- A cut that separates no merged pair is a cut of the contracted graph. -/
theorem IsContraction.push {G H : Graph} {φ : Nat → Nat} (h : IsContraction G H φ) {S : Nat → Bool}
    (hS : ∀ u v, u < G.n → v < G.n → φ u = φ v → S u = S v) :
    ∃ T, (∀ u, u < G.n → T (φ u) = S u) ∧ cutValue H.n H.wt T = cutValue G.n G.wt S ∧
      (ProperCut G.n S → ProperCut H.n T) := by
  classical
  choose! rep hrep1 hrep2 using h.surj
  have hT : ∀ u, u < G.n → S (rep (φ u)) = S u := fun u hu =>
    hS _ _ (hrep1 _ (h.lt u hu)) hu (hrep2 _ (h.lt u hu))
  refine ⟨fun p => S (rep p), hT, ?_, ?_⟩
  · rw [h.cut]
    exact cutValue_congr hT
  · rintro ⟨⟨u, hu, hu'⟩, ⟨v, hv, hv'⟩⟩
    exact ⟨⟨φ u, h.lt u hu, (hT u hu).trans hu'⟩, ⟨φ v, h.lt v hv, (hT v hv).trans hv'⟩⟩

/-- Contraction cannot lower the minimum cut. -/
theorem IsContraction.min_le {G H : Graph} {φ : Nat → Nat} (h : IsContraction G H φ) {c : Nat}
    (hc : ∀ S, ProperCut G.n S → c ≤ cutValue G.n G.wt S) {T : Nat → Bool} (hT : ProperCut H.n T) :
    c ≤ cutValue H.n H.wt T := by
  rw [h.cut]; exact hc _ (h.proper hT)

/-- If some minimum cut separates no merged pair, the minimum cut value is unchanged. -/
theorem IsContraction.isMinCut {G H : Graph} {φ : Nat → Nat} (h : IsContraction G H φ) {c : Nat}
    (hc : IsMinCut G.n G.wt c) {S : Nat → Bool} (hp : ProperCut G.n S) (hv : cutValue G.n G.wt S ≤ c)
    (hS : ∀ u v, u < G.n → v < G.n → φ u = φ v → S u = S v) : IsMinCut H.n H.wt c := by
  obtain ⟨T, _, h2, h3⟩ := h.push hS
  refine ⟨⟨T, h3 hp, ?_⟩, fun T hT => h.min_le hc.2 hT⟩
  rw [h2]
  exact Nat.le_antisymm hv (hc.2 S hp)

theorem LvlInv.init {x : γ} (hx : good x) {G : Graph} (hGx : GraphLike.view x = G) (hG : G.WF) (hn : 2 ≤ G.n)
    (hb : G.totalWeight < 2 ^ 64) (save : Bool) (inCut0 : Nat → Bool) :
    LvlInv good G (noiInit save x inCut0) ∧ (save = true → FlagInv G (noiInit save x inCut0)) := by
  have h := NOIInv.init (good := good) hx hGx hG hn hb save inCut0
  have hcon : IsContraction G (noiInit save x inCut0).view (coarseID (noiInit save x inCut0).maps) := by
    subst hGx; exact isContraction_id hG
  exact ⟨⟨hx, ⟨_, hcon⟩, h.mindeg, h.attained, h.le⟩, fun hs => ⟨hcon, h.flags hs⟩⟩

/-- Effect of `updateCut` on a further contraction. -/
theorem LvlInv.push {G : Graph} (hG : G.WF) (hb : G.totalWeight < 2 ^ 64) {save : Bool} {s : NOIState γ}
    (h : LvlInv good G s) {r : γ × (Nat → Nat)} (hr : good r.1) {φ : Nat → Nat}
    (hφ : IsContraction s.view (GraphLike.view r.1) φ) :
    LvlInv good G (pushLevel save s r) ∧ (pushLevel save s r).mincut ≤ s.mincut ∧
    (save = true → φ = r.2 → FlagInv G s → FlagInv G (pushLevel save s r)) := by
  obtain ⟨ψ, hψ⟩ := h.con
  have hc := hψ.comp hφ
  unfold pushLevel
  simp only
  generalize hH : GraphLike.view r.1 = H at *
  have hdeg : ∀ u, u < H.n → H.deg u ≤ G.totalWeight := fun u hu => hc.deg_le hG hu
  have hcid := coarseID_snoc s.maps r.2
  by_cases hHn : H.n > 1
  · have hmi := minimumIndex_spec (exists_minDegree' (by omega) (fun u hu => lt_of_le_of_lt (hdeg u hu) hb))
    have hsing : ∀ χ, IsContraction G H χ → ProperCut G.n (fun x => decide (χ x = minimumIndex H)) ∧
        cutValue G.n G.wt (fun x => decide (χ x = minimumIndex H)) = H.minDegree := by
      intro χ hχ
      refine ⟨hχ.proper (T := fun x => x == minimumIndex H) (properCut_singleton (by omega) hmi.1), ?_⟩
      rw [← hmi.2, ← hχ.wf.cut_singleton hmi.1, hχ.cut]
      rfl
    simp only [updateCut, if_pos hHn]
    refine ⟨⟨hr, ⟨_, by rw [NOIState.view, hH]; exact hc⟩, ?_, ?_, ?_⟩, min_le_left _ _, ?_⟩
    · intro _ u hu
      simp only [NOIState.view, hH] at hu ⊢
      exact le_trans (min_le_right _ _) (minDegree_le hu)
    · simp only
      by_cases hlt' : H.minDegree < s.mincut
      · rw [min_eq_right (by omega)]; exact ⟨_, hsing _ hc⟩
      · rw [min_eq_left (by omega)]; exact h.attained
    · exact le_trans (min_le_left _ _) h.le
    · intro hs he hf
      subst he
      have hc' : IsContraction G H (coarseID (s.maps ++ [r.2])) := by
        refine (hf.con.comp hφ).congr fun u _ => ?_
        rw [hcid]
      refine ⟨by simp only [NOIState.view, hH]; exact hc', ?_⟩
      simp only [hs, if_true]
      by_cases hlt' : H.minDegree < s.mincut
      · rw [if_pos hlt', min_eq_right (by omega)]; exact hsing _ hc'
      · rw [if_neg hlt', min_eq_left (by omega)]; exact hf.flags
  · simp only [updateCut, if_neg hHn, ite_self]
    refine ⟨⟨hr, ⟨_, by rw [NOIState.view, hH]; exact hc⟩, ?_, h.attained, h.le⟩, le_refl _, ?_⟩
    · intro h2
      simp only [NOIState.view, hH] at h2
      omega
    · intro hs he hf
      subst he
      refine ⟨?_, hf.flags⟩
      simp only [NOIState.view, hH]
      refine (hf.con.comp hφ).congr fun u _ => ?_
      rw [hcid]

/-- What the bound of a returned state tells about the input. -/
theorem LvlInv.ge {G : Graph} {s : NOIState γ} (h : LvlInv good G s) {c : Nat} (hc : IsMinCut G.n G.wt c) :
    c ≤ s.mincut := by
  obtain ⟨S, h1, h2⟩ := h.attained
  rw [← h2]; exact hc.2 S h1

end VieCut
