import Verif.Model.BalancedCut
import Mathlib.Algebra.BigOperators.Intervals
import Mathlib.Algebra.Order.BigOperators.Group.Finset

/-! # The two ends moving around a cycle find the most balanced arc -/

namespace VieCut
namespace Balanced
open Finset

/-- The weight of the arc of positions `b, …, f - 1` (modulo the length). -/
def arc (cw : List Nat) (L b f : Nat) : Nat := ∑ j ∈ Ico b f, cw.getD (j % L) 0

theorem arc_top {cw : List Nat} {L b f : Nat} (h : b ≤ f) : arc cw L b (f + 1) = arc cw L b f + cw.getD (f % L) 0 := by
  unfold arc; rw [Finset.sum_Ico_succ_top h]

theorem arc_bot {cw : List Nat} {L b f : Nat} (h : b < f) : arc cw L b f = cw.getD (b % L) 0 + arc cw L (b + 1) f := by
  unfold arc; rw [Finset.sum_eq_sum_Ico_succ_bot h]

theorem arc_mono {cw : List Nat} {L b b' f f' : Nat} (h : b' ≤ b) (h' : f ≤ f') : arc cw L b f ≤ arc cw L b' f' := by
  unfold arc
  exact Finset.sum_le_sum_of_subset (Finset.Ico_subset_Ico h h')

theorem arc_full {cw : List Nat} {L : Nat} (b : Nat) : arc cw L b (b + L) = arc cw L 0 L := by
  induction b with
  | zero => rw [Nat.zero_add]
  | succ b ih =>
    rw [← ih]
    rcases Nat.eq_zero_or_pos L with h | h
    · subst h; unfold arc; simp
    · have h1 := arc_bot (cw := cw) (L := L) (b := b) (f := b + L) (by omega)
      have h2 := arc_top (cw := cw) (L := L) (b := b + 1) (f := b + L) (by omega)
      rw [Nat.add_mod_right] at h2
      have h3 : b + 1 + L = b + L + 1 := by omega
      rw [h3, h2, h1]; omega

theorem store_weight (E : Env) (cv : List Nat) (back front inw : Nat) (s : St) :
    (store E cv back front inw s).weight = max s.weight (lighter E.total inw) := by
  unfold store
  split
  · rename_i h; exact (max_eq_right h).symm
  · rename_i h; exact (max_eq_left (by omega)).symm

theorem window_spec (E : Env) {cv cw : List Nat} (ht : 0 < E.total) (hcw : arc cw cv.length 0 cv.length = E.total) {P : St → Prop}
    (hP : ∀ B F s, B ≤ cv.length → B ≤ F → F ≤ B + cv.length → 1 ≤ F → P s → P (store E cv (cv.length + B) F (arc cw cv.length B F) s)) :
    ∀ f B F s, P s → B ≤ cv.length + 1 → B ≤ F → F ≤ B + cv.length → 1 ≤ F → cv.length + 1 - B + (2 * cv.length + 1 - F) < f →
      (∀ b g, b < B → b ≤ g → g ≤ b + cv.length → lighter E.total (arc cw cv.length b g) ≤ s.weight) →
      (∀ g, B ≤ g → g < F → lighter E.total (arc cw cv.length B g) ≤ s.weight ∧ 2 * arc cw cv.length B g < E.total) →
      ∃ s', window E cv cw f (cv.length + B) F (arc cw cv.length B F) s = some s' ∧ P s' ∧ s.weight ≤ s'.weight ∧
        ∀ b g, b ≤ cv.length → b ≤ g → g ≤ b + cv.length → lighter E.total (arc cw cv.length b g) ≤ s'.weight := by
  intro f
  induction f with
  | zero => intro B F s _ _ _ _ _ h; omega
  | succ f ih =>
    intro B F s hs hB hBF hFB hF hf h1 h2
    unfold window
    by_cases hb : B ≤ cv.length
    · rw [if_pos (by omega : cv.length + B ≤ 2 * cv.length)]
      have hs' := hP B F s hb hBF hFB hF hs
      have hw := store_weight E cv (cv.length + B) F (arc cw cv.length B F) s
      set s1 := store E cv (cv.length + B) F (arc cw cv.length B F) s with hs1
      dsimp only
      have hle : s.weight ≤ s1.weight := by rw [hw]; exact le_max_left _ _
      have hcur : lighter E.total (arc cw cv.length B F) ≤ s1.weight := by rw [hw]; exact le_max_right _ _
      by_cases hh : arc cw cv.length B F * 2 ≥ E.total
      · rw [if_pos hh]
        have hlt : B < F := by
          rcases Nat.lt_or_ge B F with h | h
          · exact h
          · have : arc cw cv.length B F = 0 := by unfold arc; rw [Finset.Ico_eq_empty (by omega)]; rfl
            omega
        have e1 : arc cw cv.length B F - cw.getD ((cv.length + B) % cv.length) 0 = arc cw cv.length (B + 1) F := by
          rw [arc_bot hlt, Nat.add_mod_left]; omega
        rw [e1]
        obtain ⟨s', w1, w2, w3, w4⟩ := ih (B + 1) F s1 hs' (by omega) (by omega) (by omega) hF (by omega) (by
          intro b g hb' hbg hg
          rcases Nat.lt_succ_iff_lt_or_eq.1 hb' with h | rfl
          · exact (h1 b g h hbg hg).trans hle
          · rcases Nat.lt_or_ge g F with h | h
            · exact (h2 g hbg h).1.trans hle
            · refine le_trans ?_ hcur
              have hm := arc_mono (cw := cw) (L := cv.length) (le_refl b) h
              unfold lighter
              omega) (by
          intro g hg hgF
          obtain ⟨a1, a2⟩ := h2 g (by omega) hgF
          have hm := arc_mono (cw := cw) (L := cv.length) (b := B + 1) (b' := B) (by omega) (le_refl g)
          refine ⟨le_trans ?_ (a1.trans hle), by omega⟩
          unfold lighter
          omega)
        exact ⟨s', w1, w2, hle.trans w3, w4⟩
      · rw [if_neg hh]
        have hlt : F < B + cv.length := by
          rcases Nat.lt_or_ge F (B + cv.length) with h | h
          · exact h
          · have : F = B + cv.length := by omega
            rw [this, arc_full, hcw] at hh
            omega
        rw [← arc_top hBF]
        obtain ⟨s', w1, w2, w3, w4⟩ := ih B (F + 1) s1 hs' hB (by omega) (by omega) (by omega) (by omega)
          (fun b g a1 a2 a3 => (h1 b g a1 a2 a3).trans hle) (by
          intro g hg hgF
          rcases Nat.lt_succ_iff_lt_or_eq.1 hgF with h | rfl
          · exact ⟨(h2 g hg h).1.trans hle, (h2 g hg h).2⟩
          · exact ⟨hcur, by omega⟩)
        exact ⟨s', w1, w2, hle.trans w3, w4⟩
    · rw [if_neg (by omega : ¬ cv.length + B ≤ 2 * cv.length)]
      exact ⟨s, rfl, hs, le_refl _, fun b g a1 a2 a3 => h1 b g (by omega) a2 a3⟩

end Balanced
end VieCut
