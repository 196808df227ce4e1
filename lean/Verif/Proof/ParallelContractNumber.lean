import Verif.Model.ParallelContract

/-! # Numbering of the classes of a concurrent union-find -/

namespace VieCut
open Function

namespace PCT

structure NumInv (r : Nat → Nat) (m : Nat) (s : Num) : Prop where
  part : ∀ u, u < m → s.part (r u) = some (s.map u)
  lt : ∀ x p, s.part x = some p → p < s.pid
  inj : ∀ x y p, s.part x = some p → s.part y = some p → x = y
  surj : ∀ p, p < s.pid → ∃ u, u < m ∧ s.map u = p
  le : s.pid ≤ m

theorem number_inv (r : Nat → Nat) (n : Nat) : NumInv r n (number r n) := by
  unfold number
  induction n with
  | zero => exact ⟨by simp, by simp, by simp, by simp, by simp⟩
  | succ n ih =>
    rw [List.range_succ, List.foldl_append, List.foldl_cons, List.foldl_nil]
    generalize (List.range n).foldl (numStep r) { part := fun _ => none, pid := 0, map := fun _ => 0 } = s at ih
    unfold numStep
    cases hp : s.part (r n) with
    | none =>
      have hne : ∀ u, u < n → r u ≠ r n := fun u hu he => by rw [← he, ih.part u hu] at hp; cases hp
      refine ⟨?_, ?_, ?_, ?_, ?_⟩
      · intro u hu
        simp only
        by_cases hun : u = n
        · subst hun; rw [update_self, update_self]
        · rw [update_of_ne (hne u (by omega)), update_of_ne hun]; exact ih.part u (by omega)
      · intro x p hx
        simp only [update_apply] at hx ⊢
        split at hx
        · cases hx; omega
        · have := ih.lt x p hx; omega
      · intro x y p hx hy
        simp only [update_apply] at hx hy
        split at hx
        · split at hy
          · simp [*]
          · cases hx; have := ih.lt y _ hy; omega
        · split at hy
          · cases hy; have := ih.lt x _ hx; omega
          · exact ih.inj x y p hx hy
      · intro p hlt
        simp only at hlt ⊢
        by_cases he : p = s.pid
        · exact ⟨n, by omega, by rw [update_self, he]⟩
        · obtain ⟨u, hu, hm⟩ := ih.surj p (by omega)
          exact ⟨u, by omega, by rw [update_of_ne (by omega)]; exact hm⟩
      · have := ih.le; simp only; omega
    | some p =>
      refine ⟨?_, ih.lt, ih.inj, ?_, ?_⟩
      · intro u hu
        simp only
        by_cases hun : u = n
        · subst hun; rw [update_self, hp]
        · rw [update_of_ne hun]; exact ih.part u (by omega)
      · intro q hlt
        obtain ⟨u, hu, hm⟩ := ih.surj q hlt
        exact ⟨u, by omega, by simp only; rw [update_of_ne (by omega)]; exact hm⟩
      · have := ih.le; simp only; omega

/-- The numbers of the blocks are those below `pid`, all are used, and two vertices have the same number if and only if `Find`
returned the same. -/
theorem number_spec (r : Nat → Nat) (n : Nat) : (∀ u, u < n → (number r n).map u < (number r n).pid) ∧
    (∀ p, p < (number r n).pid → ∃ u, u < n ∧ (number r n).map u = p) ∧ (number r n).pid ≤ n ∧
    ∀ u v, u < n → v < n → ((number r n).map u = (number r n).map v ↔ r u = r v) := by
  have h := number_inv r n
  refine ⟨fun u hu => h.lt _ _ (h.part u hu), h.surj, h.le, fun u v hu hv => ⟨fun he => ?_, fun he => ?_⟩⟩
  · exact h.inj _ _ _ (h.part u hu) (by rw [h.part v hv, he])
  · have := h.part u hu
    rw [he, h.part v hv] at this
    exact (Option.some.inj this).symm

end PCT
end VieCut
