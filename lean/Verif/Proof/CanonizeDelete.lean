import Verif.Proof.CanonizeJoints

/-!
# Cuts of a graph and of the graph without one of its vertices
-/

namespace VieCut
open Function Finset MGraph

namespace MGraph

theorem proper_of_cv {g : MGraph} {T : Nat → Bool} (h : g.cv T ≠ 0) : ProperCut g.n T := by
  by_contra hnp
  refine h ?_
  unfold MGraph.cv cutValue
  refine Finset.sum_eq_zero fun a ha => Finset.sum_eq_zero fun b hb => if_neg fun hh => ?_
  exact hnp ⟨⟨a, mem_range.1 ha, hh.1⟩, ⟨b, mem_range.1 hb, hh.2⟩⟩

theorem delete_cv {g : MGraph} (hg : Valid g) {v : Nat} (hv : v < g.n) {X Y : Nat → Bool}
    (hXY : ∀ u, u < g.n → u ≠ v → Y (relab v (g.n - 1) u) = X u) : g.cv X = (g.deleteVertex v).cv Y + star g v X (X v) := by
  obtain ⟨_, d2, d3, _⟩ := deleteVertex_spec hg hv
  have hsym : ∀ a, a < g.n → g.W a v = g.W v a := fun a ha => hg.W_symm ha (by simp) hv (by simp)
  rw [cv_W, cv_W, star_W hg hv, ← inner_range, d2]
  have hins : range g.n = insert v ((range g.n).erase v) := (Finset.insert_erase (mem_range.2 hv)).symm
  have him : range (g.n - 1) = ((range g.n).erase v).image (relab v (g.n - 1)) := by
    ext p
    simp only [mem_range, mem_image, mem_erase]
    constructor
    · intro hp
      obtain ⟨u, u1, u2, u3⟩ := relab_surj hv hp
      exact ⟨u, ⟨u2, u1⟩, u3⟩
    · rintro ⟨u, ⟨u2, u1⟩, rfl⟩
      exact relab_lt hv u1 u2
  have hinj : Set.InjOn (relab v (g.n - 1)) ((range g.n).erase v : Finset Nat) := by
    intro a ha b hb hab
    rw [Finset.mem_coe, mem_erase, mem_range] at ha hb
    exact (relab_inj' hv ha.2 ha.1 hb.2 hb.1).1 hab
  have h1 : inner g.W X (range g.n) = inner g.W X ((range g.n).erase v) + ∑ a ∈ (range g.n).erase v, if X a ≠ X v then g.W a v else 0 := by
    conv_lhs => rw [hins]
    refine inner_insert (by simp) fun a ha => hsym a (mem_range.1 (mem_of_mem_erase ha))
  rw [h1]
  congr 1
  · unfold inner cutValue
    rw [him, Finset.sum_image hinj]
    refine Finset.sum_congr rfl fun a ha => ?_
    rw [Finset.sum_image hinj]
    refine Finset.sum_congr rfl fun b hb => ?_
    rw [mem_erase, mem_range] at ha hb
    rw [hXY a ha.2 ha.1, hXY b hb.2 hb.1, (d3 a b ha.2 hb.2 ha.1 hb.1).1]
  · conv_rhs => rw [hins, Finset.sum_insert (by simp)]
    rw [if_neg (by simp), Nat.zero_add]
    refine Finset.sum_congr rfl fun a ha => ?_
    rw [hsym a (mem_range.1 (mem_of_mem_erase ha))]

/-- A cut of a graph gives one of the graph without a vertex. -/
theorem exists_relab {n v : Nat} (hv : v < n) (X : Nat → Bool) : ∃ Y : Nat → Bool, ∀ u, u < n → u ≠ v → Y (relab v (n - 1) u) = X u := by
  classical
  refine ⟨fun p => decide (∃ u, u < n ∧ u ≠ v ∧ relab v (n - 1) u = p ∧ X u = true), fun a ha hav => ?_⟩
  cases hXa : X a
  · refine decide_eq_false ?_
    rintro ⟨u, u1, u2, u3, u4⟩
    rw [(relab_inj' hv u1 u2 ha hav).1 u3, hXa] at u4
    simp at u4
  · exact decide_eq_true ⟨a, ha, hav, rfl, hXa⟩

end MGraph
end VieCut
