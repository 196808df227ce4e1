import Verif.Proof.MutableSimple
import Verif.Spec.Cactus
import Verif.Proof.Levels

/-!
# A graph that represents all cuts of a given value exists

The quotient of a graph by "separated by no cut of value `c`": `RCSpec` can be met.
-/

namespace VieCut
namespace Cactus
open Graph MGraph Function Finset

/-- No cut of value `c` separates `u` and `v`. -/
def Together (G : Graph) (c u v : Nat) : Prop := ∀ S, cutValue G.n G.wt S = c → S u = S v

open Classical in
/-- The first vertex together with `u`. -/
noncomputable def firstOf (G : Graph) (c u : Nat) : Nat :=
  Nat.find (p := fun v => Together G c v u) ⟨u, fun _ _ => rfl⟩

theorem firstOf_together (G : Graph) (c u : Nat) : Together G c (firstOf G c u) u := by
  classical
  exact Nat.find_spec (p := fun v => Together G c v u) ⟨u, fun _ _ => rfl⟩

theorem firstOf_le (G : Graph) (c u : Nat) : firstOf G c u ≤ u := by
  classical
  exact Nat.find_min' (p := fun v => Together G c v u) _ (fun _ _ => rfl)

theorem firstOf_congr {G : Graph} {c u v : Nat} (h : Together G c u v) : firstOf G c u = firstOf G c v := by
  classical
  apply le_antisymm
  · exact Nat.find_min' (p := fun x => Together G c x u) _ (fun S hS => (firstOf_together G c v S hS).trans (h S hS).symm)
  · exact Nat.find_min' (p := fun x => Together G c x v) _ (fun S hS => (firstOf_together G c u S hS).trans (h S hS))

noncomputable def firsts (G : Graph) (c : Nat) : List Nat := (List.range G.n).filter fun v => firstOf G c v = v

noncomputable def classOf (G : Graph) (c u : Nat) : Nat := (firsts G c).idxOf (firstOf G c u)

theorem firstOf_mem {G : Graph} {c u : Nat} (hu : u < G.n) : firstOf G c u ∈ firsts G c := by
  unfold firsts
  rw [List.mem_filter]
  refine ⟨List.mem_range.2 (lt_of_le_of_lt (firstOf_le G c u) hu), ?_⟩
  simpa using firstOf_congr (firstOf_together G c u)

theorem classOf_eq {G : Graph} {c u v : Nat} (hu : u < G.n) :
    classOf G c u = classOf G c v ↔ Together G c u v := by
  constructor
  · intro h S hS
    have := (List.idxOf_inj (firstOf_mem (c := c) hu)).1 h
    rw [← firstOf_together G c u S hS, this, firstOf_together G c v S hS]
  · intro h; unfold classOf; rw [firstOf_congr h]

noncomputable def classes (G : Graph) (c : Nat) : List (List Nat) :=
  (List.range (firsts G c).length).map fun p => (List.range G.n).filter fun v => classOf G c v = p

/-- The quotient with its positions. -/
noncomputable def refRC (G : Graph) (c : Nat) : MGraph :=
  let H := contractSparseM G (classOf G c) (classes G c) (fun _ l => l)
  { H with pos := classOf G c, posSize := G.n, contSize := H.n, lastNode := H.n }

theorem refRC_spec {G : Graph} (hG : G.WF) {c : Nat} (hpos : 0 < c) (hmin : 2 ≤ G.n → IsMinCut G.n G.wt c) :
    RepresentsMinCuts G (refRC G c) (refRC G c).pos c ∧ (refRC G c).lastNode = (refRC G c).n ∧
    (refRC G c).contSize = (refRC G c).n ∧ (refRC G c).posSize = G.n := by
  have hlen : (classes G c).length = (firsts G c).length := by simp [classes]
  have hlt : ∀ u, u < G.n → classOf G c u < (classes G c).length := by
    intro u hu
    rw [hlen]
    exact List.idxOf_lt_length_iff.2 (firstOf_mem hu)
  have hnd : (firsts G c).Nodup := List.nodup_range.filter _
  have hsurj : ∀ p, p < (classes G c).length → ∃ u, u < G.n ∧ classOf G c u = p := by
    intro p hp
    rw [hlen] at hp
    have hm := List.getElem_mem hp
    refine ⟨(firsts G c)[p], ?_, ?_⟩
    · unfold firsts at hm
      exact List.mem_range.1 (List.mem_filter.1 hm).1
    · have hf : firstOf G c (firsts G c)[p] = (firsts G c)[p] := by
        have := (List.mem_filter.1 (show (firsts G c)[p] ∈ (List.range G.n).filter _ from hm)).2
        simpa using this
      unfold classOf
      rw [hf]
      exact hnd.idxOf_getElem p hp
  have hrev : ∀ p, p < (classes G c).length →
      (classes G c).getD p [] = (List.range G.n).filter (fun v => classOf G c v = p) := by
    intro p hp
    rw [hlen] at hp
    simp [classes, List.getD_eq_getElem?_getD, hp]
  have ho : IsOrder (fun _ l => l) := fun _ l => List.Perm.refl l
  obtain ⟨c1, c2, c3, c4⟩ := contractSparseM_spec hG (classOf G c) (classes G c) _ ho hlt hsurj hrev
  have hs := contractSparseM_simple hG (classOf G c) (classes G c) _ ho hlt c3
  have hval : Valid (refRC G c) := by
    rw [valid_iff] at c3 ⊢
    exact c3
  have hsim : Simple (refRC G c) [] := hs
  have hcon : IsContraction G (refRC G c).toGraph (classOf G c) := c1
  have hn : (refRC G c).toGraph.n = (refRC G c).n := toGraph_n _
  have hpush : ∀ S, cutValue G.n G.wt S = c → ∃ T, (∀ u, u < G.n → T (classOf G c u) = S u) ∧
      cutValue (refRC G c).n (refRC G c).toGraph.wt T = c := by
    intro S hS
    obtain ⟨T, t1, t2, _⟩ := hcon.push (S := S) (fun u v hu _ he => (classOf_eq hu).1 he S hS)
    rw [hn] at t2
    exact ⟨T, t1, t2.trans hS⟩
  have hpull : ∀ X, cutValue (refRC G c).n (refRC G c).toGraph.wt X = cutValue G.n G.wt (fun v => X (classOf G c v)) := by
    intro X
    have := hcon.cut X
    rwa [hn] at this
  have hprop : ∀ X, ProperCut (refRC G c).n X → ProperCut G.n (fun v => X (classOf G c v)) := by
    intro X hX
    rw [← hn] at hX
    exact hcon.proper hX
  have htwo : ∀ S, ProperCut G.n S → 2 ≤ G.n := by
    rintro S ⟨⟨u, hu, hu'⟩, v, hv, hv'⟩
    have : u ≠ v := by rintro rfl; rw [hu'] at hv'; exact absurd hv' (by simp)
    omega
  have hp0 : (refRC G c).pos = classOf G c := rfl
  refine ⟨⟨(consistent_iff).2 hval, noParallel_of_simple hval hsim, ?_, ?_, ?_, ?_, ?_⟩, rfl, rfl, rfl⟩
  · intro v hv
    rw [hp0, ← hn]; exact hcon.lt v hv
  · intro X hX
    rw [hpull]
    exact (hmin (htwo _ (hprop X hX))).2 _ (hprop X hX)
  · intro X hX hv
    rw [hpull] at hv
    exact ⟨hprop X hX, hv⟩
  · intro S _ hv
    obtain ⟨T, t1, t2⟩ := hpush S hv
    exact ⟨T, t2, t1⟩
  · intro x y hx hy hxy
    obtain ⟨u, hu, rfl⟩ := hcon.surj x (by rw [hn]; exact hx)
    obtain ⟨v, hv, rfl⟩ := hcon.surj y (by rw [hn]; exact hy)
    have hnt : ¬ Together G c u v := fun h => hxy ((classOf_eq hu).2 h)
    unfold Together at hnt
    push Not at hnt
    obtain ⟨S, s1, s2⟩ := hnt
    obtain ⟨T, t1, t2⟩ := hpush S s1
    rcases hsu : S u with _ | _
    · refine ⟨fun a => !T a, ?_, ?_, ?_⟩
      · show (!T (classOf G c u)) = true
        rw [t1 u hu, hsu]; rfl
      · show (!T (classOf G c v)) = false
        rw [t1 v hv]
        cases hsv : S v
        · rw [hsu, hsv] at s2; exact absurd rfl s2
        · rfl
      · rw [cutValue_compl hval.wf.wt_symm]; exact t2
    · refine ⟨T, by rw [t1 u hu, hsu], ?_, t2⟩
      rw [t1 v hv]
      cases hsv : S v
      · rfl
      · rw [hsu, hsv] at s2; exact absurd rfl s2

/-- The specification assumed of `recursive_cactus` can be met, for both graph classes. -/
theorem rcSpec_met {γ : Type} [GraphLike γ] {good : γ → Prop} (hgood : ∀ x, good x → (GraphLike.view x).WF) :
    RCSpec good (fun x c => refRC (GraphLike.view x) c) := by
  intro K c hK hc _ hmin
  exact refRC_spec (hgood K hK) hc hmin

end Cactus
end VieCut
