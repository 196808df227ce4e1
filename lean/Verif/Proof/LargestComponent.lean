import Verif.Model.LargestComponent
import Verif.Spec.LargestComponent
import Verif.Spec.Structure
import Verif.Proof.TemporalIO
import Verif.Proof.CactusLocations
import Verif.Proof.CactusOps
import Verif.Proof.MutableQuot

/-! # Lemmas about the largest component of a dynamic graph -/

namespace VieCut
open TemporalIO GraphIO LargestComponent Function

theorem LargestComponent.maxComp_spec (size : Nat → Nat) (ct : Nat) (h : 0 < ct) :
    maxComp ct size < ct ∧ ∀ c, c < ct → size c ≤ size (maxComp ct size) := by
  have key : ∀ k, (maxComp k size < k ∨ k = 0 ∧ maxComp k size = 0) ∧ ∀ c, c < k → size c ≤ size (maxComp k size) := by
    intro k
    induction k with
    | zero => exact ⟨Or.inr ⟨rfl, rfl⟩, fun c hc => absurd hc (Nat.not_lt_zero c)⟩
    | succ k ih =>
      obtain ⟨i1, i2⟩ := ih
      have hs : maxComp (k + 1) size = if size (maxComp k size) < size k then k else maxComp k size := by
        unfold maxComp
        rw [List.range_succ, List.foldl_append]
        rfl
      rw [hs]
      split
      · rename_i hlt
        refine ⟨Or.inl (Nat.lt_succ_self k), fun c hc => ?_⟩
        rcases Nat.lt_succ_iff_lt_or_eq.1 hc with hc | rfl
        · exact le_trans (i2 c hc) (le_of_lt hlt)
        · exact le_refl _
      · rename_i hnl
        refine ⟨Or.inl (by omega), fun c hc => ?_⟩
        rcases Nat.lt_succ_iff_lt_or_eq.1 hc with hc | rfl
        · exact i2 c hc
        · omega
  obtain ⟨k1, k2⟩ := key ct
  exact ⟨by omega, k2⟩

/-- The number of vertices before `v` in the component of number `mc`. -/
def LargestComponent.place (comp : Nat → Nat) (mc v : Nat) : Nat := ((List.range v).filter fun u => comp u = mc).length

theorem LargestComponent.number_spec (comp : Nat → Nat) (mc n : Nat) :
    (number n comp mc).2 = place comp mc n + 1 ∧ ∀ v, v < n → comp v = mc → (number n comp mc).1 v = place comp mc v + 1 := by
  induction n with
  | zero => exact ⟨rfl, fun v hv => absurd hv (Nat.not_lt_zero v)⟩
  | succ n ih =>
    obtain ⟨i1, i2⟩ := ih
    have hs : number (n + 1) comp mc = numberStep comp mc (number n comp mc) n := by
      unfold number
      rw [List.range_succ, List.foldl_append]
      rfl
    have hp : place comp mc (n + 1) = place comp mc n + if comp n = mc then 1 else 0 := by
      unfold place
      rw [List.range_succ, List.filter_append, List.length_append]
      by_cases hc : comp n = mc <;> simp [hc]
    rw [hs]
    unfold numberStep
    by_cases hc : comp n = mc
    · rw [if_pos hc, hp, if_pos hc]
      refine ⟨by simp only [i1], fun v hv hv' => ?_⟩
      by_cases he : v = n
      · subst he
        simp only [update_self, i1]
      · simp only [update_of_ne he]
        exact i2 v (by omega) hv'
    · rw [if_neg hc, hp, if_neg hc]
      refine ⟨i1, fun v hv hv' => i2 v ?_ hv'⟩
      have : v ≠ n := fun he => hc (he ▸ hv')
      omega

/-- The form of a weight in the written file. -/
def LargestComponent.form (w : Int) : Weight := if w < 0 then .minus w.natAbs else .plain w.natAbs

theorem LargestComponent.form_spec {w : Int} (h1 : -(2 ^ 63) < w) (h2 : w < 2 ^ 63) :
    (form w).text = decInt w ++ [' '] ∧ (form w).value = w ∧ (form w).abs < 2 ^ 63 := by
  unfold form decInt
  split
  · refine ⟨rfl, ?_, ?_⟩
    · show -(w.natAbs : Int) = w
      omega
    · show w.natAbs < _
      omega
  · refine ⟨rfl, ?_, ?_⟩
    · show (w.natAbs : Int) = w
      omega
    · show w.natAbs < _
      omega

namespace LargestComponent

/-- The number of edges from `a` to `b`. -/
def between (g : MGraph) (a b : Nat) : Nat := g.rowSum (fun t _ => if t = b then 1 else 0) a

theorem build_spec (n : Nat) (events : List Event) (h : ∀ e ∈ events, e.source < n ∧ e.target < n) :
    ∀ g : MGraph, g.Valid → g.n = n →
      (events.foldl (fun g e => g.newEdgeOrder e.source e.target (e.weight % 2 ^ 64).toNat) g).Valid ∧
      (events.foldl (fun g e => g.newEdgeOrder e.source e.target (e.weight % 2 ^ 64).toNat) g).n = n ∧
      ∀ a b, 0 < between (events.foldl (fun g e => g.newEdgeOrder e.source e.target (e.weight % 2 ^ 64).toNat) g) a b ↔
        0 < between g a b ∨ ∃ e ∈ events, e.source ≠ e.target ∧ ((e.source = a ∧ e.target = b) ∨ (e.source = b ∧ e.target = a)) := by
  induction events with
  | nil => intro g hg hn; exact ⟨hg, hn, fun a b => by simp⟩
  | cons e es ih =>
    intro g hg hn
    rw [List.foldl_cons]
    obtain ⟨h1, h2⟩ := h e (by simp)
    have ih := ih (fun x hx => h x (by simp [hx]))
    by_cases he : e.source = e.target
    · have : g.newEdgeOrder e.source e.target (e.weight % 2 ^ 64).toNat = g := by
        unfold MGraph.newEdgeOrder
        rw [if_neg (by omega), if_neg (by omega)]
      rw [this]
      obtain ⟨a1, a2, a3⟩ := ih g hg hn
      refine ⟨a1, a2, fun a b => ?_⟩
      rw [a3]
      constructor
      · rintro (hh | ⟨x, hx, hh⟩)
        · exact Or.inl hh
        · exact Or.inr ⟨x, by simp [hx], hh⟩
      · rintro (hh | ⟨x, hx, hh⟩)
        · exact Or.inl hh
        · rcases List.mem_cons.1 hx with rfl | hx
          · exact absurd he hh.1
          · exact Or.inr ⟨x, hx, hh⟩
    · obtain ⟨v1, v2, -⟩ := MGraph.newEdgeOrder_all hg he (by omega) (by omega) (e.weight % 2 ^ 64).toNat
      have hn' : (g.newEdgeOrder e.source e.target (e.weight % 2 ^ 64).toNat).n = n := by
        rw [(MGraph.fr_eq (MGraph.newEdgeOrder_fr _ _ _ _)).1, hn]
      obtain ⟨a1, a2, a3⟩ := ih _ v1 hn'
      refine ⟨a1, a2, fun a b => ?_⟩
      have hb : 0 < between (g.newEdgeOrder e.source e.target (e.weight % 2 ^ 64).toNat) a b ↔
          0 < between g a b ∨ (e.source = a ∧ e.target = b) ∨ (e.source = b ∧ e.target = a) := by
        unfold between
        rw [v2]
        constructor
        · intro hs
          by_contra hcon
          simp only [not_or, not_and] at hcon
          obtain ⟨k1, k2, k3⟩ := hcon
          have z1 : (if a = e.source then (if e.target = b then 1 else 0) else 0) = 0 := by
            split
            · rename_i q; rw [if_neg (k2 q.symm)]
            · rfl
          have z2 : (if a = e.target then (if e.source = b then 1 else 0) else 0) = 0 := by
            split
            · rename_i q; rw [if_neg (fun hb => k3 hb q.symm)]
            · rfl
          rw [z1, z2] at hs
          omega
        · rintro (hs | ⟨hs1, hs2⟩ | ⟨hs1, hs2⟩)
          · omega
          · rw [if_pos hs1.symm, if_pos hs2]; omega
          · rw [if_pos hs2.symm, if_pos hs1]; omega
      rw [a3, hb]
      constructor
      · rintro ((hh | hh) | ⟨x, hx, hh⟩)
        · exact Or.inl hh
        · exact Or.inr ⟨e, by simp, he, hh⟩
        · exact Or.inr ⟨x, by simp [hx], hh⟩
      · rintro (hh | ⟨x, hx, hh⟩)
        · exact Or.inl (Or.inl hh)
        · rcases List.mem_cons.1 hx with rfl | hx
          · exact Or.inl (Or.inr hh.2)
          · exact Or.inr ⟨x, hx, hh⟩

theorem step_iff (g : MGraph) {a : Nat} (ha : a < g.n) (b : Nat) : g.toGraph.Step a b ↔ 0 < between g a b := by
  unfold Graph.Step between MGraph.rowSum
  rw [MGraph.toGraph_edges g ha, Finset.sum_pos_iff]
  constructor
  · rintro ⟨w, hw⟩
    obtain ⟨e, he, h⟩ := List.mem_map.1 hw
    simp only [Prod.mk.injEq] at h
    exact ⟨e, Finset.mem_range.2 (List.mem_range.1 he), by dsimp only; rw [if_pos h.1]; exact Nat.one_pos⟩
  · rintro ⟨e, he, h⟩
    refine ⟨(g.edge a e).weight, List.mem_map.2 ⟨e, List.mem_range.2 (Finset.mem_range.1 he), ?_⟩⟩
    dsimp only at h
    split at h
    · rename_i hb; rw [hb]
    · exact absurd h (Nat.lt_irrefl 0)

end LargestComponent

theorem LargestComponent.step_build {n : Nat} {events : List Event} (h : ∀ e ∈ events, e.source < n ∧ e.target < n) (a b : Nat) :
    (build n events).toGraph.Step a b ↔
      ∃ e ∈ events, e.source ≠ e.target ∧ ((e.source = a ∧ e.target = b) ∨ (e.source = b ∧ e.target = a)) := by
  obtain ⟨-, h2, h3⟩ := build_spec n events h (MGraph.start n) (MGraph.Valid.start n) rfl
  have h2' : (build n events).n = n := h2
  by_cases ha : a < n
  · rw [step_iff _ (by omega)]
    refine (h3 a b).trans ⟨?_, Or.inr⟩
    rintro (h | h)
    · simp [between, MGraph.rowSum, MGraph.start] at h
    · exact h
  · constructor
    · rintro ⟨w, hw⟩
      rw [Graph.edges, List.getD_eq_getElem?_getD, List.getElem?_eq_none] at hw
      · cases hw
      · have := MGraph.toGraph_n (build n events)
        unfold Graph.n at this
        omega
    · rintro ⟨e, he, -, hc⟩
      have := h e he
      omega

theorem LargestComponent.mutual_iff {n : Nat} {events : List Event} (h : ∀ e ∈ events, e.source < n ∧ e.target < n) (a b : Nat) :
    Mutual (build n events).toGraph.Step a b ↔ Joined events a b := by
  have hsymm : ∀ x y, (build n events).toGraph.Step x y → (build n events).toGraph.Step y x := by
    intro x y hs
    rw [step_build h] at hs ⊢
    obtain ⟨e, he, hne, hc⟩ := hs
    exact ⟨e, he, hne, hc.symm⟩
  have hrev : ∀ x y, Relation.ReflTransGen (build n events).toGraph.Step x y → Relation.ReflTransGen (build n events).toGraph.Step y x := by
    intro x y hxy
    induction hxy with
    | refl => exact .refl
    | tail _ hs ih => exact Relation.ReflTransGen.head (hsymm _ _ hs) ih
  constructor
  · intro hm
    have h1 : Relation.ReflTransGen (build n events).toGraph.Step a b := hm.1
    clear hm
    induction h1 with
    | refl => exact .refl _
    | tail _ hs ih =>
      obtain ⟨e, he, -, hc⟩ := (step_build h _ _).1 hs
      rcases hc with hc | hc
      · exact .trans _ _ _ ih (.rel _ _ ⟨e, he, hc⟩)
      · exact .trans _ _ _ ih (.symm _ _ (.rel _ _ ⟨e, he, hc⟩))
  · intro hj
    have h1 : Relation.ReflTransGen (build n events).toGraph.Step a b := by
      induction hj with
      | rel x y hxy =>
        obtain ⟨e, he, hx, hy⟩ := hxy
        by_cases hne : e.source = e.target
        · rw [← hx, ← hy, hne]
        · exact .single ((step_build h _ _).2 ⟨e, he, hne, Or.inl ⟨hx, hy⟩⟩)
      | refl x => exact .refl
      | symm x y _ ih => exact hrev _ _ ih
      | trans x y z _ _ i1 i2 => exact i1.trans i2
    exact ⟨h1, hrev _ _ h1⟩

end VieCut
