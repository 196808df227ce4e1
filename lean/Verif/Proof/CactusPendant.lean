import Verif.Model.Cactus
import Verif.Proof.Inexact

/-!
# Vertices with a single edge of the weight of the minimum cut
-/

namespace VieCut
namespace Cactus
open Function Finset

theorem wt_single {A : Graph} {n t d : Nat} (h : A.edges n = [(t, d)]) (v : Nat) : A.wt n v = if v = t then d else 0 := by
  unfold Graph.wt
  rw [h]
  by_cases hv : v = t
  · simp [hv]
  · simp [hv, Ne.symm hv]

theorem deg_single {A : Graph} {n t d : Nat} (h : A.edges n = [(t, d)]) : A.deg n = d := by
  unfold Graph.deg; rw [h]; simp

theorem crossing_single {A : Graph} {n t d : Nat} (h : A.edges n = [(t, d)]) (ht : t < A.n) (S : Nat → Bool) :
    crossing A S n = if S t ≠ S n then d else 0 := by
  unfold crossing
  rw [Finset.sum_eq_single t]
  · simp [wt_single h]
  · intro v _ hv; simp [wt_single h, hv]
  · intro hn; exact absurd (mem_range.2 ht) hn

/-- A minimum cut that separates such a vertex from its neighbour has only this vertex on one side. -/
theorem cut_of_pendant {A : Graph} (hA : A.WF) {c d n t : Nat} (hc : 0 < c) (hcd : c ≤ d)
    (hmin : ∀ T, ProperCut A.n T → c ≤ cutValue A.n A.wt T) (hn : n < A.n) (he : A.edges n = [(t, d)]) {S : Nat → Bool}
    (hS : cutValue A.n A.wt S = c) (hne : S n ≠ S t) : ∀ u v, u < A.n → v < A.n → u ≠ n → v ≠ n → S u = S v := by
  have ht : t < A.n := hA.tgt_lt n (t, d) (by rw [he]; simp)
  have hf := cut_flip hA S hn
  rw [crossing_single he ht, if_pos (Ne.symm hne), deg_single he, hS] at hf
  have h0 : cutValue A.n A.wt (update S n (!S n)) = 0 := by omega
  have hnp : ¬ ProperCut A.n (update S n (!S n)) := fun hp => by have := hmin _ hp; omega
  intro u v hu hv hun hvn
  by_contra hne'
  apply hnp
  cases hSu : S u
  · have hSv : S v = true := by cases h : S v; exact absurd (hSu.trans h.symm) hne'; rfl
    exact ⟨⟨v, hv, by rw [update_of_ne hvn]; exact hSv⟩, ⟨u, hu, by rw [update_of_ne hun]; exact hSu⟩⟩
  · have hSv : S v = false := by cases h : S v; rfl; exact absurd (hSu.trans h.symm) hne'
    exact ⟨⟨u, hu, by rw [update_of_ne hun]; exact hSu⟩, ⟨v, hv, by rw [update_of_ne hvn]; exact hSv⟩⟩

/-- Two such vertices are adjacent only in a graph of two vertices. -/
theorem pair_of_pendant {A : Graph} (hA : A.WF) {c d n t : Nat} (hc : 0 < c)
    (hmin : ∀ T, ProperCut A.n T → c ≤ cutValue A.n A.wt T) (hn : n < A.n) (he : A.edges n = [(t, d)])
    (het : A.edges t = [(n, d)]) {w : Nat} (hw : w < A.n) : w = n ∨ w = t := by
  by_contra hne
  have ht : t < A.n := hA.tgt_lt n (t, d) (by rw [he]; simp)
  have hnt : t ≠ n := hA.no_loop n (t, d) (by rw [he]; simp)
  have hf := cut_flip hA (fun x => x == n) ht
  rw [crossing_single het hn, deg_single het, hA.cut_singleton hn, deg_single he] at hf
  rw [if_pos (by simp [hnt])] at hf
  have h0 := hmin (update (fun x => x == n) t (!(t == n))) ⟨⟨n, hn, by rw [update_of_ne (Ne.symm hnt)]; simp⟩,
    ⟨w, hw, by rw [update_of_ne (fun h => hne (Or.inr h))]; simp; exact fun h => hne (Or.inl h)⟩⟩
  omega

/-- The remembered edges of one level: `φ` merges each of these vertices with its neighbour, and every cut of value `c` either
is kept by the contraction or has one of these vertices alone on one side. -/
structure Level (c d : Nat) (A B : Graph) (φ : Nat → Nat) (es : List (Nat × Nat)) : Prop where
  con : IsContraction A B φ
  pend : ∀ e ∈ es, e.1 < A.n ∧ A.edges e.1 = [(e.2, d)] ∧ φ e.1 = φ e.2
  nodup : (es.map Prod.fst).Nodup
  apart : ∀ e ∈ es, ∀ f ∈ es, e.2 ≠ f.1
  cuts : ∀ S, ProperCut A.n S → cutValue A.n A.wt S = c →
    (∀ u v, u < A.n → v < A.n → φ u = φ v → S u = S v) ∨
    ∃ e ∈ es, ∀ u v, u < A.n → v < A.n → u ≠ e.1 → v ≠ e.1 → S u = S v

/-- Loop invariant of the loop over the vertices. -/
structure PInv (c d : Nat) (A : Graph) (st : UF × List (Nat × Nat)) : Prop where
  inv : st.1.Inv
  size : st.1.size = A.n
  pend : ∀ e ∈ st.2, e.1 < A.n ∧ A.edges e.1 = [(e.2, d)] ∧ st.1.root e.1 = st.1.root e.2
  nodup : (st.2.map Prod.fst).Nodup
  apart : ∀ e ∈ st.2, ∀ f ∈ st.2, e.2 ≠ f.1
  cuts : ∀ S, ProperCut A.n S → cutValue A.n A.wt S = c →
    Respects st.1 S ∨ ∃ e ∈ st.2, ∀ u v, u < A.n → v < A.n → u ≠ e.1 → v ≠ e.1 → S u = S v

theorem exists_other_root {u : UF} (h : u.Inv) (hc : 1 < u.cnt) (r : Nat) : ∃ w, w < u.size ∧ u.root w ≠ r := by
  rw [← UF.image_root_card h] at hc
  obtain ⟨a, ha, hne⟩ := Finset.exists_mem_ne hc r
  obtain ⟨w, hw, rfl⟩ := mem_image.1 ha
  exact ⟨w, mem_range.1 hw, hne⟩

theorem union_root_mono {u : UF} (hu : u.Inv) {l r : Nat} (hl : l < u.size) (hr : r < u.size) {a b : Nat}
    (h : u.root a = u.root b) : (u.union l r).2.root a = (u.union l r).2.root b := by
  rw [(union_root hu hl hr).2.2, h]

theorem union_root_pair {u : UF} (hu : u.Inv) {l r : Nat} (hl : l < u.size) (hr : r < u.size) :
    (u.union l r).2.root l = (u.union l r).2.root r := by
  rw [(union_root hu hl hr).2.2, if_pos rfl]
  split <;> rfl

theorem PInv.step {c d : Nat} {A : Graph} (hA : A.WF) (hc : 0 < c) (hcd : c ≤ d)
    (hmin : ∀ T, ProperCut A.n T → c ≤ cutValue A.n A.wt T) {st : UF × List (Nat × Nat)} (h : PInv c d A st) {n : Nat}
    (hn : n < A.n) (hnew : ∀ e ∈ st.2, e.1 ≠ n) :
    PInv c d A (pendantStep A d st n) ∧ ∀ e ∈ (pendantStep A d st n).2, e ∈ st.2 ∨ e.1 = n := by
  have hsame : PInv c d A st ∧ ∀ e ∈ st.2, e ∈ st.2 ∨ e.1 = n := ⟨h, fun e he => Or.inl he⟩
  unfold pendantStep
  split
  · rename_i e he
    split
    · rename_i hcond
      obtain ⟨t, w⟩ := e
      obtain ⟨hw, hcnt⟩ := hcond
      simp only at hw hcnt ⊢
      subst hw
      have ht : t < A.n := hA.tgt_lt n (t, w) (by rw [he]; simp)
      have hnt : t ≠ n := hA.no_loop n (t, w) (by rw [he]; simp)
      have hns : n < st.1.size := by rw [h.size]; exact hn
      have hts : t < st.1.size := by rw [h.size]; exact ht
      obtain ⟨u1, u2, _⟩ := union_root h.inv hns hts
      have hpos : 0 < w := by omega
      have hK2 : ∀ f ∈ st.2, f.1 = t → f.2 = n → False := by
        intro f hf h1 h2
        obtain ⟨_, f2, f3⟩ := h.pend f hf
        rw [h1, h2] at f2 f3
        obtain ⟨x, hx, hx'⟩ := exists_other_root h.inv hcnt (st.1.root n)
        rw [h.size] at hx
        rcases pair_of_pendant hA hc hmin hn he f2 hx with rfl | rfl
        · exact hx' rfl
        · exact hx' f3
      have hapA : ∀ f ∈ st.2, t ≠ f.1 := by
        intro f hf e1
        obtain ⟨_, f2, _⟩ := h.pend f hf
        refine hK2 f hf e1.symm ?_
        have h1 := hA.wt_symm t n
        rw [e1, wt_single f2, ← e1, wt_single he, if_pos rfl] at h1
        by_contra hne
        rw [if_neg (Ne.symm hne)] at h1
        omega
      have hapB : ∀ f ∈ st.2, f.2 ≠ n := by
        intro f hf e1
        obtain ⟨_, f2, _⟩ := h.pend f hf
        refine hK2 f hf ?_ e1
        have h1 := hA.wt_symm f.1 n
        rw [wt_single f2, if_pos e1.symm, wt_single he] at h1
        by_contra hne
        rw [if_neg hne] at h1
        omega
      refine ⟨⟨u1, u2.trans h.size, ?_, ?_, ?_, ?_⟩, ?_⟩
      · intro f hf
        rcases List.mem_append.1 hf with hf | hf
        · obtain ⟨f1, f2, f3⟩ := h.pend f hf
          exact ⟨f1, f2, union_root_mono h.inv hns hts f3⟩
        · rw [List.mem_singleton] at hf
          subst hf
          exact ⟨hn, he, union_root_pair h.inv hns hts⟩
      · rw [List.map_append, List.nodup_append]
        refine ⟨h.nodup, by simp, ?_⟩
        intro a ha b hb
        obtain ⟨f, hf, rfl⟩ := List.mem_map.1 ha
        simp only [List.map_cons, List.map_nil, List.mem_singleton] at hb
        rw [hb]
        exact hnew f hf
      · intro f hf g hg
        rcases List.mem_append.1 hf with hf | hf <;> rcases List.mem_append.1 hg with hg | hg
        · exact h.apart f hf g hg
        · rw [List.mem_singleton] at hg; subst hg; exact hapB f hf
        · rw [List.mem_singleton] at hf; subst hf; exact hapA g hg
        · rw [List.mem_singleton] at hf hg; subst hf; subst hg; exact hnt
      · intro S hS hv
        rcases h.cuts S hS hv with hr | ⟨f, hf, hfS⟩
        · by_cases hst : S n = S t
          · exact Or.inl (hr.union h.inv hns hts hst)
          · exact Or.inr ⟨(n, t), by simp, cut_of_pendant hA hc hcd hmin hn he hv hst⟩
        · exact Or.inr ⟨f, List.mem_append_left _ hf, hfS⟩
      · intro f hf
        rcases List.mem_append.1 hf with hf | hf
        · exact Or.inl hf
        · rw [List.mem_singleton] at hf; subst hf; exact Or.inr rfl
    · exact hsame
  · exact hsame

theorem PInv.fold {c d : Nat} {A : Graph} (hA : A.WF) (hc : 0 < c) (hcd : c ≤ d)
    (hmin : ∀ T, ProperCut A.n T → c ≤ cutValue A.n A.wt T) : ∀ (l : List Nat) (st : UF × List (Nat × Nat)), PInv c d A st →
    l.Nodup → (∀ n ∈ l, n < A.n) → (∀ e ∈ st.2, e.1 ∉ l) → PInv c d A (l.foldl (pendantStep A d) st) := by
  intro l
  induction l with
  | nil => intro st h _ _ _; exact h
  | cons n l ih =>
    intro st h hnd hlt hnew
    rw [List.nodup_cons] at hnd
    obtain ⟨h1, h2⟩ := h.step hA hc hcd hmin (hlt n (by simp)) (fun e he hen => hnew e he (by rw [hen]; simp))
    refine ih _ h1 hnd.2 (fun m hm => hlt m (by simp [hm])) ?_
    intro e he hel
    rcases h2 e he with h | h
    · exact hnew e h (by simp [hel])
    · rw [h] at hel; exact hnd.1 hel

theorem PInv.level {c d : Nat} {A B : Graph} {st : UF × List (Nat × Nat)} (h : PInv c d A st) {φ : Nat → Nat}
    (hA : A.WF) (hcon : IsContraction A B φ) (hφ : ∀ u v, u < A.n → v < A.n → (φ u = φ v ↔ st.1.root u = st.1.root v)) :
    Level c d A B φ st.2 := by
  refine ⟨hcon, fun e he => ?_, h.nodup, h.apart, fun S hS hv => ?_⟩
  · obtain ⟨h1, h2, h3⟩ := h.pend e he
    exact ⟨h1, h2, (hφ _ _ h1 (hA.tgt_lt e.1 (e.2, d) (by rw [h2]; simp))).2 h3⟩
  · rcases h.cuts S hS hv with hr | hr
    · exact Or.inl fun u v hu hv' he => hr u v ((hφ u v hu hv').1 he)
    · exact Or.inr hr

theorem PInv.nil_of_cnt {c d : Nat} {A : Graph} {st : UF × List (Nat × Nat)} (hA : A.WF) (h : PInv c d A st)
    (hcnt : ¬ st.1.cnt < A.n) : st.2 = [] := by
  cases hs : st.2 with
  | nil => rfl
  | cons e l =>
    exfalso
    obtain ⟨h1, h2, h3⟩ := h.pend e (by rw [hs]; simp)
    have ht := hA.tgt_lt e.1 (e.2, d) (by rw [h2]; simp)
    have hne := hA.no_loop e.1 (e.2, d) (by rw [h2]; simp)
    have := cnt_lt_of_merge h.inv (by rw [h.size]; exact h1) (by rw [h.size]; exact ht) (Ne.symm hne) h3
    rw [h.size] at this
    exact hcnt this

end Cactus
end VieCut
