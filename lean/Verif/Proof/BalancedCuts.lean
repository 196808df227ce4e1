import Verif.Proof.BalancedTree
import Verif.Proof.BalancedWindow

/-! # The cuts of weight `c` of a cactus: one edge outside the cycles, or two edges of a cycle -/

namespace VieCut
namespace Balanced
open Finset MGraph

/-! ## Crossing pairs -/

/-- The pairs with the first vertex inside and the second outside. -/
def pairs (n : Nat) (X : Nat → Bool) : Finset (Nat × Nat) := (range n ×ˢ range n).filter fun p => X p.1 = true ∧ X p.2 = false

theorem cutValue_pairs (n : Nat) (w : Nat → Nat → Nat) (X : Nat → Bool) : cutValue n w X = ∑ p ∈ pairs n X, w p.1 p.2 := by
  unfold cutValue pairs
  rw [Finset.sum_filter, Finset.sum_product]

theorem mem_pairs {n : Nat} {X : Nat → Bool} {u v : Nat} : (u, v) ∈ pairs n X ↔ (u < n ∧ v < n) ∧ X u = true ∧ X v = false := by
  unfold pairs
  rw [Finset.mem_filter, Finset.mem_product, Finset.mem_range, Finset.mem_range]

theorem one_le_cut {n : Nat} {w : Nat → Nat → Nat} {X : Nat → Bool} {p : Nat × Nat} (hp : p ∈ pairs n X) : w p.1 p.2 ≤ cutValue n w X := by
  rw [cutValue_pairs]
  exact Finset.single_le_sum (f := fun p : Nat × Nat => w p.1 p.2) (fun _ _ => Nat.zero_le _) hp

theorem two_le_cut {n : Nat} {w : Nat → Nat → Nat} {X : Nat → Bool} {p q : Nat × Nat} (hp : p ∈ pairs n X) (hq : q ∈ pairs n X) (h : p ≠ q) :
    w p.1 p.2 + w q.1 q.2 ≤ cutValue n w X := by
  rw [cutValue_pairs, ← Finset.sum_pair (f := fun p : Nat × Nat => w p.1 p.2) h]
  refine Finset.sum_le_sum_of_subset ?_
  intro z hz
  rw [Finset.mem_insert, Finset.mem_singleton] at hz
  rcases hz with rfl | rfl <;> assumption

theorem three_le_cut {n : Nat} {w : Nat → Nat → Nat} {X : Nat → Bool} {p q z : Nat × Nat} (hp : p ∈ pairs n X) (hq : q ∈ pairs n X)
    (hz : z ∈ pairs n X) (h1 : p ≠ q) (h2 : p ≠ z) (h3 : q ≠ z) : w p.1 p.2 + (w q.1 q.2 + w z.1 z.2) ≤ cutValue n w X := by
  rw [cutValue_pairs, ← Finset.sum_pair (f := fun p : Nat × Nat => w p.1 p.2) h3,
    ← Finset.sum_insert (f := fun p : Nat × Nat => w p.1 p.2) (by simp [h1, h2])]
  refine Finset.sum_le_sum_of_subset ?_
  intro y hy
  rw [Finset.mem_insert, Finset.mem_insert, Finset.mem_singleton] at hy
  rcases hy with rfl | rfl | rfl <;> assumption

theorem cut_one {n : Nat} {w : Nat → Nat → Nat} {X : Nat → Bool} {p : Nat × Nat} (hp : p ∈ pairs n X)
    (h : ∀ z ∈ pairs n X, w z.1 z.2 ≠ 0 → z = p) : cutValue n w X = w p.1 p.2 := by
  rw [cutValue_pairs]
  refine Finset.sum_eq_single p (fun z hz hne => ?_) (fun hn => absurd hp hn)
  by_contra hc
  exact hne (h z hz hc)

theorem cut_two {n : Nat} {w : Nat → Nat → Nat} {X : Nat → Bool} {p q : Nat × Nat} (hp : p ∈ pairs n X) (hq : q ∈ pairs n X) (hne : p ≠ q)
    (h : ∀ z ∈ pairs n X, w z.1 z.2 ≠ 0 → z = p ∨ z = q) : cutValue n w X = w p.1 p.2 + w q.1 q.2 := by
  rw [cutValue_pairs, ← Finset.sum_pair (f := fun p : Nat × Nat => w p.1 p.2) hne]
  symm
  refine Finset.sum_subset ?_ ?_
  · intro z hz
    rw [Finset.mem_insert, Finset.mem_singleton] at hz
    rcases hz with rfl | rfl <;> assumption
  · intro z hz hn
    by_contra hc
    refine hn ?_
    rw [Finset.mem_insert, Finset.mem_singleton]
    exact h z hz hc

/-- The same edge, in either direction. -/
def Same (x y u v : Nat) : Prop := (x = u ∧ y = v) ∨ (x = v ∧ y = u)

theorem Same.symm {x y u v : Nat} (h : Same x y u v) : Same u v x y := by
  rcases h with ⟨rfl, rfl⟩ | ⟨rfl, rfl⟩
  · exact Or.inl ⟨rfl, rfl⟩
  · exact Or.inr ⟨rfl, rfl⟩

theorem Same.trans {x y u v u' v' : Nat} (h : Same x y u v) (h' : Same u v u' v') : Same x y u' v' := by
  rcases h with ⟨rfl, rfl⟩ | ⟨rfl, rfl⟩
  · exact h'
  · rcases h' with ⟨rfl, rfl⟩ | ⟨rfl, rfl⟩
    · exact Or.inr ⟨rfl, rfl⟩
    · exact Or.inl ⟨rfl, rfl⟩

/-- The facts about the cactus used below. -/
structure Facts (C : MGraph) (c : Nat) : Prop where
  cons : C.Consistent
  simple : C.NoParallel
  cactus : IsCactus C c
  pos : 0 < c
  con : ∀ X, ProperCut C.n X → 0 < cutValue C.n C.toGraph.wt X

variable {C : MGraph} {c : Nat}

namespace Facts
variable (F : Facts C c)
include F

theorem wt_of_edge {u e : Nat} (hu : u < C.n) (he : e < C.len u) : C.toGraph.wt u (C.edge u e).target = (C.edge u e).weight :=
  Problem.wt_edge F.simple hu he

theorem symm (u v : Nat) : C.toGraph.wt u v = C.toGraph.wt v u := (consistent_iff.1 F.cons).wf.wt_symm u v

theorem wt_in {x y : Nat} (hx : x < C.n) (h : C.Adj x y) (ho : ∃ l, IsCycle C l ∧ OnCycle l x y) : 2 * C.toGraph.wt x y = c := by
  obtain ⟨e, he, rfl⟩ := h
  rw [F.wt_of_edge hx he]
  exact F.cactus.inside x e hx he ho

theorem wt_out {x y : Nat} (hx : x < C.n) (h : C.Adj x y) (ho : ¬ ∃ l, IsCycle C l ∧ OnCycle l x y) : C.toGraph.wt x y = c := by
  obtain ⟨e, he, rfl⟩ := h
  rw [F.wt_of_edge hx he]
  exact F.cactus.outside x e hx he ho

theorem wt_pos {x y : Nat} (hx : x < C.n) (h : C.Adj x y) : 0 < C.toGraph.wt x y := by
  have := F.pos
  by_cases ho : ∃ l, IsCycle C l ∧ OnCycle l x y
  · have := F.wt_in hx h ho; omega
  · have := F.wt_out hx h ho; omega

/-- Two sets with the same border are equal or complementary. -/
theorem same_border {X Y : Nat → Bool} (h : ∀ x y, x < C.n → C.Adj x y → (X x ≠ X y ↔ Y x ≠ Y y)) :
    (∀ x, x < C.n → X x = Y x) ∨ (∀ x, x < C.n → X x = !Y x) := by
  by_contra hn
  push Not at hn
  obtain ⟨⟨x, hx, h1⟩, ⟨y, hy, h2⟩⟩ := hn
  have hp : ProperCut C.n (fun v => X v != Y v) := by
    refine ⟨⟨x, hx, ?_⟩, ⟨y, hy, ?_⟩⟩
    · show (X x != Y x) = true
      simpa using h1
    · show (X y != Y y) = false
      generalize X y = p at h2 ⊢
      generalize Y y = q at h2 ⊢
      revert h2; cases p <;> cases q <;> simp
  have h0 := F.con _ hp
  have : cutValue C.n C.toGraph.wt (fun v => X v != Y v) = 0 := by
    rw [cutValue_pairs]
    refine Finset.sum_eq_zero fun p hp => ?_
    obtain ⟨⟨a1, a2⟩, a3, a4⟩ := mem_pairs.1 (show (p.1, p.2) ∈ _ from hp)
    by_contra hc
    have := h p.1 p.2 a1 (adj_of_wt a1 hc)
    generalize X p.1 = b1 at this a3 a4
    generalize X p.2 = b2 at this a3 a4
    generalize Y p.1 = b3 at this a3 a4
    generalize Y p.2 = b4 at this a3 a4
    revert this a3 a4
    cases b1 <;> cases b2 <;> cases b3 <;> cases b4 <;> simp
  omega

/-- Two different edges of weight `c / 2` that cross a cut of weight `c` are all that cross it. -/
theorem two_cross {X : Nat → Bool} (hX : cutValue C.n C.toGraph.wt X = c) {u v u' v' : Nat} (hu : u < C.n) (hu' : u' < C.n) (ha : C.Adj u v)
    (ha' : C.Adj u' v') (hx : X u ≠ X v) (hx' : X u' ≠ X v') (hw : 2 * C.toGraph.wt u v = c) (hw' : 2 * C.toGraph.wt u' v' = c)
    (hne : ¬ Same u v u' v') {x y : Nat} (hxn : x < C.n) (hxy : C.Adj x y) (hc : X x ≠ X y) : Same x y u v ∨ Same x y u' v' := by
  by_contra hn
  have orient : ∀ a b, a < C.n → C.Adj a b → X a ≠ X b → ∃ p ∈ pairs C.n X, Same a b p.1 p.2 ∧ C.toGraph.wt p.1 p.2 = C.toGraph.wt a b := by
    intro a b ha hab h
    have hb := adj_lt F.cons ha hab
    cases h1 : X a
    · refine ⟨(b, a), mem_pairs.2 ⟨⟨hb, ha⟩, ?_, h1⟩, Or.inr ⟨rfl, rfl⟩, F.symm _ _⟩
      rw [h1] at h; simpa using h.symm
    · refine ⟨(a, b), mem_pairs.2 ⟨⟨ha, hb⟩, h1, ?_⟩, Or.inl ⟨rfl, rfl⟩, rfl⟩
      rw [h1] at h; simpa using h.symm
  obtain ⟨p, p1, p2, p3⟩ := orient u v hu ha hx
  obtain ⟨q, q1, q2, q3⟩ := orient u' v' hu' ha' hx'
  obtain ⟨z, z1, z2, z3⟩ := orient x y hxn hxy hc
  have hpos := F.wt_pos hxn hxy
  have := three_le_cut (w := C.toGraph.wt) p1 q1 z1 (by rintro rfl; exact hne (p2.trans q2.symm))
    (by rintro rfl; exact hn (Or.inl (z2.trans p2.symm))) (by rintro rfl; exact hn (Or.inr (z2.trans q2.symm)))
  clear p2 q2 z2 hn
  omega

/-- An edge of weight `c` that crosses a cut of weight `c` is all that crosses it. -/
theorem one_cross {X : Nat → Bool} (hX : cutValue C.n C.toGraph.wt X = c) {u v : Nat} (hu : u < C.n) (ha : C.Adj u v)
    (hx : X u ≠ X v) (hw : C.toGraph.wt u v = c) {x y : Nat} (hxn : x < C.n) (hxy : C.Adj x y) (hc : X x ≠ X y) : Same x y u v := by
  by_contra hn
  have orient : ∀ a b, a < C.n → C.Adj a b → X a ≠ X b → ∃ p ∈ pairs C.n X, Same a b p.1 p.2 ∧ C.toGraph.wt p.1 p.2 = C.toGraph.wt a b := by
    intro a b ha hab h
    have hb := adj_lt F.cons ha hab
    cases h1 : X a
    · refine ⟨(b, a), mem_pairs.2 ⟨⟨hb, ha⟩, ?_, h1⟩, Or.inr ⟨rfl, rfl⟩, F.symm _ _⟩
      rw [h1] at h; simpa using h.symm
    · refine ⟨(a, b), mem_pairs.2 ⟨⟨ha, hb⟩, h1, ?_⟩, Or.inl ⟨rfl, rfl⟩, rfl⟩
      rw [h1] at h; simpa using h.symm
  obtain ⟨p, p1, p2, p3⟩ := orient u v hu ha hx
  obtain ⟨z, z1, z2, z3⟩ := orient x y hxn hxy hc
  have hpos := F.wt_pos hxn hxy
  have := two_le_cut (w := C.toGraph.wt) p1 z1 (by rintro rfl; exact hn (z2.trans p2.symm))
  clear p2 z2 hn
  omega

end Facts

/-! ## Petals of a cycle -/

variable {r : Nat} {par : Nat → Nat} {D : Nat → Finset Nat}

open Classical in
/-- The position on the cycle `t, par t, …` (`k` steps) at which `x` hangs. -/
noncomputable def petal (par : Nat → Nat) (D : Nat → Finset Nat) (t k x : Nat) : Nat :=
  Nat.find (p := fun i => k ≤ i ∨ x ∈ D (par^[i] t)) ⟨k, Or.inl le_rfl⟩

theorem petal_le (par : Nat → Nat) (D : Nat → Finset Nat) (t k x : Nat) : petal par D t k x ≤ k := by
  classical
  unfold petal
  exact Nat.find_min' _ (Or.inl le_rfl)

section
variable {t a k : Nat} (T : Tree C r par D) (h : BackEdge C par D t a k)
include T h

theorem iter_lt {i : Nat} (hi : i ≤ k) : par^[i] t < C.n := T.lt h.lt (T.iter h.lt h.mem i (fun j hj => h.first j (by omega))).1

theorem petal_le_iff {x i : Nat} (hi : i < k) : petal par D t k x ≤ i ↔ x ∈ D (par^[i] t) := by
  classical
  constructor
  · intro hp
    have hs : k ≤ petal par D t k x ∨ x ∈ D (par^[petal par D t k x] t) := by
      unfold petal
      exact Nat.find_spec (p := fun i => k ≤ i ∨ x ∈ D (par^[i] t)) ⟨k, Or.inl le_rfl⟩
    rcases hs with hs | hs
    · omega
    · exact T.iter_mono h.lt h.mem h.first hp (by omega) hs
  · intro hx
    unfold petal
    exact Nat.find_min' _ (Or.inr hx)

theorem petal_iter {i : Nat} (hi : i ≤ k) : petal par D t k (par^[i] t) = i := by
  have hself : ∀ i, i ≤ k → par^[i] t ∈ D (par^[i] t) := fun i hi => T.self _ (iter_lt T h hi)
  refine le_antisymm ?_ ?_
  · rcases Nat.lt_or_ge i k with hik | hik
    · exact (petal_le_iff T h hik).2 (hself i hi)
    · have := petal_le par D t k (par^[i] t); omega
  · by_contra hc
    have hj : petal par D t k (par^[i] t) < i := by omega
    set j := petal par D t k (par^[i] t) with hjd
    have h1 := (petal_le_iff T h (x := par^[i] t) (by omega : j < k)).1 (le_of_eq hjd.symm)
    have h2 := T.iter_mono h.lt h.mem h.first (Nat.le_of_lt hj) hi (hself j (by omega))
    have := T.antisymm (iter_lt T h hi) (iter_lt T h (by omega)) h1 h2
    have := T.iter_inj h.lt h.mem h.first hi (by omega) this
    omega

theorem petal_cross (hF : Facts C c) {x y : Nat} (hx : x < C.n) (hxy : C.Adj x y) (hp : petal par D t k x < petal par D t k y) :
    (x = par^[petal par D t k x] t ∧ y = par^[petal par D t k x + 1] t) ∨ (x = t ∧ y = a) := by
  set i := petal par D t k x with hi
  have hik : i < k := lt_of_lt_of_le hp (petal_le par D t k y)
  have hyn := adj_lt hF.cons hx hxy
  have hxD := (petal_le_iff T h (x := x) hik).1 (le_of_eq hi.symm)
  have hyD : y ∉ D (par^[i] t) := fun hc => by have := (petal_le_iff T h hik).2 hc; omega
  by_cases h1 : x = par^[i] t ∧ y = par (par^[i] t)
  · left
    rw [Function.iterate_succ_apply']
    exact h1
  · right
    have htD : t ∈ D (par^[i] t) := (T.iter h.lt h.mem i (fun j hj => h.first j (by omega))).2.1
    have haD : a ∉ D (par^[i] t) := by
      intro hc
      have := T.antisymm (iter_lt T h (by omega : i ≤ k)) h.lt (T.iter h.lt h.mem i (fun j hj => h.first j (by omega))).1 hc
      exact h.first i hik this
    refine T.leave_unique hF.cons hF.cactus (iter_lt T h (by omega : i ≤ k)) hyn h.lt hxD hyD hxy htD haD h.adj h1 ?_
    rintro ⟨e1, e2⟩
    rw [← e1] at e2
    exact h.first 1 (by have := h.two; omega) e2.symm

end

theorem mod_succ_lt {j k : Nat} (h : j % (k + 1) < k) : (j + 1) % (k + 1) = j % (k + 1) + 1 := by
  rw [← Nat.mod_add_mod, Nat.mod_eq_of_lt (by omega)]

theorem mod_succ_eq {j k : Nat} (h : j % (k + 1) = k) : (j + 1) % (k + 1) = 0 := by
  rw [← Nat.mod_add_mod, h, Nat.mod_self]

theorem mod_close {i j L : Nat} (hij : i < j) (hj : j < i + L) : i % L ≠ j % L := by
  intro h
  have h1 := Nat.sub_mod_eq_zero_of_mod_eq h.symm
  rw [Nat.mod_eq_of_lt (by omega)] at h1
  omega

/-- The vertices that hang at the positions `b, …, f - 1` of the cycle. -/
noncomputable def arcSet (par : Nat → Nat) (D : Nat → Finset Nat) (t k b f : Nat) : Nat → Bool :=
  fun x => decide (∃ j ∈ Ico b f, j % (k + 1) = petal par D t k x)

theorem arcSet_iff {t k b f x : Nat} : arcSet par D t k b f x = true ↔ ∃ j, b ≤ j ∧ j < f ∧ j % (k + 1) = petal par D t k x := by
  unfold arcSet
  rw [decide_eq_true_eq]
  constructor
  · rintro ⟨j, hj, h⟩
    rw [Finset.mem_Ico] at hj
    exact ⟨j, hj.1, hj.2, h⟩
  · rintro ⟨j, h1, h2, h⟩
    exact ⟨j, Finset.mem_Ico.2 ⟨h1, h2⟩, h⟩

section
variable {t a k : Nat} (T : Tree C r par D) (h : BackEdge C par D t a k) (hF : Facts C c)
include T h hF

/-- The edges that leave an arc. -/
theorem arc_leave {b f x y : Nat} (hx : x < C.n) (hxy : C.Adj x y) (h1 : arcSet par D t k b f x = true)
    (h2 : arcSet par D t k b f y = false) :
    (x = par^[(f - 1) % (k + 1)] t ∧ y = par^[f % (k + 1)] t) ∨ (x = par^[b % (k + 1)] t ∧ y = par^[(k + 1 + b - 1) % (k + 1)] t) := by
  obtain ⟨j, hbj, hjf, hj⟩ := arcSet_iff.1 h1
  have hy : ∀ i, b ≤ i → i < f → i % (k + 1) ≠ petal par D t k y := fun i hi hi' he => by
    rw [arcSet_iff.2 ⟨i, hi, hi', he⟩] at h2; exact absurd h2 (by simp)
  have hyn := adj_lt hF.cons hx hxy
  -- forwards
  have fwd : ∀ i, (i + 1) % (k + 1) = petal par D t k y → j = i → j + 1 = f := by
    intro i hi he
    by_contra hc
    exact hy (j + 1) (by omega) (by omega) (by rw [he, hi])
  have bwd : ∀ i, i % (k + 1) = petal par D t k y → j = i + 1 → j = b := by
    intro i hi he
    by_contra hc
    exact hy i (by omega) (by omega) hi
  have hpk := petal_le par D t k x
  have hpk' := petal_le par D t k y
  rcases Nat.lt_trichotomy (petal par D t k x) (petal par D t k y) with hp | hp | hp
  · rcases petal_cross T h hF hx hxy hp with ⟨e1, e2⟩ | ⟨e1, e2⟩
    · left
      have e3 : petal par D t k y = petal par D t k x + 1 := by
        have hlt : petal par D t k x + 1 ≤ k := by omega
        have := petal_iter T h hlt
        rwa [← e2] at this
      have hm : (j + 1) % (k + 1) = petal par D t k x + 1 := by rw [mod_succ_lt (by omega), hj]
      have hjf' := fwd j (by rw [hm, e3]) rfl
      have : f - 1 = j := by omega
      rw [this, hj, ← hjf', hm]
      exact ⟨e1, e2⟩
    · right
      have p0 : petal par D t k x = 0 := by
        have := petal_iter T h (Nat.zero_le k)
        rw [e1]; exact this
      have pk : petal par D t k y = k := by
        have := petal_iter T h (le_refl k)
        rw [h.top] at this
        rw [e2]; exact this
      have hjb : j = b := by
        by_contra hc
        obtain ⟨i, rfl⟩ : ∃ i, j = i + 1 := ⟨j - 1, by omega⟩
        have : i % (k + 1) = k := by
          by_contra hn
          have h3 := Nat.mod_lt i (Nat.succ_pos k)
          have := mod_succ_lt (j := i) (k := k) (by simp only [Nat.succ_eq_add_one] at h3; omega)
          omega
        exact hc (bwd i (by rw [this, pk]) rfl)
      subst hjb
      rw [hj, p0]
      refine ⟨e1, ?_⟩
      have : (k + 1 + j - 1) % (k + 1) = k := by
        by_contra hn
        have h3 := Nat.mod_lt (k + 1 + j - 1) (Nat.succ_pos k)
        have := mod_succ_lt (j := k + 1 + j - 1) (k := k) (by simp only [Nat.succ_eq_add_one] at h3; omega)
        have e : k + 1 + j - 1 + 1 = j + (k + 1) := by omega
        rw [e, Nat.add_mod_right] at this
        omega
      rw [this, h.top]
      exact e2
  · exact absurd (by rw [← hp, hj]) (hy j hbj hjf)
  · rcases petal_cross T h hF hyn (adj_symm hF.cons hx hxy) hp with ⟨e1, e2⟩ | ⟨e1, e2⟩
    · right
      have e3 : petal par D t k x = petal par D t k y + 1 := by
        have hlt : petal par D t k y + 1 ≤ k := by omega
        have := petal_iter T h hlt
        rwa [← e2] at this
      have back : ∀ i, (i + 1) % (k + 1) = petal par D t k x → i % (k + 1) = petal par D t k y := by
        intro i hi
        have h3 := Nat.mod_lt i (Nat.succ_pos k)
        simp only [Nat.succ_eq_add_one] at h3
        rcases Nat.lt_or_ge (i % (k + 1)) k with hlt | hge
        · rw [mod_succ_lt hlt] at hi; omega
        · rw [mod_succ_eq (by omega)] at hi; omega
      have hjb : j = b := by
        by_contra hc
        obtain ⟨i, rfl⟩ : ∃ i, j = i + 1 := ⟨j - 1, by omega⟩
        exact hc (bwd i (back i hj) rfl)
      subst hjb
      have h4 := back (k + 1 + j - 1) (by
        have e : k + 1 + j - 1 + 1 = j + (k + 1) := by omega
        rw [e, Nat.add_mod_right, hj])
      rw [hj, h4, e3]
      exact ⟨e2, e1⟩
    · left
      have p0 : petal par D t k y = 0 := by
        have := petal_iter T h (Nat.zero_le k)
        rw [e1]; exact this
      have pk : petal par D t k x = k := by
        have := petal_iter T h (le_refl k)
        rw [h.top] at this
        rw [e2]; exact this
      have hm := mod_succ_eq (j := j) (k := k) (by omega)
      have hjf' := fwd j (by rw [hm, p0]) rfl
      have : f - 1 = j := by omega
      rw [this, hj, ← hjf', hm, pk, h.top]
      exact ⟨e2, e1⟩

omit hF in
theorem arc_ends {b f : Nat} (hbf : b < f) (hf : f < b + (k + 1)) :
    arcSet par D t k b f (par^[(f - 1) % (k + 1)] t) = true ∧ arcSet par D t k b f (par^[f % (k + 1)] t) = false ∧
    arcSet par D t k b f (par^[b % (k + 1)] t) = true ∧ arcSet par D t k b f (par^[(k + 1 + b - 1) % (k + 1)] t) = false := by
  have hp : ∀ i, petal par D t k (par^[i % (k + 1)] t) = i % (k + 1) := fun i =>
    petal_iter T h (Nat.le_of_lt_succ (Nat.mod_lt _ (Nat.succ_pos k)))
  have hno : ∀ i, (∀ j, b ≤ j → j < f → j % (k + 1) ≠ i % (k + 1)) → arcSet par D t k b f (par^[i % (k + 1)] t) = false := by
    intro i hi
    by_contra hc
    obtain ⟨j, a1, a2, a3⟩ := arcSet_iff.1 (by simpa using hc)
    rw [hp] at a3
    exact hi j a1 a2 a3
  refine ⟨arcSet_iff.2 ⟨f - 1, by omega, by omega, (hp _).symm⟩, hno f fun j a1 a2 => mod_close a2 (by omega),
    arcSet_iff.2 ⟨b, le_refl _, hbf, (hp _).symm⟩, hno _ fun j a1 a2 => mod_close (by omega) (by omega)⟩

omit hF in
theorem iter_step (hv : C.Consistent) (i : Nat) : C.Adj (par^[i % (k + 1)] t) (par^[(i + 1) % (k + 1)] t) ∧
    OnCycle (cyc par t k) (par^[i % (k + 1)] t) (par^[(i + 1) % (k + 1)] t) := by
  have hlt : i % (k + 1) < k + 1 := Nat.mod_lt _ (Nat.succ_pos k)
  have hlt' : (i + 1) % (k + 1) < k + 1 := Nat.mod_lt _ (Nat.succ_pos k)
  have h1 := (h.cycle T hv).adj (i % (k + 1)) (by rw [cyc_length]; exact hlt)
  rw [cyc_length, Nat.mod_add_mod, cyc_getD par (by omega), cyc_getD par (by omega)] at h1
  refine ⟨h1, i % (k + 1), by rw [cyc_length]; exact hlt, Or.inl ⟨?_, ?_⟩⟩
  · rw [cyc_getD par (by omega)]
  · rw [cyc_length, Nat.mod_add_mod, cyc_getD par (by omega)]

theorem arc_value {b f : Nat} (hbf : b < f) (hf : f < b + (k + 1)) : cutValue C.n C.toGraph.wt (arcSet par D t k b f) = c := by
  obtain ⟨e1, e2, e3, e4⟩ := arc_ends T h hbf hf
  have hlt : ∀ i, par^[i % (k + 1)] t < C.n := fun i => iter_lt T h (Nat.le_of_lt_succ (Nat.mod_lt _ (Nat.succ_pos k)))
  have hcy := h.cycle T hF.cons
  have s1 := iter_step T h hF.cons (f - 1)
  have s2 := iter_step T h hF.cons (k + 1 + b - 1)
  rw [show f - 1 + 1 = f from by omega] at s1
  rw [show k + 1 + b - 1 + 1 = b + (k + 1) from by omega, Nat.add_mod_right] at s2
  have w1 := hF.wt_in (hlt _) s1.1 ⟨_, hcy, s1.2⟩
  have w2 := hF.wt_in (hlt _) s2.1 ⟨_, hcy, s2.2⟩
  rw [hF.symm] at w2
  have hne : ((par^[(f - 1) % (k + 1)] t, par^[f % (k + 1)] t) : Nat × Nat) ≠ (par^[b % (k + 1)] t, par^[(k + 1 + b - 1) % (k + 1)] t) := by
    intro he
    rw [Prod.mk.injEq] at he
    have inj : ∀ i j, par^[i % (k + 1)] t = par^[j % (k + 1)] t → i % (k + 1) = j % (k + 1) := fun i j he =>
      T.iter_inj h.lt h.mem h.first (Nat.le_of_lt_succ (Nat.mod_lt _ (Nat.succ_pos k))) (Nat.le_of_lt_succ (Nat.mod_lt _ (Nat.succ_pos k))) he
    have i1 := inj _ _ he.1
    have i2 := inj _ _ he.2
    have htwo := h.two
    have : f - 1 = b := by
      by_contra hc
      exact mod_close (by omega : b < f - 1) (by omega) i1.symm
    have : f = b + 1 := by omega
    subst this
    exact mod_close (by omega : b + 1 < k + 1 + b - 1) (by omega) i2
  have := cut_two (w := C.toGraph.wt) (mem_pairs.2 ⟨⟨hlt _, hlt _⟩, e1, e2⟩) (mem_pairs.2 ⟨⟨hlt _, hlt _⟩, e3, e4⟩) hne (by
    intro z hz hw
    obtain ⟨⟨z1, z2⟩, z3, z4⟩ := mem_pairs.1 (show (z.1, z.2) ∈ _ from hz)
    rcases arc_leave T h hF z1 (adj_of_wt z1 hw) z3 z4 with ⟨y1, y2⟩ | ⟨y1, y2⟩
    · left; exact Prod.ext y1 y2
    · right; exact Prod.ext y1 y2)
  rw [this]
  dsimp only
  omega

end

/-! ## Every cut of weight `c` is one of these -/

/-- The weight of a set of vertices. -/
def ws (C : MGraph) (vw : Nat → Nat) (X : Nat → Bool) : Nat := ∑ q ∈ range C.n, if X q = true then vw q else 0

theorem ws_congr {vw : Nat → Nat} {X Y : Nat → Bool} (h : ∀ x, x < C.n → X x = Y x) : ws C vw X = ws C vw Y :=
  Finset.sum_congr rfl fun q hq => by rw [h q (Finset.mem_range.1 hq)]

theorem ws_compl (vw : Nat → Nat) (X : Nat → Bool) : ws C vw X + ws C vw (fun x => !X x) = ∑ q ∈ range C.n, vw q := by
  unfold ws
  rw [← Finset.sum_add_distrib]
  refine Finset.sum_congr rfl fun q _ => ?_
  cases h : X q <;> simp [h]

theorem lighter_border (hF : Facts C c) {vw : Nat → Nat} {X Y : Nat → Bool}
    (h : ∀ x y, x < C.n → C.Adj x y → (X x ≠ X y ↔ Y x ≠ Y y)) :
    lighter (∑ q ∈ range C.n, vw q) (ws C vw X) = lighter (∑ q ∈ range C.n, vw q) (ws C vw Y) := by
  rcases hF.same_border h with h | h
  · rw [ws_congr h]
  · rw [ws_congr (Y := fun x => !Y x) h]
    have := ws_compl (C := C) vw Y
    unfold lighter
    omega

theorem getD_lt (l : List Nat) {i : Nat} (hi : i < l.length) : l.getD i 0 = l[i] := by
  rw [List.getD_eq_getElem?_getD, List.getElem?_eq_getElem hi]; rfl

/-- An edge is an edge to a parent or a back edge. -/
theorem Tree.edge_cases (T : Tree C r par D) (hv : C.Consistent) {x y : Nat} (hx : x < C.n) (h : C.Adj x y) :
    (∃ v, v < C.n ∧ v ≠ r ∧ Same x y v (par v)) ∨ ∃ t a k, BackEdge C par D t a k ∧ Same x y t a := by
  have hy := adj_lt hv hx h
  have hne := adj_ne hv hx h
  rcases T.edge x y hx h with hm | hm
  · by_cases hp : par y = x
    · exact Or.inl ⟨y, hy, T.ne_root hx hm (Ne.symm hne), Or.inr ⟨hp.symm, rfl⟩⟩
    · obtain ⟨k, _, hb⟩ := T.backEdge hx hm (adj_symm hv hx h) (Ne.symm hne) hp
      exact Or.inr ⟨y, x, k, hb, Or.inr ⟨rfl, rfl⟩⟩
  · by_cases hp : par x = y
    · exact Or.inl ⟨x, hx, T.ne_root hy hm hne, Or.inl ⟨rfl, hp.symm⟩⟩
    · obtain ⟨k, _, hb⟩ := T.backEdge hy hm h hne hp
      exact Or.inr ⟨x, y, k, hb, Or.inl ⟨rfl, rfl⟩⟩

theorem onCycle_same {l : List Nat} {x y u v : Nat} (h : OnCycle l u v) (hs : Same x y u v) : OnCycle l x y := by
  obtain ⟨i, hi, h⟩ := h
  unfold Same at hs
  refine ⟨i, hi, ?_⟩
  rcases hs with ⟨rfl, rfl⟩ | ⟨rfl, rfl⟩
  · exact h
  · tauto

/-- Different positions of a cycle are different edges. -/
theorem cycle_edge_inj {l : List Nat} (hl : IsCycle C l) {i j : Nat} (hi : i < l.length) (hj : j < l.length)
    (h : Same (l.getD i 0) (l.getD ((i + 1) % l.length) 0) (l.getD j 0) (l.getD ((j + 1) % l.length) 0)) : i = j := by
  have inj : ∀ a b, a < l.length → b < l.length → l.getD a 0 = l.getD b 0 → a = b := by
    intro a b ha hb he
    rw [getD_lt _ ha, getD_lt _ hb] at he
    exact (List.Nodup.getElem_inj_iff hl.nodup).1 he
  have h3 := hl.three
  rcases h with ⟨h1, _⟩ | ⟨h1, h2⟩
  · exact inj i j hi hj h1
  · have e1 := inj _ _ hi (Nat.mod_lt _ (by omega)) h1
    have e2 := inj _ _ (Nat.mod_lt _ (by omega)) hj h2
    exfalso
    rcases Nat.lt_or_ge (i + 1) l.length with a | a <;> rcases Nat.lt_or_ge (j + 1) l.length with b | b
    · rw [Nat.mod_eq_of_lt b] at e1; rw [Nat.mod_eq_of_lt a] at e2; omega
    · have : j + 1 = l.length := by omega
      rw [this, Nat.mod_self] at e1; rw [Nat.mod_eq_of_lt a] at e2; omega
    · have : i + 1 = l.length := by omega
      rw [Nat.mod_eq_of_lt b] at e1; rw [this, Nat.mod_self] at e2; omega
    · have : j + 1 = l.length := by omega
      rw [this, Nat.mod_self] at e1; omega

/-- An edge on a cycle lies on the cycle of a back edge. -/
theorem Tree.on_back (T : Tree C r par D) (hF : Facts C c) {x y : Nat} (hx : x < C.n) (hxy : C.Adj x y)
    (ho : ∃ l, IsCycle C l ∧ OnCycle l x y) : ∃ t a k, BackEdge C par D t a k ∧ OnCycle (cyc par t k) x y := by
  rcases T.edge_cases hF.cons hx hxy with ⟨v, hv, hvr, hs⟩ | ⟨t, a, k, hb, hs⟩
  · obtain ⟨l, hl, hlo⟩ := ho
    have hlo' : OnCycle l v (par v) := onCycle_same hlo hs.symm
    obtain ⟨i, hi, hvi⟩ := hlo'
    have hpn := T.par_not v hv hvr
    have hsv := T.self v hv
    have hcr : decide (l.getD i 0 ∈ D v) ≠ decide (l.getD ((i + 1) % l.length) 0 ∈ D v) := by
      rcases hvi with ⟨a1, a2⟩ | ⟨a1, a2⟩
      · rw [← a1, ← a2]; simp [hpn, hsv]
      · rw [← a1, ← a2]; simp [hpn, hsv]
    obtain ⟨j, hj, hji, hcj⟩ := cycle_crosses (X := fun z => decide (z ∈ D v)) hi hcr
    replace hcj : decide (l.getD j 0 ∈ D v) ≠ decide (l.getD ((j + 1) % l.length) 0 ∈ D v) := hcj
    have key : ∀ x' y', x' < C.n → y' < C.n → C.Adj x' y' → x' ∈ D v → y' ∉ D v → Same x' y' (l.getD j 0) (l.getD ((j + 1) % l.length) 0) →
        ∃ t a k, BackEdge C par D t a k ∧ OnCycle (cyc par t k) x y := by
      intro x' y' hx' hy' ha hin hout hsame
      rcases T.leave hv hy' hin hout ha with ⟨e1, e2⟩ | ⟨k, hb, hon⟩
      · exfalso
        refine hji (cycle_edge_inj hl hj hi ?_)
        have q1 : Same x' y' v (par v) := Or.inl ⟨e1, e2⟩
        have q2 : Same v (par v) (l.getD i 0) (l.getD ((i + 1) % l.length) 0) := by
          rcases hvi with ⟨b1, b2⟩ | ⟨b1, b2⟩
          · exact Or.inl ⟨b1, b2⟩
          · exact Or.inr ⟨b2.symm ▸ rfl, b1.symm ▸ rfl⟩
        exact hsame.symm.trans (q1.trans q2)
      · exact ⟨_, _, k, hb, onCycle_same hon hs⟩
    have hlt : ∀ i, i < l.length → l.getD i 0 < C.n := fun i hi => hl.lt _ (by rw [getD_lt _ hi]; exact List.getElem_mem hi)
    have hj' := hlt j hj
    have hj'' := hlt ((j + 1) % l.length) (Nat.mod_lt _ (by omega))
    have hadj := hl.adj j hj
    by_cases hin : l.getD j 0 ∈ D v
    · refine key _ _ hj' hj'' hadj hin ?_ (Or.inl ⟨rfl, rfl⟩)
      intro hc; exact hcj (by rw [decide_eq_true hin, decide_eq_true hc])
    · refine key _ _ hj'' hj' (adj_symm hF.cons hj' hadj) ?_ hin (Or.inr ⟨rfl, rfl⟩)
      by_contra hc; exact hcj (by rw [decide_eq_false hin, decide_eq_false hc])
  · exact ⟨t, a, k, hb, onCycle_same hb.on_close hs⟩

/-- The search sees every cut of weight `c`. -/
theorem Tree.covered (T : Tree C r par D) (hF : Facts C c) {vw : Nat → Nat} {w : Nat}
    (h1 : ∀ v, v < C.n → v ≠ r → C.toGraph.wt v (par v) = c →
      lighter (∑ q ∈ range C.n, vw q) (ws C vw fun x => decide (x ∈ D v)) ≤ w)
    (h2 : ∀ t a k, BackEdge C par D t a k → ∀ b f, b < f → f ≤ k + 1 → f < b + (k + 1) →
      lighter (∑ q ∈ range C.n, vw q) (ws C vw (arcSet par D t k b f)) ≤ w)
    {X : Nat → Bool} (hX : ProperCut C.n X) (hc : cutValue C.n C.toGraph.wt X = c) :
    lighter (∑ q ∈ range C.n, vw q) (ws C vw X) ≤ w := by
  have hpos := hF.pos
  obtain ⟨p, hp, hw⟩ : ∃ p ∈ pairs C.n X, C.toGraph.wt p.1 p.2 ≠ 0 := by
    by_contra hn
    push Not at hn
    rw [cutValue_pairs, Finset.sum_eq_zero hn] at hc
    omega
  obtain ⟨⟨a1, a2⟩, a3, a4⟩ := mem_pairs.1 (show (p.1, p.2) ∈ _ from hp)
  obtain ⟨x, y⟩ := p
  dsimp only at *
  have hxy := adj_of_wt a1 hw
  have hne : X x ≠ X y := by rw [a3, a4]; simp
  by_cases ho : ∃ l, IsCycle C l ∧ OnCycle l x y
  · obtain ⟨t, a, k, hb, hon⟩ := T.on_back hF a1 hxy ho
    obtain ⟨i, hi, hxi⟩ := hon
    have hcy := hb.cycle T hF.cons
    have hci : X ((cyc par t k).getD i 0) ≠ X ((cyc par t k).getD ((i + 1) % (cyc par t k).length) 0) := by
      rcases hxi with ⟨e1, e2⟩ | ⟨e1, e2⟩
      · rw [← e1, ← e2]; exact hne
      · rw [← e1, ← e2]; exact hne.symm
    obtain ⟨j, hj, hji, hcj⟩ := cycle_crosses hi hci
    -- both positions, in order
    have key : ∀ i j, i < j → j < (cyc par t k).length → X ((cyc par t k).getD i 0) ≠ X ((cyc par t k).getD ((i + 1) % (cyc par t k).length) 0) →
        X ((cyc par t k).getD j 0) ≠ X ((cyc par t k).getD ((j + 1) % (cyc par t k).length) 0) →
        lighter (∑ q ∈ range C.n, vw q) (ws C vw X) ≤ w := by
      intro i j hij hj hci hcj
      have hdiff : ¬ Same ((cyc par t k).getD i 0) ((cyc par t k).getD ((i + 1) % (cyc par t k).length) 0) ((cyc par t k).getD j 0)
          ((cyc par t k).getD ((j + 1) % (cyc par t k).length) 0) := fun hs => by
        have := cycle_edge_inj hcy (by omega) hj hs; omega
      rw [cyc_length] at hj hci hcj hdiff
      have hm : ∀ i, (cyc par t k).getD (i % (k + 1)) 0 = par^[i % (k + 1)] t := fun i =>
        cyc_getD par (Nat.le_of_lt_succ (Nat.mod_lt _ (Nat.succ_pos k)))
      have hmi : (cyc par t k).getD i 0 = par^[i % (k + 1)] t := by rw [← hm, Nat.mod_eq_of_lt (by omega)]
      have hmj : (cyc par t k).getD j 0 = par^[j % (k + 1)] t := by rw [← hm, Nat.mod_eq_of_lt (by omega)]
      rw [hmi, hm] at hci hdiff
      rw [hmj, hm] at hcj hdiff
      have hlt : ∀ i, par^[i % (k + 1)] t < C.n := fun i => iter_lt T hb (Nat.le_of_lt_succ (Nat.mod_lt _ (Nat.succ_pos k)))
      have s1 := iter_step T hb hF.cons i
      have s2 := iter_step T hb hF.cons j
      have w1 := hF.wt_in (hlt _) s1.1 ⟨_, hcy, s1.2⟩
      have w2 := hF.wt_in (hlt _) s2.1 ⟨_, hcy, s2.2⟩
      obtain ⟨e1, e2, e3, e4⟩ := arc_ends T hb (b := i + 1) (f := j + 1) (by omega) (by omega)
      have eb : (k + 1 + (i + 1) - 1) % (k + 1) = i % (k + 1) := by
        rw [show k + 1 + (i + 1) - 1 = i + (k + 1) from by omega, Nat.add_mod_right]
      rw [eb] at e4
      rw [Nat.add_sub_cancel] at e1
      rw [lighter_border hF (Y := arcSet par D t k (i + 1) (j + 1))]
      · exact h2 t a k hb _ _ (by omega) (by omega) (by omega)
      · intro u v hu huv
        have hvn := adj_lt hF.cons hu huv
        constructor
        · intro hcuv
          rcases hF.two_cross hc (hlt _) (hlt _) s1.1 s2.1 hci hcj w1 w2 hdiff hu huv hcuv with (⟨rfl, rfl⟩ | ⟨rfl, rfl⟩) | (⟨rfl, rfl⟩ | ⟨rfl, rfl⟩)
          · rw [e3, e4]; simp
          · rw [e3, e4]; simp
          · rw [e1, e2]; simp
          · rw [e1, e2]; simp
        · intro hcuv
          have go : ∀ u v, u < C.n → C.Adj u v → arcSet par D t k (i + 1) (j + 1) u = true → arcSet par D t k (i + 1) (j + 1) v = false → X u ≠ X v := by
            intro u v hu huv q1 q2
            rcases arc_leave T hb hF hu huv q1 q2 with ⟨rfl, rfl⟩ | ⟨rfl, rfl⟩
            · rw [Nat.add_sub_cancel]; exact hcj
            · rw [eb]; exact hci.symm
          cases q1 : arcSet par D t k (i + 1) (j + 1) u <;> cases q2 : arcSet par D t k (i + 1) (j + 1) v
          · exact absurd (by rw [q1, q2]) hcuv
          · exact (go v u hvn (adj_symm hF.cons hu huv) q2 q1).symm
          · exact go u v hu huv q1 q2
          · exact absurd (by rw [q1, q2]) hcuv
    rcases Nat.lt_or_gt_of_ne hji with hlt | hlt
    · exact key j i hlt hi hcj hci
    · exact key i j hlt hj hci hcj
  · have hwc := hF.wt_out a1 hxy ho
    rcases T.edge_cases hF.cons a1 hxy with ⟨v, hv, hvr, hs⟩ | ⟨t, a, k, hb, hs⟩
    · have hno : ¬ ∃ l, IsCycle C l ∧ OnCycle l v (par v) := fun ⟨l, hl, hlo⟩ => ho ⟨l, hl, onCycle_same hlo hs⟩
      have hwv : C.toGraph.wt v (par v) = c := hF.wt_out hv (T.par_adj v hv hvr) hno
      rw [lighter_border hF (Y := fun z => decide (z ∈ D v))]
      · exact h1 v hv hvr hwv
      · intro u u' hu huv
        have hu' := adj_lt hF.cons hu huv
        have hpn := T.par_not v hv hvr
        have hsv := T.self v hv
        constructor
        · intro hcu
          have hse := hF.one_cross hc a1 hxy hne hwc hu huv hcu
          have : Same u u' v (par v) := hse.trans hs
          rcases this with ⟨rfl, rfl⟩ | ⟨rfl, rfl⟩
          · simp [hpn, hsv]
          · simp [hpn, hsv]
        · intro hcu
          have fin : Same u u' v (par v) → X u ≠ X u' := by
            intro hse
            have hse' : Same u u' x y := hse.trans hs.symm
            rcases hse' with ⟨rfl, rfl⟩ | ⟨rfl, rfl⟩
            · exact hne
            · exact hne.symm
          by_cases q1 : u ∈ D v <;> by_cases q2 : u' ∈ D v
          · simp [q1, q2] at hcu
          · exact fin (Or.inl (T.leave_bridge hF.cons hv hu' q1 q2 huv hno))
          · have := T.leave_bridge hF.cons hv hu q2 q1 (adj_symm hF.cons hu huv) hno
            exact fin (Or.inr ⟨this.2, this.1⟩)
          · simp [q1, q2] at hcu
    · exact absurd ⟨_, hb.cycle T hF.cons, onCycle_same hb.on_close hs⟩ ho

end Balanced
end VieCut
