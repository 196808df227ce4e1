import Verif.Proof.LowDegree
import Verif.Spec.Balanced

/-! # Depth-first search trees of a cactus -/

namespace VieCut
namespace Balanced
open Finset MGraph

variable {C : MGraph} {c : Nat}

theorem adj_symm (hv : C.Consistent) {x y : Nat} (hx : x < C.n) (h : C.Adj x y) : C.Adj y x := by
  obtain ⟨e, he, rfl⟩ := h
  exact ⟨(C.edge x e).rev, hv.partner x e hx he, (hv.back x e hx he).1⟩

theorem adj_lt (hv : C.Consistent) {x y : Nat} (hx : x < C.n) (h : C.Adj x y) : y < C.n := by
  obtain ⟨e, he, rfl⟩ := h
  exact hv.target x e hx he

theorem adj_ne (hv : C.Consistent) {x y : Nat} (hx : x < C.n) (h : C.Adj x y) : x ≠ y := by
  obtain ⟨e, he, rfl⟩ := h
  exact (hv.noLoop x e hx he).symm

theorem adj_of_wt {x y : Nat} (hx : x < C.n) (h : C.toGraph.wt x y ≠ 0) : C.Adj x y := by
  by_contra hn
  refine h ?_
  unfold Graph.wt
  rw [toGraph_edges C hx]
  have : ((List.range (C.len x)).map fun e => ((C.edge x e).target, (C.edge x e).weight)).filter (fun e => e.1 == y) = [] := by
    rw [List.filter_eq_nil_iff]
    intro a ha
    rw [List.mem_map] at ha
    obtain ⟨e, he, rfl⟩ := ha
    intro h
    exact hn ⟨e, List.mem_range.1 he, by simpa using h⟩
  rw [this]; rfl

/-- What the search leaves behind: parents and, for every vertex, the vertices found from it. -/
structure Tree (C : MGraph) (r : Nat) (par : Nat → Nat) (D : Nat → Finset Nat) : Prop where
  root : r < C.n
  all : D r = range C.n
  self : ∀ x, x < C.n → x ∈ D x
  sub : ∀ x, x < C.n → D x ⊆ range C.n
  trans : ∀ x, x < C.n → ∀ y ∈ D x, D y ⊆ D x
  up : ∀ x, x < C.n → ∀ y ∈ D x, y ≠ x → par y ∈ D x
  par_lt : ∀ x, x < C.n → x ≠ r → par x < C.n
  par_mem : ∀ x, x < C.n → x ≠ r → D x ⊆ D (par x)
  par_not : ∀ x, x < C.n → x ≠ r → par x ∉ D x
  par_adj : ∀ x, x < C.n → x ≠ r → C.Adj x (par x)
  edge : ∀ x y, x < C.n → C.Adj x y → y ∈ D x ∨ x ∈ D y

namespace Tree
variable {r : Nat} {par : Nat → Nat} {D : Nat → Finset Nat} (T : Tree C r par D)
include T

theorem lt {x y : Nat} (hx : x < C.n) (h : y ∈ D x) : y < C.n := Finset.mem_range.1 (T.sub x hx h)

theorem ne_root {x y : Nat} (hx : x < C.n) (h : y ∈ D x) (hne : y ≠ x) : y ≠ r := by
  rintro rfl
  have h1 := T.trans x hx y h
  rw [T.all] at h1
  exact T.par_not x hx (Ne.symm hne) (h1 (Finset.mem_range.2 (T.par_lt x hx (Ne.symm hne))))

theorem antisymm {x y : Nat} (hx : x < C.n) (hy : y < C.n) (h1 : x ∈ D y) (h2 : y ∈ D x) : x = y := by
  by_contra hne
  exact T.par_not x hx (T.ne_root hy h1 hne) (T.trans x hx y h2 (T.up y hy x h1 hne))

/-- Climbing from `t` inside the set of `a`. -/
theorem iter {t a : Nat} (ha : a < C.n) (ht : t ∈ D a) : ∀ i, (∀ j, j < i → par^[j] t ≠ a) →
    par^[i] t ∈ D a ∧ t ∈ D (par^[i] t) ∧ i < (D (par^[i] t)).card := by
  intro i
  induction i with
  | zero =>
    intro _
    have h := T.self t (T.lt ha ht)
    exact ⟨ht, h, Finset.card_pos.2 ⟨t, h⟩⟩
  | succ i ih =>
    intro h
    obtain ⟨h1, h2, h3⟩ := ih (fun j hj => h j (by omega))
    have hne := h i (by omega)
    have hlt := T.lt ha h1
    have hr := T.ne_root ha h1 hne
    rw [Function.iterate_succ_apply']
    refine ⟨T.up a ha _ h1 hne, T.par_mem _ hlt hr h2, ?_⟩
    have := Finset.card_lt_card (Finset.ssubset_iff_subset_ne.2 ⟨T.par_mem _ hlt hr, fun he =>
      T.par_not _ hlt hr (by rw [he]; exact T.self _ (T.par_lt _ hlt hr))⟩)
    omega

/-- The number of steps from `t` up to `a`. -/
theorem exists_iter {t a : Nat} (ha : a < C.n) (ht : t ∈ D a) :
    ∃ k, k < C.n ∧ par^[k] t = a ∧ ∀ j, j < k → par^[j] t ≠ a := by
  classical
  have hex : ∃ k, par^[k] t = a := by
    by_contra hn
    have := T.iter ha ht C.n (fun j _ he => hn ⟨j, he⟩)
    have h2 := Finset.card_le_card (T.sub _ (T.lt ha this.1))
    rw [Finset.card_range] at h2
    omega
  refine ⟨Nat.find hex, ?_, Nat.find_spec hex, fun j hj => Nat.find_min hex hj⟩
  have h := (T.iter ha ht (Nat.find hex) (fun j hj => Nat.find_min hex hj)).2.2
  rw [Nat.find_spec hex] at h
  have h2 := Finset.card_le_card (T.sub _ ha)
  rw [Finset.card_range] at h2
  omega

theorem comparable {x v y : Nat} (hv : v < C.n) (hy : y < C.n) (h1 : x ∈ D v) (h2 : x ∈ D y) : v ∈ D y ∨ y ∈ D v := by
  obtain ⟨k, _, hk, hmin⟩ := T.exists_iter hv h1
  obtain ⟨m, _, hm, hmin'⟩ := T.exists_iter hy h2
  rcases Nat.le_total k m with h | h
  · left
    have := (T.iter hy h2 k (fun j hj => hmin' j (by omega))).1
    rwa [hk] at this
  · right
    have := (T.iter hv h1 m (fun j hj => hmin j (by omega))).1
    rwa [hm] at this

theorem iter_inj {t a k : Nat} (ha : a < C.n) (ht : t ∈ D a) (hmin : ∀ j, j < k → par^[j] t ≠ a) {i j : Nat} (hi : i ≤ k) (hj : j ≤ k)
    (h : par^[i] t = par^[j] t) : i = j := by
  have key : ∀ i j, i < j → j ≤ k → par^[i] t ≠ par^[j] t := by
    intro i j hij hj
    have hmono : ∀ d, i + d < k → par^[i + d + 1] t ∉ D (par^[i] t) ∧ D (par^[i] t) ⊆ D (par^[i + d] t) := by
      intro d
      induction d with
      | zero =>
        intro hd
        have h1 := T.iter ha ht i (fun j hj => hmin j (by omega))
        have hne := hmin i (by omega)
        rw [Nat.add_zero, Function.iterate_succ_apply']
        exact ⟨T.par_not _ (T.lt ha h1.1) (T.ne_root ha h1.1 hne), Finset.Subset.refl _⟩
      | succ d ih =>
        intro hd
        obtain ⟨_, i2⟩ := ih (by omega)
        have h1 := T.iter ha ht (i + d) (fun j hj => hmin j (by omega))
        have hs := T.par_mem _ (T.lt ha h1.1) (T.ne_root ha h1.1 (hmin (i + d) (by omega)))
        have h2 := T.iter ha ht (i + (d + 1)) (fun j hj => hmin j (by omega))
        have hs' : D (par^[i] t) ⊆ D (par^[i + (d + 1)] t) := by
          have : i + (d + 1) = (i + d) + 1 := by omega
          rw [this, Function.iterate_succ_apply']
          exact i2.trans hs
        refine ⟨?_, hs'⟩
        rw [Function.iterate_succ_apply']
        exact fun hc => T.par_not _ (T.lt ha h2.1) (T.ne_root ha h2.1 (hmin _ (by omega))) (hs' hc)
    intro he
    obtain ⟨d, rfl⟩ : ∃ d, j = i + d + 1 := ⟨j - i - 1, by omega⟩
    have h1 := (hmono d (by omega)).1
    rw [← he] at h1
    exact h1 (T.self _ (T.lt ha (T.iter ha ht i (fun j hj => hmin j (by omega))).1))
  rcases Nat.lt_trichotomy i j with hlt | heq | hgt
  · exact absurd h (key i j hlt hj)
  · exact heq
  · exact absurd h.symm (key j i hgt hi)

theorem iter_mono {t a k : Nat} (ha : a < C.n) (ht : t ∈ D a) (hmin : ∀ j, j < k → par^[j] t ≠ a) {i j : Nat} (hij : i ≤ j) (hj : j ≤ k) :
    D (par^[i] t) ⊆ D (par^[j] t) := by
  induction j with
  | zero => rw [Nat.le_zero.1 hij]
  | succ j ih =>
    rcases Nat.lt_succ_iff_lt_or_eq.1 (Nat.lt_succ_of_le hij) with h | rfl
    · have h1 := T.iter ha ht j (fun j hj => hmin j (by omega))
      have hs := T.par_mem _ (T.lt ha h1.1) (T.ne_root ha h1.1 (hmin j (by omega)))
      rw [Function.iterate_succ_apply']
      exact (ih (by omega) (by omega)).trans hs
    · exact Finset.Subset.refl _

end Tree

/-- The vertices from `t` upwards, `k` steps. -/
def cyc (par : Nat → Nat) (t k : Nat) : List Nat := (List.range (k + 1)).map fun i => par^[i] t

theorem cyc_length (par : Nat → Nat) (t k : Nat) : (cyc par t k).length = k + 1 := by simp [cyc]

theorem cyc_getD (par : Nat → Nat) {t k i : Nat} (hi : i ≤ k) : (cyc par t k).getD i 0 = par^[i] t := by
  unfold cyc
  rw [List.getD_eq_getElem?_getD, List.getElem?_map, List.getElem?_range (by omega)]
  rfl

/-- `t` has an edge to `a`, an ancestor that is not its parent; `a` is `k` steps up. -/
structure BackEdge (C : MGraph) (par : Nat → Nat) (D : Nat → Finset Nat) (t a k : Nat) : Prop where
  lt : a < C.n
  mem : t ∈ D a
  adj : C.Adj t a
  top : par^[k] t = a
  first : ∀ j, j < k → par^[j] t ≠ a
  two : 2 ≤ k

variable {r : Nat} {par : Nat → Nat} {D : Nat → Finset Nat}

theorem Tree.backEdge (T : Tree C r par D) {t a : Nat} (ha : a < C.n) (ht : t ∈ D a) (hadj : C.Adj t a) (hne : t ≠ a) (hp : par t ≠ a) :
    ∃ k, k < C.n ∧ BackEdge C par D t a k := by
  obtain ⟨k, hkn, hk, hmin⟩ := T.exists_iter ha ht
  refine ⟨k, hkn, ha, ht, hadj, hk, hmin, ?_⟩
  rcases k with _ | _ | k
  · exact absurd hk hne
  · exact absurd hk hp
  · omega

theorem BackEdge.cycle (T : Tree C r par D) (hv : C.Consistent) {t a k : Nat} (h : BackEdge C par D t a k) : IsCycle C (cyc par t k) := by
  have hlt : ∀ i, i ≤ k → par^[i] t < C.n := fun i hi => T.lt h.lt (T.iter h.lt h.mem i (fun j hj => h.first j (by omega))).1
  refine ⟨by rw [cyc_length]; have := h.two; omega, ?_, ?_, ?_⟩
  · unfold cyc
    refine (List.nodup_map_iff_inj_on List.nodup_range).2 ?_
    intro i hi j hj he
    have := List.mem_range.1 hi
    have := List.mem_range.1 hj
    exact T.iter_inj h.lt h.mem h.first (by omega) (by omega) he
  · intro x hx
    unfold cyc at hx
    obtain ⟨i, hi, rfl⟩ := List.mem_map.1 hx
    exact hlt i (by have := List.mem_range.1 hi; omega)
  · intro i hi
    rw [cyc_length] at hi ⊢
    rw [cyc_getD par (by omega)]
    rcases Nat.lt_or_ge i k with hik | hik
    · rw [Nat.mod_eq_of_lt (by omega), cyc_getD par (by omega), Function.iterate_succ_apply']
      have h1 := T.iter h.lt h.mem i (fun j hj => h.first j (by omega))
      exact T.par_adj _ (T.lt h.lt h1.1) (T.ne_root h.lt h1.1 (h.first i hik))
    · have : i = k := by omega
      rw [this, Nat.mod_self, cyc_getD par (by omega), h.top]
      exact adj_symm hv (T.lt h.lt h.mem) h.adj

theorem BackEdge.on_close {t a k : Nat} (h : BackEdge C par D t a k) : OnCycle (cyc par t k) t a := by
  refine ⟨k, by rw [cyc_length]; omega, Or.inr ⟨?_, ?_⟩⟩
  · rw [cyc_getD par (le_refl _), h.top]
  · rw [cyc_length, Nat.mod_self, cyc_getD par (by omega)]; rfl

theorem BackEdge.on_step {t a k i : Nat} (_ : BackEdge C par D t a k) (hi : i < k) : OnCycle (cyc par t k) (par^[i] t) (par^[i + 1] t) := by
  refine ⟨i, by rw [cyc_length]; omega, Or.inl ⟨?_, ?_⟩⟩
  · rw [cyc_getD par (by omega)]
  · rw [cyc_length, Nat.mod_eq_of_lt (by omega), cyc_getD par (by omega)]

theorem BackEdge.on_cases {t a k x y : Nat} (h : BackEdge C par D t a k) (ho : OnCycle (cyc par t k) x y) :
    (∃ i, i < k ∧ ((x = par^[i] t ∧ y = par^[i + 1] t) ∨ (y = par^[i] t ∧ x = par^[i + 1] t))) ∨ (x = t ∧ y = a) ∨ (x = a ∧ y = t) := by
  obtain ⟨i, hi, ho⟩ := ho
  rw [cyc_length] at hi ho
  rw [cyc_getD par (by omega)] at ho
  rcases Nat.lt_or_ge i k with hik | hik
  · left
    rw [Nat.mod_eq_of_lt (by omega), cyc_getD par (by omega)] at ho
    exact ⟨i, hik, ho⟩
  · right
    have : i = k := by omega
    rw [this, Nat.mod_self, cyc_getD par (by omega), h.top] at ho
    rcases ho with ⟨a1, a2⟩ | ⟨a1, a2⟩
    · exact Or.inr ⟨a1, a2⟩
    · exact Or.inl ⟨a2, a1⟩

/-- An edge that leaves the set of `v`: the edge to the parent, or one that closes a cycle through this edge. -/
theorem Tree.leave (T : Tree C r par D) {v x y : Nat} (hlt : v < C.n) (hyn : y < C.n) (hx : x ∈ D v) (hy : y ∉ D v)
    (hadj : C.Adj x y) : (x = v ∧ y = par v) ∨ ∃ k, BackEdge C par D x y k ∧ OnCycle (cyc par x k) v (par v) := by
  have hxn := T.lt hlt hx
  have hxy : x ∈ D y := by
    rcases T.edge x y hxn hadj with h | h
    · exact absurd (T.trans v hlt x hx h) hy
    · exact h
  have hvy : v ∈ D y := by
    rcases T.comparable hlt hyn hx hxy with h | h
    · exact h
    · exact absurd h hy
  have hne : v ≠ y := by rintro rfl; exact hy (T.self v hlt)
  obtain ⟨k, _, hk, hmin⟩ := T.exists_iter hyn hxy
  obtain ⟨m, _, hm, hmin'⟩ := T.exists_iter hlt hx
  have hmk : m < k := by
    by_contra hc
    have := (T.iter hlt hx k (fun j hj => hmin' j (by omega))).1
    rw [hk] at this
    exact hy this
  rcases k with _ | _ | k
  · omega
  · left
    have : m = 0 := by omega
    subst this
    have h1 : x = v := hm
    have h2 : par x = y := hk
    exact ⟨h1, by rw [← h1, h2]⟩
  · right
    have hb : BackEdge C par D x y (k + 2) := ⟨hyn, hxy, hadj, hk, hmin, by omega⟩
    refine ⟨k + 2, hb, ?_⟩
    have := hb.on_step hmk
    rw [Function.iterate_succ_apply', hm] at this
    exact this

theorem Tree.leave_unique (T : Tree C r par D) (hv : C.Consistent) (hc : IsCactus C c) {v x y x' y' : Nat} (hlt : v < C.n)
    (hyn : y < C.n) (hyn' : y' < C.n) (hx : x ∈ D v) (hy : y ∉ D v) (hadj : C.Adj x y) (hx' : x' ∈ D v) (hy' : y' ∉ D v) (hadj' : C.Adj x' y')
    (hn : ¬ (x = v ∧ y = par v)) (hn' : ¬ (x' = v ∧ y' = par v)) : x = x' ∧ y = y' := by
  rcases T.leave hlt hyn hx hy hadj with h | ⟨k, hb, ho⟩
  · exact absurd h hn
  rcases T.leave hlt hyn' hx' hy' hadj' with h | ⟨k', hb', ho'⟩
  · exact absurd h hn'
  have h := hc.unique _ _ (hb.cycle T hv) (hb'.cycle T hv) ⟨_, _, ho, ho'⟩ _ _ hb.on_close
  rcases hb'.on_cases h with ⟨i, hi, ⟨h1, h2⟩ | ⟨h1, h2⟩⟩ | ⟨h1, h2⟩ | ⟨h1, h2⟩
  · exfalso
    rw [Function.iterate_succ_apply', ← h1] at h2
    exact hb.first 1 (by have := hb.two; omega) h2.symm
  · exfalso
    have h3 := T.iter hb'.lt hb'.mem i (fun j hj => hb'.first j (by omega))
    rw [Function.iterate_succ_apply', ← h1] at h2
    rw [← h1] at h3
    have hne := hb'.first i hi
    rw [← h1] at hne
    have := T.par_mem y hyn (T.ne_root hb'.lt h3.1 hne) (T.self y hyn)
    rw [← h2] at this
    exact hy (T.trans v hlt x hx this)
  · exact ⟨h1, h2⟩
  · rw [h1] at hx
    exact absurd hx hy'

/-- Without a cycle through the edge to the parent, this is the only edge that leaves. -/
theorem Tree.leave_bridge (T : Tree C r par D) (hv : C.Consistent) {v x y : Nat} (hlt : v < C.n)
    (hyn : y < C.n) (hx : x ∈ D v) (hy : y ∉ D v) (hadj : C.Adj x y) (hno : ¬ ∃ l, IsCycle C l ∧ OnCycle l v (par v)) : x = v ∧ y = par v := by
  rcases T.leave hlt hyn hx hy hadj with h | ⟨k, hb, ho⟩
  · exact h
  · exact absurd ⟨_, hb.cycle T hv, ho⟩ hno

/-- A cycle that leaves a set at one place crosses its border at another. -/
theorem cycle_crosses {l : List Nat} {X : Nat → Bool} {i : Nat} (hi : i < l.length)
    (h : X (l.getD i 0) ≠ X (l.getD ((i + 1) % l.length) 0)) :
    ∃ j, j < l.length ∧ j ≠ i ∧ X (l.getD j 0) ≠ X (l.getD ((j + 1) % l.length) 0) := by
  by_contra hn
  push Not at hn
  have key : ∀ d, d < l.length → X (l.getD ((i + 1 + d) % l.length) 0) = X (l.getD ((i + 1) % l.length) 0) := by
    intro d
    induction d with
    | zero => intro _; rw [Nat.add_zero]
    | succ d ih =>
      intro hd
      have h1 := ih (by omega)
      have h2 := hn ((i + 1 + d) % l.length) (Nat.mod_lt _ (by omega)) (by
        intro he
        rcases Nat.lt_or_ge (i + 1 + d) l.length with hlt | hge
        · rw [Nat.mod_eq_of_lt hlt] at he; omega
        · rw [Nat.mod_eq_sub_mod hge, Nat.mod_eq_of_lt (by omega)] at he; omega)
      rw [← h1, h2]
      congr 2
      rw [Nat.mod_add_mod]
      congr 1
  have := key (l.length - 1) (by omega)
  have e : (i + 1 + (l.length - 1)) % l.length = i := by
    have : i + 1 + (l.length - 1) = i + l.length := by omega
    rw [this, Nat.add_mod_right, Nat.mod_eq_of_lt hi]
  rw [e] at this
  exact h this

end Balanced
end VieCut
