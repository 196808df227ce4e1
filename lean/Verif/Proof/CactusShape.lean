import Verif.Proof.BalancedCuts
import Mathlib.Combinatorics.SimpleGraph.Paths
import Mathlib.Combinatorics.SimpleGraph.Connectivity.Connected

/-!
# A graph whose cuts are those of a cactus is a cactus

Edges of weight `c` or `c / 2`, no cut lighter than `c`, and any two vertices separated by a cut of weight `c`.
-/

namespace VieCut
namespace Balanced
open Finset MGraph

/-- What is known about the cuts. -/
structure Shape (C : MGraph) (c : Nat) : Prop where
  cons : C.Consistent
  simple : C.NoParallel
  pos : 0 < c
  weights : ∀ u b, u < C.n → b < C.len u → (C.edge u b).weight = c ∨ 2 * (C.edge u b).weight = c
  least : ∀ X, ProperCut C.n X → c ≤ cutValue C.n C.toGraph.wt X
  separating : ∀ x y, x < C.n → y < C.n → x ≠ y → ∃ X : Nat → Bool, X x = true ∧ X y = false ∧ cutValue C.n C.toGraph.wt X = c

variable {C : MGraph} {c : Nat}

theorem OnCycle.mem {l : List Nat} {x y : Nat} (h : OnCycle l x y) : x ∈ l ∧ y ∈ l := by
  obtain ⟨i, hi, h⟩ := h
  have h1 : l.getD i 0 ∈ l := by rw [getD_lt _ hi]; exact List.getElem_mem hi
  have h2 : l.getD ((i + 1) % l.length) 0 ∈ l := by
    rw [getD_lt _ (Nat.mod_lt _ (by omega))]; exact List.getElem_mem _
  rcases h with ⟨rfl, rfl⟩ | ⟨rfl, rfl⟩
  · exact ⟨h1, h2⟩
  · exact ⟨h2, h1⟩

/-- A set that contains one vertex of a cycle and not another is left somewhere on the cycle. -/
theorem cycle_leaves {l : List Nat} {X : Nat → Bool} {x y : Nat} (hx : x ∈ l) (hy : y ∈ l) (h : X x ≠ X y) :
    ∃ i, i < l.length ∧ X (l.getD i 0) ≠ X (l.getD ((i + 1) % l.length) 0) := by
  by_contra hn
  push Not at hn
  have key : ∀ i, i < l.length → X (l.getD i 0) = X (l.getD 0 0) := by
    intro i
    induction i with
    | zero => intro _; rfl
    | succ i ih =>
      intro hi
      rw [← ih (by omega), hn i (by omega), Nat.mod_eq_of_lt hi]
  obtain ⟨i, hi, rfl⟩ := List.getElem_of_mem hx
  obtain ⟨j, hj, rfl⟩ := List.getElem_of_mem hy
  rw [← getD_lt _ hi, ← getD_lt _ hj, key i hi, key j hj] at h
  exact h rfl

namespace Shape
variable (F : Shape C c)
include F

theorem symm (u v : Nat) : C.toGraph.wt u v = C.toGraph.wt v u := (consistent_iff.1 F.cons).wf.wt_symm u v

theorem wt_cases {x y : Nat} (hx : x < C.n) (h : C.Adj x y) : C.toGraph.wt x y = c ∨ 2 * C.toGraph.wt x y = c := by
  obtain ⟨e, he, rfl⟩ := h
  rw [Problem.wt_edge F.simple hx he]
  exact F.weights x e hx he

theorem orient {X : Nat → Bool} (a b : Nat) (ha : a < C.n) (hab : C.Adj a b) (h : X a ≠ X b) :
    ∃ p ∈ pairs C.n X, Same a b p.1 p.2 ∧ C.toGraph.wt p.1 p.2 = C.toGraph.wt a b := by
  have hb := adj_lt F.cons ha hab
  cases h1 : X a
  · refine ⟨(b, a), mem_pairs.2 ⟨⟨hb, ha⟩, ?_, h1⟩, Or.inr ⟨rfl, rfl⟩, F.symm _ _⟩
    rw [h1] at h; simpa using h.symm
  · refine ⟨(a, b), mem_pairs.2 ⟨⟨ha, hb⟩, h1, ?_⟩, Or.inl ⟨rfl, rfl⟩, rfl⟩
    rw [h1] at h; simpa using h.symm

/-- Three edges are too heavy for a cut of weight `c`. -/
theorem three {X : Nat → Bool} (hX : cutValue C.n C.toGraph.wt X = c) {u v u' v' x y : Nat} (hu : u < C.n) (hu' : u' < C.n) (hx : x < C.n)
    (ha : C.Adj u v) (ha' : C.Adj u' v') (hxy : C.Adj x y) (h1 : X u ≠ X v) (h2 : X u' ≠ X v') (h3 : X x ≠ X y)
    (n1 : ¬ Same u v u' v') (n2 : ¬ Same u v x y) (n3 : ¬ Same u' v' x y) : False := by
  obtain ⟨p, p1, p2, p3⟩ := F.orient u v hu ha h1
  obtain ⟨q, q1, q2, q3⟩ := F.orient u' v' hu' ha' h2
  obtain ⟨z, z1, z2, z3⟩ := F.orient x y hx hxy h3
  have := three_le_cut (w := C.toGraph.wt) p1 q1 z1 (by rintro rfl; exact n1 (p2.trans q2.symm))
    (by rintro rfl; exact n2 (p2.trans z2.symm)) (by rintro rfl; exact n3 (q2.trans z2.symm))
  have w1 := F.wt_cases hu ha
  have w2 := F.wt_cases hu' ha'
  have w3 := F.wt_cases hx hxy
  have := F.pos
  clear p2 q2 z2 n1 n2 n3
  omega

/-- So are an edge of weight `c` and another edge. -/
theorem two {X : Nat → Bool} (hX : cutValue C.n C.toGraph.wt X = c) {u v x y : Nat} (hu : u < C.n) (hx : x < C.n)
    (ha : C.Adj u v) (hxy : C.Adj x y) (h1 : X u ≠ X v) (h3 : X x ≠ X y) (hw : C.toGraph.wt u v = c) (n2 : ¬ Same u v x y) : False := by
  obtain ⟨p, p1, p2, p3⟩ := F.orient u v hu ha h1
  obtain ⟨z, z1, z2, z3⟩ := F.orient x y hx hxy h3
  have := two_le_cut (w := C.toGraph.wt) p1 z1 (by rintro rfl; exact n2 (p2.trans z2.symm))
  have w3 := F.wt_cases hx hxy
  have := F.pos
  clear p2 z2 n2
  omega

theorem unique {l l' : List Nat} (hl : IsCycle C l) (hl' : IsCycle C l') {x y u v : Nat} (h1 : OnCycle l x y) (h2 : OnCycle l' x y)
    (h3 : OnCycle l u v) : OnCycle l' u v := by
  by_contra hn
  have hL := hl.three
  obtain ⟨f, hf⟩ : ∃ f : Nat → Nat, ∀ k, f k = l.getD (k % l.length) 0 := ⟨_, fun _ => rfl⟩
  have hmem : ∀ k, f k ∈ l := fun k => by
    rw [hf, getD_lt _ (Nat.mod_lt _ (by omega))]; exact List.getElem_mem _
  have hadj : ∀ k, C.Adj (f k) (f (k + 1)) := fun k => by
    have := hl.adj (k % l.length) (Nat.mod_lt _ (by omega))
    rw [Nat.mod_add_mod] at this
    rw [hf, hf]; exact this
  have hper : ∀ k, f (k + l.length) = f k := fun k => by rw [hf, hf, Nat.add_mod_right]
  have hpos : ∀ {p q}, OnCycle l p q → ∃ a, a < l.length ∧ Same p q (f a) (f (a + 1)) := by
    rintro p q ⟨i, hi, h⟩
    refine ⟨i, hi, ?_⟩
    rw [hf, hf, Nat.mod_eq_of_lt hi]
    rcases h with ⟨a1, a2⟩ | ⟨a1, a2⟩
    · exact Or.inl ⟨a1, a2⟩
    · exact Or.inr ⟨a2, a1⟩
  obtain ⟨a, ha, sa⟩ := hpos h1
  obtain ⟨b, hb, sb⟩ := hpos h3
  have hEa : OnCycle l' (f a) (f (a + 1)) := onCycle_same h2 sa.symm
  have hEb : ¬ OnCycle l' (f b) (f (b + 1)) := fun h => hn (onCycle_same h sb)
  have hne : a ≠ b := by rintro rfl; exact hEb hEa
  -- the first edge of the first cycle after the common one that is not on the second cycle
  have hex : ∃ k, a < k ∧ ¬ OnCycle l' (f k) (f (k + 1)) ∧ k < a + l.length := by
    rcases Nat.lt_or_ge a b with h | h
    · exact ⟨b, h, hEb, by omega⟩
    · refine ⟨b + l.length, by omega, ?_, by omega⟩
      rw [show b + l.length + 1 = (b + 1) + l.length by omega, hper, hper]
      exact hEb
  classical
  obtain ⟨k0, ⟨hk1, hk2, hk3⟩, hkmin⟩ : ∃ k, (a < k ∧ ¬ OnCycle l' (f k) (f (k + 1)) ∧ k < a + l.length) ∧
      ∀ m, m < k → ¬ (a < m ∧ ¬ OnCycle l' (f m) (f (m + 1)) ∧ m < a + l.length) :=
    ⟨Nat.find hex, Nat.find_spec hex, fun m hm => Nat.find_min hex hm⟩
  have hk0 : f k0 ∈ l' := by
    obtain ⟨m, rfl⟩ : ∃ m, k0 = m + 1 := ⟨k0 - 1, by omega⟩
    rcases Nat.lt_or_ge a m with h | h
    · by_contra hc
      exact hkmin m (by omega) ⟨h, fun ho => hc (OnCycle.mem ho).2, by omega⟩
    · have : m = a := by omega
      subst this
      exact (OnCycle.mem hEa).2
  -- the next vertex of the first cycle on the second one
  have hexj : ∃ j, k0 < j ∧ f j ∈ l' ∧ j ≤ a + l.length := ⟨a + l.length, hk3, by rw [hper]; exact (OnCycle.mem hEa).1, le_refl _⟩
  obtain ⟨j, ⟨hj1, hj2, hj3⟩, hjmin⟩ : ∃ j, (k0 < j ∧ f j ∈ l' ∧ j ≤ a + l.length) ∧
      ∀ m, m < j → ¬ (k0 < m ∧ f m ∈ l' ∧ m ≤ a + l.length) :=
    ⟨Nat.find hexj, Nat.find_spec hexj, fun m hm => Nat.find_min hexj hm⟩
  have hdiff : f k0 ≠ f j := by
    intro he
    rw [hf, hf, getD_lt _ (Nat.mod_lt _ (by omega)), getD_lt _ (Nat.mod_lt _ (by omega))] at he
    exact mod_close hj1 (by omega) ((List.Nodup.getElem_inj_iff hl.nodup).1 he)
  obtain ⟨X, x1, x2, x3⟩ := F.separating _ _ (hl.lt _ (hmem k0)) (hl.lt _ (hmem j)) hdiff
  have hcr : ∃ k, k0 ≤ k ∧ k < j ∧ X (f k) ≠ X (f (k + 1)) := by
    by_contra hc
    push Not at hc
    have : ∀ d, k0 + d ≤ j → X (f (k0 + d)) = X (f k0) := by
      intro d
      induction d with
      | zero => intro _; rfl
      | succ d ih => intro hd; rw [← ih (by omega), hc (k0 + d) (by omega) (by omega)]; rfl
    have h := this (j - k0) (by omega)
    rw [show k0 + (j - k0) = j by omega, x1, x2] at h
    exact Bool.noConfusion h
  obtain ⟨k, q1, q2, q3⟩ := hcr
  have hkn : ¬ OnCycle l' (f k) (f (k + 1)) := by
    rcases Nat.lt_or_ge k0 k with h | h
    · intro ho
      exact hjmin k q2 ⟨h, (OnCycle.mem ho).1, by omega⟩
    · rw [show k = k0 by omega]; exact hk2
  obtain ⟨i, i1, i2⟩ := cycle_leaves (X := X) hk0 hj2 (by rw [x1, x2]; simp)
  obtain ⟨i', j1, j2, j3⟩ := cycle_crosses i1 i2
  have hlt : ∀ i, i < l'.length → l'.getD i 0 < C.n := fun i hi => hl'.lt _ (by rw [getD_lt _ hi]; exact List.getElem_mem hi)
  have hon : ∀ i, i < l'.length → OnCycle l' (l'.getD i 0) (l'.getD ((i + 1) % l'.length) 0) := fun i hi => ⟨i, hi, Or.inl ⟨rfl, rfl⟩⟩
  exact F.three x3 (hl.lt _ (hmem k)) (hlt i i1) (hlt i' j1) (hadj k) (hl'.adj i i1) (hl'.adj i' j1) q3 i2 j3
    (fun hs => hkn (onCycle_same (hon i i1) hs)) (fun hs => hkn (onCycle_same (hon i' j1) hs))
    (fun hs => j2 (cycle_edge_inj hl' i1 j1 hs).symm)

theorem inside {u e : Nat} (hu : u < C.n) (he : e < C.len u) (h : ∃ l, IsCycle C l ∧ OnCycle l u (C.edge u e).target) :
    2 * (C.edge u e).weight = c := by
  rcases F.weights u e hu he with hw | hw
  swap
  · exact hw
  exfalso
  obtain ⟨l, hl, i, hi, hs⟩ := h
  have hadj : C.Adj u (C.edge u e).target := ⟨e, he, rfl⟩
  obtain ⟨X, x1, x2, x3⟩ := F.separating u _ hu (adj_lt F.cons hu hadj) (adj_ne F.cons hu hadj)
  have hwt : C.toGraph.wt u (C.edge u e).target = c := by rw [Problem.wt_edge F.simple hu he]; exact hw
  have hne : X u ≠ X (C.edge u e).target := by rw [x1, x2]; simp
  have hc : X (l.getD i 0) ≠ X (l.getD ((i + 1) % l.length) 0) := by
    rcases hs with ⟨a1, a2⟩ | ⟨a1, a2⟩
    · rw [← a1, ← a2]; exact hne
    · rw [← a1, ← a2]; exact hne.symm
  obtain ⟨j, j1, j2, j3⟩ := cycle_crosses hi hc
  have hlt : ∀ i, i < l.length → l.getD i 0 < C.n := fun i hi => hl.lt _ (by rw [getD_lt _ hi]; exact List.getElem_mem hi)
  refine F.two x3 hu (hlt j j1) hadj (hl.adj j j1) hne j3 hwt (fun hsame => j2 ?_)
  have : Same (l.getD i 0) (l.getD ((i + 1) % l.length) 0) u (C.edge u e).target := by
    rcases hs with ⟨a1, a2⟩ | ⟨a1, a2⟩
    · exact Or.inl ⟨a1.symm, a2.symm⟩
    · exact Or.inr ⟨a1.symm, a2.symm⟩
  exact (cycle_edge_inj hl hi j1 (this.trans hsame)).symm

/-- The graph without the edge between `u` and `v`. -/
def without (F : Shape C c) (u v : Nat) : SimpleGraph Nat where
  Adj x y := x < C.n ∧ C.Adj x y ∧ ¬ Same x y u v
  symm := ⟨by
    rintro x y ⟨hx, h, hn⟩
    refine ⟨adj_lt F.cons hx h, adj_symm F.cons hx h, fun hs => hn ?_⟩
    rcases hs with ⟨rfl, rfl⟩ | ⟨rfl, rfl⟩
    · exact Or.inr ⟨rfl, rfl⟩
    · exact Or.inl ⟨rfl, rfl⟩⟩
  loopless := ⟨fun x h => adj_ne F.cons h.1 h.2.1 rfl⟩

theorem outside {u e : Nat} (hu : u < C.n) (he : e < C.len u) (h : ¬ ∃ l, IsCycle C l ∧ OnCycle l u (C.edge u e).target) :
    (C.edge u e).weight = c := by
  rcases F.weights u e hu he with hw | hw
  · exact hw
  exfalso
  have hadj : C.Adj u (C.edge u e).target := ⟨e, he, rfl⟩
  have hwt : C.toGraph.wt u (C.edge u e).target = (C.edge u e).weight := Problem.wt_edge F.simple hu he
  generalize (C.edge u e).target = v at *
  have hvn := adj_lt F.cons hu hadj
  have huv := adj_ne F.cons hu hadj
  by_cases hr : (F.without u v).Reachable u v
  · obtain ⟨p, hp⟩ := hr.exists_isPath
    have hgl : ∀ i, p.getVert i < C.n := by
      intro i
      induction i with
      | zero => rw [SimpleGraph.Walk.getVert_zero]; exact hu
      | succ i ih =>
        rcases Nat.lt_or_ge i p.length with hi | hi
        · have := p.adj_getVert_succ hi
          exact adj_lt F.cons this.1 this.2.1
        · rw [SimpleGraph.Walk.getVert_of_length_le p (by omega)]; exact hvn
    have hlen : 2 ≤ p.length := by
      by_contra hc
      have h0 : p.length ≠ 0 := fun h0 => huv (SimpleGraph.Walk.eq_of_length_eq_zero h0)
      have h1 : p.length = 1 := by omega
      have := p.adj_getVert_succ (show 0 < p.length by omega)
      rw [SimpleGraph.Walk.getVert_zero, SimpleGraph.Walk.getVert_of_length_le p (by omega)] at this
      exact this.2.2 (Or.inl ⟨rfl, rfl⟩)
    obtain ⟨l, hl⟩ : ∃ l, l = (List.range (p.length + 1)).map p.getVert := ⟨_, rfl⟩
    have hll : l.length = p.length + 1 := by rw [hl]; simp
    have hget : ∀ i, i < p.length + 1 → l.getD i 0 = p.getVert i := by
      intro i hi
      rw [getD_lt _ (by omega)]
      simp [hl]
    refine h ⟨l, ⟨by omega, ?_, ?_, ?_⟩, p.length, by omega, Or.inr ⟨?_, ?_⟩⟩
    · rw [hl]
      refine List.Nodup.map_on ?_ List.nodup_range
      intro i hi j hj hij
      exact hp.getVert_injOn (by simpa [Nat.lt_succ_iff] using hi) (by simpa [Nat.lt_succ_iff] using hj) hij
    · intro x hx
      rw [hl, List.mem_map] at hx
      obtain ⟨i, -, rfl⟩ := hx
      exact hgl i
    · intro i hi
      rw [hll] at hi ⊢
      rcases Nat.lt_or_ge i p.length with hi' | hi'
      · rw [Nat.mod_eq_of_lt (by omega), hget i hi, hget (i + 1) (by omega)]
        exact (p.adj_getVert_succ hi').2.1
      · have : i = p.length := by omega
        rw [this, Nat.mod_self, hget _ (by omega), hget 0 (by omega), SimpleGraph.Walk.getVert_zero, SimpleGraph.Walk.getVert_length]
        exact adj_symm F.cons hu hadj
    · rw [hget _ (by omega), SimpleGraph.Walk.getVert_length]
    · rw [hll, Nat.mod_self, hget 0 (by omega), SimpleGraph.Walk.getVert_zero]
  · classical
    have hu1 : decide ((F.without u v).Reachable u u) = true := by simp
    have hv1 : decide ((F.without u v).Reachable u v) = false := by simp [hr]
    have hle := F.least (fun z => decide ((F.without u v).Reachable u z)) ⟨⟨u, hu, hu1⟩, ⟨v, hvn, hv1⟩⟩
    rw [cut_one (p := (u, v)) (mem_pairs.2 ⟨⟨hu, hvn⟩, hu1, hv1⟩) (by
      rintro ⟨x, y⟩ hz hwz
      obtain ⟨⟨a1, a2⟩, a3, a4⟩ := mem_pairs.1 hz
      have a3' : (F.without u v).Reachable u x := by simpa using a3
      have a4' : ¬ (F.without u v).Reachable u y := by simpa using a4
      have hxy := adj_of_wt a1 hwz
      by_contra hne
      have hs : ¬ Same x y u v := by
        rintro (⟨rfl, rfl⟩ | ⟨rfl, rfl⟩)
        · exact hne rfl
        · exact a4' (SimpleGraph.Reachable.refl _)
      exact a4' (a3'.trans (SimpleGraph.Adj.reachable (show (F.without u v).Adj x y from ⟨a1, hxy, hs⟩))))] at hle
    dsimp only at hle
    have := F.pos
    omega

/-- The graph is a cactus. -/
theorem isCactus : IsCactus C c where
  unique := fun _ _ hl hl' ⟨_, _, h1, h2⟩ _ _ h3 => F.unique hl hl' h1 h2 h3
  inside := fun _ _ hu he h => F.inside hu he h
  outside := fun _ _ hu he h => F.outside hu he h

end Shape
end Balanced
end VieCut
