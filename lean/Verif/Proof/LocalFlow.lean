import Verif.Proof.LocalSearch
import Verif.Spec.LocalSearch
import Verif.Proof.MutableHistory
import Verif.Proof.Contract
import Verif.Model.Contract

namespace VieCut
open Finset Function

/-! ### Cuts of a graph built edge by edge -/

/-- Weight of an edge if its ends are on different sides. -/
noncomputable def crossWgt (S : Nat → Bool) (e : Nat × Nat × Nat) : Nat := ind (S e.1 ≠ S e.2.1) * e.2.2

theorem MGraph.n_newEdge (g : MGraph) (s t w : Nat) : (g.newEdge s t w).n = g.n := by
  unfold MGraph.newEdge
  split <;> rfl

theorem MGraph.n_newEdgeOrder (g : MGraph) (s t w : Nat) : (g.newEdgeOrder s t w).n = g.n := by
  unfold MGraph.newEdgeOrder
  split
  · exact g.n_newEdge s t w
  · split
    · exact g.n_newEdge t s w
    · rfl

theorem wt_newEdge {g : MGraph} (hg : MGraph.Valid g) {s t w : Nat} (hst : s < t) (ht : t < g.n) {u v : Nat} (hu : u < g.n) :
    (g.newEdge s t w).toGraph.wt u v =
      g.toGraph.wt u v + (if (u = s ∧ v = t) ∨ (u = t ∧ v = s) then w else 0) := by
  obtain ⟨h1, h2, h3⟩ := MGraph.newEdge_spec hg hst ht (w := w)
  rw [MGraph.toGraph_wt _ (by rw [g.n_newEdge]; exact hu), MGraph.toGraph_wt _ hu]
  unfold MGraph.W
  rw [h3]
  by_cases c1 : u = s
  · have : u ≠ t := by omega
    simp [c1, show s ≠ t by omega, eq_comm]
  · by_cases c2 : u = t
    · simp [c2, show t ≠ s by omega, eq_comm]
    · simp [c1, c2]

/-- Value of a cut of a mutable graph. -/
def MGraph.cut (g : MGraph) (S : Nat → Bool) : Nat := cutValue g.n g.toGraph.wt S

theorem sum_two_points {n : Nat} {s t : Nat} (hs : s < n) (ht : t < n) (hst : s ≠ t) (a : Nat → Nat → Nat) (w : Nat) :
    ∑ u ∈ range n, ∑ v ∈ range n, a u v * (if (u = s ∧ v = t) ∨ (u = t ∧ v = s) then w else 0) = (a s t + a t s) * w := by
  have h1 : ∀ u ∈ range n, ∑ v ∈ range n, a u v * (if (u = s ∧ v = t) ∨ (u = t ∧ v = s) then w else 0) =
      (if u = s then a s t * w else 0) + if u = t then a t s * w else 0 := by
    intro u _
    by_cases c1 : u = s
    · subst c1
      rw [if_pos rfl, if_neg hst, Nat.add_zero, Finset.sum_eq_single t]
      · simp
      · intro v _ hv
        rw [if_neg (by rintro (⟨_, h⟩ | ⟨h, _⟩); exacts [hv h, hst h]), Nat.mul_zero]
      · intro h; exact absurd (Finset.mem_range.2 ht) h
    · rw [if_neg c1, Nat.zero_add]
      by_cases c2 : u = t
      · subst c2
        rw [if_pos rfl, Finset.sum_eq_single s]
        · simp
        · intro v _ hv
          rw [if_neg (by rintro (⟨h, _⟩ | ⟨_, h⟩); exacts [c1 h, hv h]), Nat.mul_zero]
        · intro h; exact absurd (Finset.mem_range.2 hs) h
      · rw [if_neg c2]
        refine Finset.sum_eq_zero fun v _ => ?_
        rw [if_neg (by rintro (⟨h, _⟩ | ⟨h, _⟩); exacts [c1 h, c2 h]), Nat.mul_zero]
  rw [Finset.sum_congr rfl h1, Finset.sum_add_distrib, Finset.sum_ite_eq', Finset.sum_ite_eq',
    if_pos (Finset.mem_range.2 hs), if_pos (Finset.mem_range.2 ht), Nat.add_mul]

theorem cut_newEdge {g : MGraph} (hg : MGraph.Valid g) {s t w : Nat} (hst : s < t) (ht : t < g.n) (S : Nat → Bool) :
    (g.newEdge s t w).cut S = g.cut S + crossWgt S (s, t, w) := by
  unfold MGraph.cut
  rw [g.n_newEdge, cutValue_eq_wsum, cutValue_eq_wsum]
  unfold wsum
  have h1 : ∀ u ∈ range g.n, ∑ v ∈ range g.n, (fun u v => ind (S u = true ∧ S v = false)) u v * (g.newEdge s t w).toGraph.wt u v =
      (∑ v ∈ range g.n, ind (S u = true ∧ S v = false) * g.toGraph.wt u v) +
      ∑ v ∈ range g.n, ind (S u = true ∧ S v = false) * (if (u = s ∧ v = t) ∨ (u = t ∧ v = s) then w else 0) := by
    intro u hu
    rw [← Finset.sum_add_distrib]
    refine Finset.sum_congr rfl fun v _ => ?_
    rw [wt_newEdge hg hst ht (Finset.mem_range.1 hu), Nat.mul_add]
  rw [Finset.sum_congr rfl h1, Finset.sum_add_distrib, sum_two_points (by omega) ht (by omega)
    (fun u v => ind (S u = true ∧ S v = false))]
  congr 1
  unfold crossWgt
  dsimp only
  congr 1
  cases hs : S s <;> cases ht : S t <;> simp [ind]

theorem crossWgt_swap (S : Nat → Bool) (s t w : Nat) : crossWgt S (s, t, w) = crossWgt S (t, s, w) := by
  unfold crossWgt
  dsimp only
  rw [ind_congr ne_comm]

theorem cut_newEdgeOrder {g : MGraph} (hg : MGraph.Valid g) {s t w : Nat} (hs : s < g.n) (ht : t < g.n) (S : Nat → Bool) :
    (g.newEdgeOrder s t w).cut S = g.cut S + crossWgt S (s, t, w) := by
  unfold MGraph.newEdgeOrder
  split
  · rename_i h
    exact cut_newEdge hg h ht S
  · split
    · rename_i h
      rw [cut_newEdge hg h hs S, crossWgt_swap]
    · have : s = t := by omega
      subst this
      simp [crossWgt, ind]

theorem cut_newEdges {α : Type} (src tgt wgt : α → Nat) (S : Nat → Bool) : ∀ (l : List α) {g : MGraph}, MGraph.Valid g →
    (∀ e ∈ l, src e < g.n ∧ tgt e < g.n) →
    let g' := l.foldl (fun g e => g.newEdgeOrder (src e) (tgt e) (wgt e)) g
    MGraph.Valid g' ∧ g'.n = g.n ∧ g'.cut S = g.cut S + (l.map fun e => crossWgt S (src e, tgt e, wgt e)).sum := by
  intro l
  induction l with
  | nil => intro g hg _; exact ⟨hg, rfl, by simp⟩
  | cons e l ih =>
    intro g hg hl
    obtain ⟨a, b⟩ := hl e List.mem_cons_self
    have hv := hg.newEdgeOrder (wgt e) a b
    have hn := g.n_newEdgeOrder (src e) (tgt e) (wgt e)
    obtain ⟨i1, i2, i3⟩ := ih hv (fun e' he' => by rw [hn]; exact hl e' (List.mem_cons_of_mem _ he'))
    refine ⟨i1, i2.trans hn, ?_⟩
    rw [List.foldl_cons, i3, cut_newEdgeOrder hg a b, List.map_cons, List.sum_cons]
    omega

theorem cut_start (n : Nat) (S : Nat → Bool) : (MGraph.start n).cut S = 0 := by
  unfold MGraph.cut cutValue
  refine Finset.sum_eq_zero fun u hu => Finset.sum_eq_zero fun v _ => ?_
  have : (MGraph.start n).toGraph.wt u v = 0 := by
    rw [MGraph.toGraph_wt _ (Finset.mem_range.1 hu)]
    simp [MGraph.W, MGraph.rowSum, MGraph.start]
  rw [this, ite_self]

/-- Collecting weights per key. -/
theorem sum_by_key {α : Type} (key wgt : α → Nat) (h : Nat → Nat) (l : List α) :
    (((l.map key).dedup).map fun x => h x * ((l.filter fun e => key e == x).map wgt).sum).sum =
      (l.map fun e => h (key e) * wgt e).sum := by
  have hF : ∀ F : Finset Nat, (∀ e ∈ l, key e ∈ F) →
      ∑ x ∈ F, h x * ((l.filter fun e => key e == x).map wgt).sum = (l.map fun e => h (key e) * wgt e).sum := by
    intro F
    induction l with
    | nil => intro _; simp
    | cons e l ih =>
      intro hl
      rw [List.map_cons, List.sum_cons, ← ih (fun e he => hl e (List.mem_cons_of_mem _ he))]
      have : ∀ x ∈ F, h x * (((e :: l).filter fun e => key e == x).map wgt).sum =
          (if x = key e then h x * wgt e else 0) + h x * ((l.filter fun e => key e == x).map wgt).sum := by
        intro x _
        by_cases c : x = key e
        · rw [if_pos c, List.filter_cons_of_pos (by simp [c]), List.map_cons, List.sum_cons, Nat.mul_add]
        · rw [if_neg c, List.filter_cons_of_neg (by simp only [beq_iff_eq]; exact fun h => c h.symm), Nat.zero_add]
      rw [Finset.sum_congr rfl this, Finset.sum_add_distrib, Finset.sum_ite_eq', if_pos (hl e List.mem_cons_self)]
  rw [← hF (l.map key).toFinset (fun e he => by rw [List.mem_toFinset]; exact List.mem_map_of_mem he)]
  rw [← List.toFinset_eq_of_perm _ _ (List.Perm.refl (l.map key)), ← List.sum_toFinset _ (List.nodup_dedup _)]
  refine Finset.sum_congr ?_ fun _ _ => rfl
  ext x; simp

namespace LocalSearch

variable {G : Graph} {fixed : Nat → Bool} {sol : Nat → Nat} {a b : Nat}

/-! ### The mapping of the vertices -/

/-- What the mapping achieves. -/
structure Mapped (N : Nat) (fixed : Nat → Bool) (sol : Nat → Nat) (a b : Nat) (m : Nat → Nat) (id : Nat) : Prop where
  two : 2 ≤ id
  fix : ∀ v, v < N → inPair sol a b v = true → fixed v = true → m v = if sol v = a then 0 else 1
  free : ∀ v, v < N → inPair sol a b v = true → fixed v = false → 2 ≤ m v ∧ m v < id
  inj : ∀ u v, u < N → v < N → inPair sol a b u = true → inPair sol a b v = true → fixed u = false → fixed v = false →
    m u = m v → u = v

theorem mapping_ok (N : Nat) : Mapped N fixed sol a b (mapping N fixed sol a b).1 (mapping N fixed sol a b).2 := by
  unfold mapping
  induction N with
  | zero =>
    refine ⟨Nat.le_refl _, ?_, ?_, ?_⟩
    · intro v hv; omega
    · intro v hv; omega
    · intro u v hv; omega
  | succ N ih =>
    rw [List.range_succ, List.foldl_append, List.foldl_cons, List.foldl_nil]
    generalize (List.range N).foldl _ _ = s at ih
    split
    · rename_i hp
      have hlt : ∀ v, v < N + 1 → inPair sol a b v = true → v < N := by
        intro v hv hv'
        by_contra hc
        have : v = N := by omega
        rw [this, hp] at hv'
        cases hv'
      exact ⟨ih.two, fun v hv hpv => ih.fix v (hlt v hv hpv) hpv, fun v hv hpv => ih.free v (hlt v hv hpv) hpv,
        fun u v hu hv hpu hpv => ih.inj u v (hlt u hu hpu) (hlt v hv hpv) hpu hpv⟩
    · split
      · rename_i hp hf
        refine ⟨ih.two, ?_, ?_, ?_⟩
        · intro v hv hpv hfv
          dsimp only
          by_cases c : v = N
          · subst c; rw [update_self]
          · rw [update_of_ne c]; exact ih.fix v (by omega) hpv hfv
        · intro v hv hpv hfv
          have c : v ≠ N := fun e => by rw [e, hf] at hfv; cases hfv
          dsimp only
          rw [update_of_ne c]; exact ih.free v (by omega) hpv hfv
        · intro u v hu hv hpu hpv hfu hfv
          have c : v ≠ N := fun e => by rw [e, hf] at hfv; cases hfv
          have c' : u ≠ N := fun e => by rw [e, hf] at hfu; cases hfu
          dsimp only
          rw [update_of_ne c, update_of_ne c']
          exact ih.inj u v (by omega) (by omega) hpu hpv hfu hfv
      · rename_i hp hf
        have htwo := ih.two
        refine ⟨by dsimp only; omega, ?_, ?_, ?_⟩
        · intro v hv hpv hfv
          have c : v ≠ N := fun e => by rw [e] at hfv; exact hf hfv
          dsimp only
          rw [update_of_ne c]; exact ih.fix v (by omega) hpv hfv
        · intro v hv hpv hfv
          dsimp only
          by_cases c : v = N
          · subst c; rw [update_self]; omega
          · rw [update_of_ne c]
            have := ih.free v (by omega) hpv hfv
            omega
        · intro u v hu hv hpu hpv hfu hfv
          dsimp only
          by_cases c : v = N
          · by_cases c' : u = N
            · intro _; omega
            · rw [c, update_self, update_of_ne c']
              have := ih.free u (by omega) hpu hfu
              intro h; omega
          · by_cases c' : u = N
            · rw [c', update_self, update_of_ne c]
              have := ih.free v (by omega) hpv hfv
              intro h; omega
            · rw [update_of_ne c, update_of_ne c']
              exact ih.inj u v (by omega) (by omega) hpu hpv hfu hfv

/-! ### The edges of the flow graph -/

theorem mem_pairEdges {N : Nat} {m : Nat → Nat} {x : Nat × Nat × Nat} (h : x ∈ pairEdges N G sol a b m) :
    x.1 < N ∧ inPair sol a b x.1 = true ∧ inPair sol a b x.2.1 = true ∧ m x.1 < m x.2.1 ∧ 2 ≤ m x.2.1 ∧
      (x.2.1, x.2.2) ∈ G.edges x.1 := by
  unfold pairEdges at h
  rw [List.mem_flatMap] at h
  obtain ⟨n, hn, hx⟩ := h
  rw [List.mem_range] at hn
  split at hx
  · rename_i hp
    rw [List.mem_map] at hx
    obtain ⟨e, he, rfl⟩ := hx
    rw [List.mem_filter] at he
    simp only [Bool.and_eq_true, decide_eq_true_eq] at he
    exact ⟨hn, hp, he.2.1.1, he.2.1.2, he.2.2, he.1⟩
  · cases hx

/-- Sum of a function of the ends over the edges looked at. -/
theorem sum_pairEdges (hG : G.WF) (m : Nat → Nat) (P : Nat → Nat → Prop) :
    ((pairEdges G.n G sol a b m).map fun x => ind (P x.1 x.2.1) * x.2.2).sum =
      wsum G.n G.wt (fun u v => ind (inPair sol a b u = true ∧ inPair sol a b v = true ∧ m u < m v ∧ 2 ≤ m v ∧ P u v)) := by
  classical
  unfold pairEdges wsum
  rw [List.map_flatMap, List.flatMap_def, List.sum_flatten, List.map_map]
  have : ∀ N, ((List.range N).map (List.sum ∘ fun n => List.map (fun x => ind (P x.1 x.2.1) * x.2.2)
      (if inPair sol a b n then ((G.edges n).filter fun e => inPair sol a b e.1 && decide (m n < m e.1) && decide (2 ≤ m e.1)).map
        fun e => (n, e.1, e.2) else []))).sum =
      ∑ u ∈ range N, ∑ v ∈ range G.n, ind (inPair sol a b u = true ∧ inPair sol a b v = true ∧ m u < m v ∧ 2 ≤ m v ∧ P u v) * G.wt u v := by
    intro N
    induction N with
    | zero => simp
    | succ N ih =>
      rw [List.range_succ, List.map_append, List.sum_append, ih, Finset.sum_range_succ]
      congr 1
      simp only [List.map_cons, List.map_nil, List.sum_cons, List.sum_nil, Nat.add_zero, Function.comp_apply]
      split
      · rename_i hp
        have h1 : (List.map (fun x : Nat × Nat × Nat => ind (P x.1 x.2.1) * x.2.2)
            (((G.edges N).filter fun e => inPair sol a b e.1 && decide (m N < m e.1) && decide (2 ≤ m e.1)).map
              fun e => (N, e.1, e.2))).sum = rowTo G N (fun v => inPair sol a b v && decide (m N < m v) && decide (2 ≤ m v) && decide (P N v)) := by
          unfold rowTo
          induction G.edges N with
          | nil => rfl
          | cons e l ih =>
            simp only [List.filter_cons]
            by_cases c : (inPair sol a b e.1 && decide (m N < m e.1) && decide (2 ≤ m e.1)) = true
            · by_cases d : P N e.1
              · rw [if_pos c, if_pos (by rw [c, decide_eq_true d]; rfl)]
                simp only [List.map_cons, List.sum_cons]
                rw [ih, ind_pos d, Nat.one_mul]
              · rw [if_pos c, if_neg (by rw [c, decide_eq_false d]; simp)]
                simp only [List.map_cons, List.sum_cons]
                rw [ih, ind_neg d, Nat.zero_mul, Nat.zero_add]
            · rw [if_neg c, if_neg (by rw [Bool.not_eq_true] at c; rw [c]; simp)]
              exact ih
        rw [h1, rowTo_eq hG]
        refine Finset.sum_congr rfl fun v _ => ?_
        by_cases c : (inPair sol a b v && decide (m N < m v) && decide (2 ≤ m v) && decide (P N v)) = true
        · rw [if_pos c]
          simp only [Bool.and_eq_true, decide_eq_true_eq] at c
          rw [ind_pos ⟨hp, c.1.1.1, c.1.1.2, c.1.2, c.2⟩, Nat.one_mul]
        · rw [if_neg c]
          simp only [Bool.and_eq_true, decide_eq_true_eq] at c
          rw [ind_neg (fun h => c ⟨⟨⟨h.2.1, h.2.2.1⟩, h.2.2.2.1⟩, h.2.2.2.2⟩), Nat.zero_mul]
      · rename_i hp
        symm
        simp only [List.map_nil, List.sum_nil]
        refine Finset.sum_eq_zero fun v _ => ?_
        rw [ind_neg (fun h => hp h.1), Nat.zero_mul]
  exact this G.n

/-- Total weight of the edges looked at whose ends differ under `P`. -/
noncomputable def crossing (L : List (Nat × Nat × Nat)) (P : Nat → Bool) : Nat := (L.map (crossWgt P)).sum

/-- Weight of the solution that puts the vertices of the two blocks into `a` (`P`) or `b`: a part that does not depend
on `P`, and the edges looked at. -/
theorem two_value_pair (hG : G.WF) (hab : a ≠ b) {m : Nat → Nat} {id : Nat} (hm : Mapped G.n fixed sol a b m id) :
    ∃ R, ∀ P : Nat → Bool, (∀ v, v < G.n → inPair sol a b v = true → fixed v = true → P v = decide (sol v = a)) →
      ∀ f : Nat → Nat, (∀ v, v < G.n → f v = if inPair sol a b v then (if P v then a else b) else sol v) →
      2 * value G f = R + 2 * crossing (pairEdges G.n G sol a b m) P := by
  refine ⟨wsum G.n G.wt (fun u v => ind (¬ (inPair sol a b u = true ∧ inPair sol a b v = true ∧ ¬ (fixed u = true ∧ fixed v = true)) ∧
    sol u ≠ sol v)), ?_⟩
  intro P hP f hf
  have hc : crossing (pairEdges G.n G sol a b m) P = wsum G.n G.wt
      (fun u v => ind (inPair sol a b u = true ∧ inPair sol a b v = true ∧ m u < m v ∧ 2 ≤ m v ∧ P u ≠ P v)) := by
    rw [← sum_pairEdges hG m (fun u v => P u ≠ P v)]; rfl
  have hsw : wsum G.n G.wt (fun u v => ind (inPair sol a b u = true ∧ inPair sol a b v = true ∧ m u < m v ∧ 2 ≤ m v ∧ P u ≠ P v)) =
      wsum G.n G.wt (fun u v => ind (inPair sol a b v = true ∧ inPair sol a b u = true ∧ m v < m u ∧ 2 ≤ m u ∧ P v ≠ P u)) :=
    wsum_swap hG.wt_symm _
  rw [← two_multicut hG.wt_symm, Nat.two_mul]
  conv_rhs => rw [hc]; arg 2; arg 2; rw [hsw]
  rw [← wsum_add, ← wsum_add]
  refine wsum_congr fun u v hu hv => ?_
  rw [hf u hu, hf v hv]
  cases hpu : inPair sol a b u with
  | false =>
    cases hpv : inPair sol a b v with
    | false => simp [ind]
    | true =>
      have h1 : sol u ≠ if P v = true then a else b := by
        simp only [inPair, Bool.or_eq_false_iff, beq_eq_false_iff_ne] at hpu
        split
        · exact hpu.1
        · exact hpu.2
      have h2 : sol u ≠ sol v := by
        intro h; unfold inPair at hpu hpv; rw [h, hpv] at hpu; cases hpu
      simp [ind, h1, h2]
  | true =>
    cases hpv : inPair sol a b v with
    | false =>
      have h1 : (if P u = true then a else b) ≠ sol v := by
        simp only [inPair, Bool.or_eq_false_iff, beq_eq_false_iff_ne] at hpv
        split
        · exact Ne.symm hpv.1
        · exact Ne.symm hpv.2
      have h2 : sol u ≠ sol v := by
        intro h; unfold inPair at hpu hpv; rw [h, hpv] at hpu; cases hpu
      simp [ind, h1, h2]
    | true =>
      have hne : ((if P u = true then a else b) ≠ if P v = true then a else b) ↔ P u ≠ P v := by
        cases P u <;> cases P v <;> simp [hab, Ne.symm hab]
      simp only [if_true]
      rw [ind_congr hne]
      have hsolP : ∀ x, x < G.n → inPair sol a b x = true → fixed x = true → sol x = if P x = true then a else b := by
        intro x hx hpx hfx
        rw [hP x hx hpx hfx]
        by_cases c : sol x = a
        · simp [c]
        · simp only [inPair, Bool.or_eq_true, beq_iff_eq] at hpx
          simp only [c, decide_false, Bool.false_eq_true, if_false]
          exact hpx.resolve_left c
      cases hfu : fixed u with
      | false =>
        have mu := hm.free u hu hpu hfu
        cases hfv : fixed v with
        | false =>
          have mv := hm.free v hv hpv hfv
          by_cases hPP : P u = P v
          · simp [ind, hPP]
          · have huv : m u ≠ m v := fun h => hPP (by rw [hm.inj u v hu hv hpu hpv hfu hfv h])
            rcases Nat.lt_or_gt_of_ne huv with h | h
            · simp [ind, hPP, h, mv.1, Nat.lt_asymm h]
            · simp [ind, hPP, Ne.symm hPP, h, mu.1, Nat.lt_asymm h]
        | true =>
          have mv := hm.fix v hv hpv hfv
          have mv' : m v < 2 := by rw [mv]; split <;> omega
          have h : m v < m u := by omega
          by_cases hPP : P u = P v
          · simp [ind, hPP]
          · simp [ind, hPP, Ne.symm hPP, h, mu.1, Nat.lt_asymm h]
      | true =>
        have mu := hm.fix u hu hpu hfu
        have mu' : m u < 2 := by rw [mu]; split <;> omega
        cases hfv : fixed v with
        | false =>
          have mv := hm.free v hv hpv hfv
          have h : m u < m v := by omega
          by_cases hPP : P u = P v
          · simp [ind, hPP]
          · simp [ind, hPP, h, mv.1, Nat.lt_asymm h]
        | true =>
          have mv := hm.fix v hv hpv hfv
          have mv' : m v < 2 := by rw [mv]; split <;> omega
          have hq : sol u ≠ sol v ↔ P u ≠ P v := by
            rw [hsolP u hu hpu hfu, hsolP v hv hpv hfv]; exact hne
          have n1 : ¬ 2 ≤ m v := by omega
          have n2 : ¬ 2 ≤ m u := by omega
          by_cases hPP : P u = P v
          · have : sol u = sol v := by
              by_contra h
              exact hq.1 h hPP
            simp [ind, hPP, this]
          · simp [ind, hPP, hq.2 hPP, n1, n2]

theorem flowGraph_cut {m : Nat → Nat} {id : Nat} (hid : 2 ≤ id) {L : List (Nat × Nat × Nat)}
    (hL : ∀ e ∈ L, m e.1 < id ∧ m e.2.1 < id) {ord : Nat → List Nat → List Nat} (ho : IsOrder ord) (S : Nat → Bool) :
    (flowGraph id m L ord).n = id ∧ MGraph.Valid (flowGraph id m L ord) ∧
      (flowGraph id m L ord).cut S = crossing L (fun v => S (m v)) := by
  unfold flowGraph
  have hstart : (MGraph.start id).n = id := rfl
  obtain ⟨a1, a2, a3⟩ := cut_newEdges (fun e : Nat × Nat × Nat => m e.1) (fun e => m e.2.1) (fun e => e.2.2) S
    (L.filter fun e => decide (2 ≤ m e.1)) (MGraph.Valid.start id)
    (fun e he => by rw [hstart]; exact hL e (List.mem_of_mem_filter he))
  generalize hg0 : (L.filter fun e => decide (2 ≤ m e.1)).foldl (fun g e => g.newEdgeOrder (m e.1) (m e.2.1) e.2.2)
    (MGraph.start id) = g0 at a1 a2 a3
  rw [hstart] at a2
  rw [cut_start, Nat.zero_add] at a3
  have hk : ∀ i, ∀ x ∈ ord i (fixedKeys m L i), x < id := by
    intro i x hx
    have := (ho i (fixedKeys m L i)).mem_iff.1 hx
    unfold fixedKeys at this
    rw [List.mem_dedup, List.mem_map] at this
    obtain ⟨e, he, rfl⟩ := this
    exact (hL e (List.mem_of_mem_filter he)).2
  obtain ⟨b1, b2, b3⟩ := cut_newEdges (fun x : Nat => x) (fun _ => 0) (fun x => fixedWgt m L 0 x) S
    (ord 0 (fixedKeys m L 0)) a1 (fun x hx => by rw [a2]; exact ⟨hk 0 x hx, by omega⟩)
  generalize hg1 : (ord 0 (fixedKeys m L 0)).foldl (fun g x => g.newEdgeOrder x 0 (fixedWgt m L 0 x)) g0 = g1 at b1 b2 b3
  rw [a2] at b2
  obtain ⟨c1, c2, c3⟩ := cut_newEdges (fun x : Nat => x) (fun _ => 1) (fun x => fixedWgt m L 1 x) S
    (ord 1 (fixedKeys m L 1)) b1 (fun x hx => by rw [b2]; exact ⟨hk 1 x hx, by omega⟩)
  rw [b2] at c2
  refine ⟨by dsimp only; rw [hg1]; exact c2, by dsimp only; rw [hg1]; exact c1, ?_⟩
  dsimp only
  rw [hg1, c3, b3, a3]
  have hkey : ∀ i, ((ord i (fixedKeys m L i)).map fun x => crossWgt S (x, i, fixedWgt m L i x)).sum =
      ((L.filter fun e => m e.1 == i).map (crossWgt (fun v => S (m v)))).sum := by
    intro i
    rw [((ho i (fixedKeys m L i)).map _).sum_eq]
    have h1 := sum_by_key (fun e : Nat × Nat × Nat => m e.2.1) (fun e => e.2.2) (fun x => ind (S x ≠ S i))
      (L.filter fun e => m e.1 == i)
    unfold fixedKeys
    have h2 : ∀ x, fixedWgt m L i x = (((L.filter fun e => m e.1 == i).filter fun e => m e.2.1 == x).map fun e => e.2.2).sum := by
      intro x
      unfold fixedWgt
      rw [List.filter_filter]
      congr 2
      refine List.filter_congr fun e _ => ?_
      rw [Bool.and_comm]
    unfold crossWgt
    dsimp only
    simp only [h2]
    rw [h1]
    congr 1
    refine List.map_congr_left fun e he => ?_
    have := List.of_mem_filter he
    simp only [beq_iff_eq] at this
    rw [this, ind_congr ne_comm]
  rw [hkey 0, hkey 1]
  unfold crossing
  clear a3 b3 c3 hkey hk c1 c2 hg0 hg1 hL
  induction L with
  | nil => rfl
  | cons e l ih =>
    rw [List.map_cons, List.sum_cons, ← ih]
    by_cases h0 : m e.1 = 0
    · rw [List.filter_cons_of_neg (by simp [h0]), List.filter_cons_of_pos (by simp [h0]), List.filter_cons_of_neg (by simp [h0]),
        List.map_cons, List.sum_cons]
      omega
    · by_cases h1 : m e.1 = 1
      · rw [List.filter_cons_of_neg (by simp [h1]), List.filter_cons_of_neg (by simp [h1]), List.filter_cons_of_pos (by simp [h1]),
          List.map_cons, List.sum_cons]
        omega
      · rw [List.filter_cons_of_pos (by simp; omega), List.filter_cons_of_neg (by simp [h0]), List.filter_cons_of_neg (by simp [h1]),
          List.map_cons, List.sum_cons]
        have hcw : crossWgt S (m e.1, m e.2.1, e.2.2) = crossWgt (fun v => S (m v)) e := rfl
        rw [hcw]
        omega

/-! ### The new solution -/

theorem assign_spec {x : Nat → Nat} (hx : ∀ v, x v = a ∨ x v = b) (sol : Nat → Nat) (N : Nat) : ∀ v,
    ((List.range N).foldl (fun s n => if inPair s a b n then update s n (x n) else s) sol) v =
      if v < N ∧ inPair sol a b v = true then x v else sol v := by
  induction N with
  | zero => intro v; simp
  | succ N ih =>
    intro v
    rw [List.range_succ, List.foldl_append, List.foldl_cons, List.foldl_nil]
    generalize (List.range N).foldl _ _ = s at ih
    have hN : s N = sol N := by rw [ih, if_neg (by omega)]
    have hp : inPair s a b N = inPair sol a b N := by unfold inPair; rw [hN]
    rw [hp]
    by_cases hvN : v = N
    · subst hvN
      cases c : inPair sol a b v with
      | false => simp [hN]
      | true => simp
    · have hlt : v < N + 1 ↔ v < N := by omega
      simp only [hlt]
      rw [← ih v]
      split
      · rw [update_of_ne hvN]
      · rfl

theorem flow_ok (hG : G.WF) {ord : Nat → List Nat → List Nat} (ho : IsOrder ord) {flow : MGraph → Nat × List Nat}
    (hflow : FlowSpec flow) (hab : a ≠ b) (sol : Nat → Nat) :
    let r := flowBetweenBlocks G.n fixed G ord flow a b sol
    (value G r.1 : Int) + r.2 = value G sol ∧ 0 ≤ r.2 ∧ (∀ v, fixed v = true → r.1 v = sol v) ∧
      (∀ v, G.n ≤ v → r.1 v = sol v) ∧ (∀ v, r.1 v ≠ sol v → (sol v = a ∧ r.1 v = b) ∨ (sol v = b ∧ r.1 v = a)) ∧
      ∀ f : Nat → Nat, (∀ v, v < G.n → (fixed v = true ∨ inPair sol a b v = false) → f v = sol v) →
        (∀ v, v < G.n → inPair sol a b v = true → f v = a ∨ f v = b) → value G r.1 ≤ value G f := by
  have hm := mapping_ok (N := G.n) (fixed := fixed) (sol := sol) (a := a) (b := b)
  unfold flowBetweenBlocks
  dsimp only
  generalize mapping G.n fixed sol a b = mi at hm
  obtain ⟨m, id⟩ := mi
  dsimp only at hm ⊢
  have hlt : ∀ v, v < G.n → inPair sol a b v = true → m v < id := by
    intro v hv hp
    cases hf : fixed v with
    | false => exact (hm.free v hv hp hf).2
    | true =>
      rw [hm.fix v hv hp hf]
      have := hm.two
      split <;> omega
  have hL : ∀ e ∈ pairEdges G.n G sol a b m, m e.1 < id ∧ m e.2.1 < id := by
    intro e he
    obtain ⟨h1, h2, h3, -, -, h6⟩ := mem_pairEdges he
    exact ⟨hlt _ h1 h2, hlt _ (hG.tgt_lt _ _ h6) h3⟩
  obtain ⟨R, hR⟩ := two_value_pair hG hab hm
  have hcut := flowGraph_cut hm.two hL ho
  have hfs := hflow (flowGraph id m (pairEdges G.n G sol a b m) ord) (MGraph.consistent_iff.2 (hcut (fun _ => true)).2.1)
    (by rw [(hcut (fun _ => true)).1]; exact hm.two)
  generalize hL' : pairEdges G.n G sol a b m = L at hL hR hcut hfs
  generalize flow (flowGraph id m L ord) = fs at hfs
  generalize hgg : flowGraph id m L ord = g at hcut hfs
  obtain ⟨⟨hsrc, hsnk, hmin⟩, hval⟩ := hfs
  have hsnk : fs.2.contains 1 = false := hsnk 1 (by simp) (by simp)
  change ∀ S', S' 0 = true → _ → g.cut _ ≤ g.cut S' at hmin
  change fs.1 = g.cut _ at hval
  have hsol := assign_spec (a := a) (b := b) (x := fun n => if fs.2.contains (m n) then a else b)
    (fun v => by split <;> simp) sol G.n
  generalize (List.range G.n).foldl _ sol = r at hsol
  -- the new solution
  have hPr : ∀ v, v < G.n → inPair sol a b v = true → fixed v = true → fs.2.contains (m v) = decide (sol v = a) := by
    intro v hv hp hf
    rw [hm.fix v hv hp hf]
    split
    · rename_i c; rw [hsrc, decide_eq_true c]
    · rename_i c; rw [hsnk, decide_eq_false c]
  have v1 := hR (fun v => fs.2.contains (m v)) hPr r (fun v hv => by
    rw [hsol]
    cases c : inPair sol a b v <;> simp [hv])
  -- any labelling
  have hgen : ∀ f : Nat → Nat, (∀ v, v < G.n → (fixed v = true ∨ inPair sol a b v = false) → f v = sol v) →
        (∀ v, v < G.n → inPair sol a b v = true → f v = a ∨ f v = b) →
        2 * value G f = R + 2 * crossing L (fun v => decide (f v = a)) ∧ fs.1 ≤ crossing L (fun v => decide (f v = a)) := by
    intro f hf1 hf2
    refine ⟨hR (fun v => decide (f v = a)) (fun v hv hp hf => by rw [hf1 v hv (Or.inl hf)]) f (fun v hv => ?_), ?_⟩
    · cases c : inPair sol a b v with
      | false => simp [hf1 v hv (Or.inr c)]
      | true =>
        rcases hf2 v hv c with h | h
        · simp [h]
        · simp [h, Ne.symm hab]
    · classical
      let S0 : Nat → Bool := fun x => decide (x = 0 ∨ (2 ≤ x ∧ ∃ v, v < G.n ∧ inPair sol a b v = true ∧ fixed v = false ∧ m v = x ∧ f v = a))
      have h1 := hmin S0 (by simp [S0]) (by intro t ht hne; simp at ht; rcases ht with h | h <;> simp [S0, h] at hne ⊢)
      rw [← hval, (hcut S0).2.2] at h1
      refine h1.trans (Nat.le_of_eq ?_)
      unfold crossing
      congr 1
      refine List.map_congr_left fun e he => ?_
      rw [← hL'] at he
      obtain ⟨e1, e2, e3, -, -, e6⟩ := mem_pairEdges he
      have hS : ∀ v, v < G.n → inPair sol a b v = true → S0 (m v) = decide (f v = a) := by
        intro v hv hp
        cases hf : fixed v with
        | true =>
          rw [hm.fix v hv hp hf, hf1 v hv (Or.inl hf)]
          split
          · rename_i c; simp [S0, c]
          · rename_i c; simp [S0, c]
        | false =>
          obtain ⟨m2, -⟩ := hm.free v hv hp hf
          show decide _ = decide _
          rw [decide_eq_decide]
          constructor
          · rintro (h | ⟨_, u, hu, hpu, hfu, hmu, hsu⟩)
            · omega
            · rw [← hm.inj u v hu hv hpu hp hfu hf hmu]; exact hsu
          · intro h
            exact Or.inr ⟨m2, v, hv, hp, hf, rfl, h⟩
      unfold crossWgt
      dsimp only
      rw [hS _ e1 e2, hS _ (hG.tgt_lt _ _ e6) e3]
  have h0 := hgen sol (fun _ _ _ => rfl) (fun v _ hp => by simpa [inPair] using hp)
  have hw : solWeight sol L = crossing L (fun v => decide (sol v = a)) := by
    unfold solWeight crossing
    have hmem : ∀ e ∈ L, inPair sol a b e.1 = true ∧ inPair sol a b e.2.1 = true := by
      intro e he
      rw [← hL'] at he
      obtain ⟨-, e2, e3, -⟩ := mem_pairEdges he
      exact ⟨e2, e3⟩
    clear hL' hL hR hcut hgg v1 h0 hgen
    induction L with
    | nil => rfl
    | cons e l ih =>
      obtain ⟨p1, p2⟩ := hmem e List.mem_cons_self
      have := ih (fun e he => hmem e (List.mem_cons_of_mem _ he))
      rw [List.map_cons, List.sum_cons, ← this]
      have hiff : sol e.2.1 ≠ sol e.1 ↔ decide (sol e.1 = a) ≠ decide (sol e.2.1 = a) := by
        simp only [inPair, Bool.or_eq_true, beq_iff_eq] at p1 p2
        rcases p1 with p1 | p1 <;> rcases p2 with p2 | p2 <;> simp [p1, p2, hab, Ne.symm hab]
      unfold crossWgt
      by_cases c : sol e.2.1 ≠ sol e.1
      · rw [List.filter_cons_of_pos (by simpa using c), ind_pos (hiff.1 c), Nat.one_mul]
        simp
      · rw [List.filter_cons_of_neg (by simpa using c), ind_neg (fun h => c (hiff.2 h)), Nat.zero_mul, Nat.zero_add]
  rw [(hcut _).2.2] at hval
  have hle := h0.2
  refine ⟨by omega, by omega, ?_, ?_, ?_, ?_⟩
  · intro v hf
    rw [hsol]
    split
    · rename_i c
      rw [hPr v c.1 c.2 hf]
      have := c.2
      simp only [inPair, Bool.or_eq_true, beq_iff_eq] at this
      by_cases d : sol v = a
      · simp [d]
      · rw [if_neg (by simp [d]), this.resolve_left d]
    · rfl
  · intro v hv
    rw [hsol, if_neg (by omega)]
  · intro v
    rw [hsol]
    split
    · rename_i c
      have := c.2
      simp only [inPair, Bool.or_eq_true, beq_iff_eq] at this
      rcases this with d | d <;> split <;> simp [d, hab, Ne.symm hab]
    · intro h; exact absurd rfl h
  · intro f hf1 hf2
    have := hgen f hf1 hf2
    omega

theorem flowSearch_ok (hG : G.WF) {ord : Nat → List Nat → List Nat} (ho : IsOrder ord) {flow : MGraph → Nat × List Nat}
    (hflow : FlowSpec flow) {k : Nat} : ∀ (pairs : List (Nat × Nat)) (sol : Nat → Nat),
    (∀ ab ∈ pairs, ab.1 < ab.2 ∧ ab.2 < k) →
    let r := flowLocalSearch G.n fixed G ord flow pairs sol
    (value G r.1 : Int) + r.2 = value G sol ∧ 0 ≤ r.2 ∧ (∀ v, fixed v = true → r.1 v = sol v) ∧
      (∀ v, G.n ≤ v → r.1 v = sol v) ∧ ∀ v, r.1 v = sol v ∨ r.1 v < k := by
  intro pairs sol
  unfold flowLocalSearch
  induction pairs using List.reverseRecOn with
  | nil => intro _; exact ⟨by simp, Int.le_refl _, fun _ _ => rfl, fun _ _ => rfl, fun _ => Or.inl rfl⟩
  | append_singleton l ab ih =>
    intro hl
    obtain ⟨i1, i2, i3, i4, i5⟩ := ih (fun x hx => hl x (List.mem_append_left _ hx))
    obtain ⟨hab, hk⟩ := hl ab (List.mem_append_right _ List.mem_cons_self)
    dsimp only
    rw [List.foldl_append, List.foldl_cons, List.foldl_nil]
    generalize l.foldl _ (sol, (0 : Int)) = s at i1 i2 i3 i4 i5
    obtain ⟨j1, j2, j3, j4, j5, -⟩ := flow_ok (fixed := fixed) hG ho hflow (a := ab.1) (b := ab.2) (by omega) s.1
    generalize flowBetweenBlocks G.n fixed G ord flow ab.1 ab.2 s.1 = r at j1 j2 j3 j4 j5
    refine ⟨by dsimp only; omega, by dsimp only; omega, fun v hv => (j3 v hv).trans (i3 v hv), fun v hv => (j4 v hv).trans (i4 v hv), fun v => ?_⟩
    dsimp only
    by_cases c : r.1 v = s.1 v
    · rw [c]; exact i5 v
    · right
      rcases j5 v c with ⟨-, h⟩ | ⟨-, h⟩ <;> omega

/-- What a round of local search guarantees. -/
def RoundOk (G : Graph) (k : Nat) (fixed : Nat → Bool) (sol : Nat → Nat) (r : (Nat → Nat) × Int) : Prop :=
  (value G r.1 : Int) + r.2 = value G sol ∧ 0 ≤ r.2 ∧ (∀ v, fixed v = true → r.1 v = sol v) ∧
    (∀ v, G.n ≤ v → r.1 v = sol v) ∧ ∀ v, r.1 v = sol v ∨ r.1 v < k

theorem RoundOk.trans {k : Nat} {s0 s1 : Nat → Nat} {i1 : Int} {r : (Nat → Nat) × Int} (h1 : RoundOk G k fixed s0 (s1, i1))
    (h2 : RoundOk G k fixed s1 r) : RoundOk G k fixed s0 (r.1, i1 + r.2) := by
  obtain ⟨a1, a2, a3, a4, a5⟩ := h1
  obtain ⟨b1, b2, b3, b4, b5⟩ := h2
  dsimp only at a1 a2 a3 a4 a5
  refine ⟨by dsimp only; omega, by dsimp only; omega, fun v hv => (b3 v hv).trans (a3 v hv),
    fun v hv => (b4 v hv).trans (a4 v hv), fun v => ?_⟩
  dsimp only
  rcases b5 v with h | h
  · rw [h]; exact a5 v
  · exact Or.inr h

theorem rounds_ok {k : Nat} {round : Nat → (Nat → Nat) → (Nat → Nat) × Int}
    (hr : ∀ i s, RoundOk G k fixed s (round i s)) {s0 : Nat → Nat} : ∀ (fuel i : Nat) (s : Nat → Nat) (t : Int),
    RoundOk G k fixed s0 (s, t) → value G s < fuel →
    ∃ r, rounds round fuel i s t = some r ∧ RoundOk G k fixed s0 r ∧ value G r.1 ≤ value G s := by
  intro fuel
  induction fuel with
  | zero => intro i s t _ hf; omega
  | succ fuel ih =>
    intro i s t h0 hf
    have h1 := hr i s
    unfold rounds
    dsimp only
    split
    · rename_i hpos
      have hdec : value G (round i s).1 < value G s := by have := h1.1; omega
      obtain ⟨r, e1, e2, e3⟩ := ih (i + 1) (round i s).1 (t + (round i s).2) (h0.trans h1) (by omega)
      exact ⟨r, e1, e2, by omega⟩
    · exact ⟨_, rfl, h0.trans h1, by have := h1.1; have := h1.2.1; dsimp only; omega⟩

/-- A function that finds minimum cuts exists. -/
theorem flowSpec_exists : ∃ flow, FlowSpec flow := by
  classical
  have h : ∀ g : MGraph, ∃ fs : Nat × List Nat, g.Consistent → 2 ≤ g.n →
      IsolatingCut g.n g.toGraph.wt [0, 1] 0 (fun v => fs.2.contains v) ∧
      fs.1 = cutValue g.n g.toGraph.wt (fun v => fs.2.contains v) := by
    intro g
    by_cases hn : 2 ≤ g.n
    · have hex : ∃ c, ∃ S : Nat → Bool, S 0 = true ∧ S 1 = false ∧ cutValue g.n g.toGraph.wt S = c :=
        ⟨_, fun v => v == 0, rfl, rfl, rfl⟩
      obtain ⟨S, h0, h1, hS⟩ := Nat.find_spec hex
      have hc : ∀ v, v < g.n → (((List.range g.n).filter S).contains v) = S v := by
        intro v hv
        cases hSv : S v with
        | true => simp [hv, hSv]
        | false => simp [hSv]
      have hcut : cutValue g.n g.toGraph.wt (fun v => ((List.range g.n).filter S).contains v) =
          cutValue g.n g.toGraph.wt S := by
        exact cutValue_congr fun v hv => hc v hv
      refine ⟨(Nat.find hex, (List.range g.n).filter S), fun _ _ => ⟨⟨?_, ?_, ?_⟩, ?_⟩⟩
      · show ((List.range g.n).filter S).contains 0 = true
        rw [hc 0 (by omega)]; exact h0
      · intro t ht hne
        have : t = 1 := by
          simp only [List.mem_cons, List.not_mem_nil, or_false] at ht
          exact ht.resolve_left hne
        subst this
        show ((List.range g.n).filter S).contains 1 = false
        rw [hc 1 (by omega)]; exact h1
      · intro S' a b
        dsimp only
        rw [hcut, hS]
        exact Nat.find_min' hex ⟨S', a, b 1 (by simp) (by simp), rfl⟩
      · dsimp only
        rw [hcut, hS]
    · exact ⟨(0, []), fun _ h => absurd h hn⟩
  choose flow hflow using h
  exact ⟨flow, hflow⟩

end LocalSearch
end VieCut
