import Verif.Spec.CactusPieces
import Verif.Proof.CactusUnpack
import Verif.Proof.CactusPendant

/-!
# How the operations of `mutable_graph` change cut values, edges and positions
-/

namespace VieCut
namespace MGraph
open Function Finset

/-- Members that edge operations leave alone. -/
def fr (g : MGraph) := (g.n, g.lastNode, g.contSize, g.cont, g.pos, g.origNodes)

theorem fr_eq {g g' : MGraph} (h : g'.fr = g.fr) : g'.n = g.n ∧ g'.lastNode = g.lastNode ∧ g'.contSize = g.contSize ∧ g'.cont = g.cont ∧
    g'.pos = g.pos ∧ g'.origNodes = g.origNodes := by
  unfold fr at h
  simp only [Prod.mk.injEq] at h
  exact h

theorem newEdge_fr (g : MGraph) (s t w : Nat) : (g.newEdge s t w).fr = g.fr := by
  unfold newEdge; split <;> rfl

theorem newEdgeOrder_fr (g : MGraph) (s t w : Nat) : (g.newEdgeOrder s t w).fr = g.fr := by
  unfold newEdgeOrder
  split
  · exact newEdge_fr _ _ _ _
  · split
    · exact newEdge_fr _ _ _ _
    · rfl

theorem setEdgeWeight_fr (g : MGraph) (u e w : Nat) : (g.setEdgeWeight u e w).fr = g.fr := rfl

theorem internalDelete_fr (g : MGraph) (u e : Nat) : (g.internalDelete u e).fr = g.fr := by
  unfold internalDelete
  split <;> rfl

theorem deleteEdge_fr (g : MGraph) (u e : Nat) : (g.deleteEdge u e).fr = g.fr := by
  have h : (g.deleteEdge u e).fr = ((g.internalDelete u e).internalDelete (g.edge u e).target (g.edge u e).rev).fr := rfl
  rw [h, internalDelete_fr, internalDelete_fr]

/-- Weight of the cut `X` of `g`. -/
abbrev cv (g : MGraph) (X : Nat → Bool) : Nat := cutValue g.n g.toGraph.wt X

theorem cv_W (g : MGraph) (X : Nat → Bool) : g.cv X = cutValue g.n g.W X := by
  unfold cv cutValue
  refine Finset.sum_congr rfl fun u hu => Finset.sum_congr rfl fun v _ => ?_
  rw [toGraph_wt g (mem_range.1 hu)]

/-- All live edges satisfy `Q`. -/
def AllW (Q : Nat → Prop) (g : MGraph) : Prop := ∀ u b, u < g.n → b < g.len u → Q (g.edge u b).weight

open Classical in
theorem allW_rows {Q : Nat → Prop} {g : MGraph} : AllW Q g ↔ ∀ u, u < g.n → rowSum g (fun _ w => if Q w then 0 else 1) u = 0 := by
  unfold AllW rowSum
  constructor
  · intro h u hu
    refine Finset.sum_eq_zero fun e he => ?_
    exact if_pos (h u e hu (mem_range.1 he))
  · intro h u b hu hb
    have := Finset.sum_eq_zero_iff.1 (h u hu) b (mem_range.2 hb)
    by_contra hn
    dsimp only at this
    rw [if_neg hn] at this
    exact absurd this (by decide)

theorem cnt_pos_of_edge {g : MGraph} {u b : Nat} (hb : b < g.len u) : 0 < g.cnt u (g.edge u b).target := by
  rw [cnt_card]
  exact Finset.card_pos.2 ⟨b, mem_filter.2 ⟨mem_range.2 hb, rfl⟩⟩

theorem exists_edge_of_cnt {g : MGraph} {u v : Nat} (h : g.cnt u v ≠ 0) : ∃ b, b < g.len u ∧ (g.edge u b).target = v := by
  rw [cnt_card] at h
  obtain ⟨b, hb⟩ := Finset.card_pos.1 (Nat.pos_of_ne_zero h)
  rw [mem_filter, mem_range] at hb
  exact ⟨b, hb⟩

/-- Without parallel edges the weight of an edge is the weight between its ends. -/
theorem edge_weight_W {g : MGraph} (hs : Simple g []) (hg : Valid g) {u b : Nat} (hu : u < g.n) (hb : b < g.len u) :
    g.W u (g.edge u b).target = (g.edge u b).weight := by
  have hc := hs u (g.edge u b).target hu (by simp) ((valid_iff.1 hg).1 u b hu hb).1 (by simp)
  unfold W rowSum
  rw [Finset.sum_eq_single b]
  · simp
  · intro e he hne
    dsimp only
    rw [if_neg]
    intro ht
    exact hne (cnt_le_one hc (mem_range.1 he) hb ht rfl)
  · intro hn; exact absurd (mem_range.2 hb) hn

theorem allW_cnt {Q : Nat → Prop} {g : MGraph} (hs : Simple g []) (hg : Valid g) :
    AllW Q g ↔ ∀ u v, u < g.n → v < g.n → g.cnt u v ≠ 0 → Q (g.W u v) := by
  constructor
  · intro h u v hu _ hc
    obtain ⟨b, hb, ht⟩ := exists_edge_of_cnt hc
    rw [← ht, edge_weight_W hs hg hu hb]
    exact h u b hu hb
  · intro h u b hu hb
    rw [← edge_weight_W hs hg hu hb]
    exact h u _ hu ((valid_iff.1 hg).1 u b hu hb).1 (cnt_pos_of_edge hb).ne'

theorem W_of_cnt_zero {g : MGraph} {u v : Nat} (h : g.cnt u v = 0) : g.W u v = 0 := by
  unfold W rowSum
  refine Finset.sum_eq_zero fun e he => ?_
  dsimp only
  rw [if_neg]
  intro ht
  have := cnt_pos_of_edge (g := g) (u := u) (mem_range.1 he)
  rw [ht] at this
  omega

theorem cnt_pos_of_W {g : MGraph} {u v : Nat} (h : g.W u v ≠ 0) : g.cnt u v ≠ 0 := fun hc => h (W_of_cnt_zero hc)

/-- With positive weights the converse holds. -/
theorem W_pos_of_cnt {g : MGraph} (hp : AllW (fun w => 0 < w) g) {u v : Nat} (hu : u < g.n) (h : g.cnt u v ≠ 0) : 0 < g.W u v := by
  obtain ⟨b, hb, ht⟩ := exists_edge_of_cnt h
  unfold W rowSum
  have : (g.edge u b).weight ≤ ∑ e ∈ range (g.len u), if (g.edge u e).target = v then (g.edge u e).weight else 0 := by
    have := Finset.single_le_sum (f := fun e => if (g.edge u e).target = v then (g.edge u e).weight else 0)
      (fun _ _ => Nat.zero_le _) (mem_range.2 hb)
    simp only [if_pos ht] at this
    exact this
  exact lt_of_lt_of_le (hp u b hu hb) this

/-- A cut is at least as heavy as every pair it separates. -/
theorem W_le_cv {g : MGraph} (hg : Valid g) {X : Nat → Bool} {u v : Nat} (hu : u < g.n) (hv : v < g.n) (hne : X u ≠ X v) :
    g.W u v ≤ g.cv X := by
  have key : ∀ a b, a < g.n → b < g.n → X a = true → X b = false → g.W a b ≤ g.cv X := by
    intro a b ha hb h1 h2
    rw [cv_W]
    unfold cutValue
    have s1 := Finset.single_le_sum (f := fun b => if X a = true ∧ X b = false then g.W a b else 0)
      (fun _ _ => Nat.zero_le _) (mem_range.2 hb)
    have s2 := Finset.single_le_sum (f := fun a => ∑ b ∈ range g.n, if X a = true ∧ X b = false then g.W a b else 0)
      (fun _ _ => Nat.zero_le _) (mem_range.2 ha)
    simp only [h1, h2, and_self, if_true] at s1 s2
    omega
  cases hx : X u with
  | true => exact key u v hu hv hx (by cases h : X v; rfl; exact absurd (hx.trans h.symm) hne)
  | false =>
    rw [hg.W_symm hu (by simp) hv (by simp)]
    exact key v u hv hu (by cases h : X v; exact absurd (hx.trans h.symm) hne; rfl) hx

/-- `new_empty_node`. -/
theorem newEmpty_all {g : MGraph} (hg : Valid g) (hr : g.lastNode = g.n) :
    Valid g.newEmptyNode ∧ g.newEmptyNode.n = g.n + 1 ∧ g.newEmptyNode.lastNode = g.n + 1 ∧ g.newEmptyNode.contSize = g.contSize + 1 ∧
    g.newEmptyNode.cont = update g.cont g.contSize [] ∧ g.newEmptyNode.pos = g.pos ∧ g.newEmptyNode.origNodes = g.origNodes ∧
    (∀ f a, a < g.n → rowSum g.newEmptyNode f a = rowSum g f a) ∧ (∀ f, rowSum g.newEmptyNode f g.n = 0) ∧
    (∀ X, g.newEmptyNode.cv X = g.cv X) ∧ ∀ a, a < g.n → g.newEmptyNode.len a = g.len a ∧ g.newEmptyNode.edge a = g.edge a := by
  have hE : g.newEmptyNode.n = g.n + 1 := by unfold newEmptyNode; rw [if_pos hr]
  have hEl : g.newEmptyNode.len = update g.len g.n 0 := by unfold newEmptyNode; rw [if_pos hr]
  have hEe : g.newEmptyNode.edge = g.edge := by unfold newEmptyNode; rw [if_pos hr]
  have hEw : g.newEmptyNode.wdeg = update g.wdeg g.n 0 := by unfold newEmptyNode; rw [if_pos hr]
  have hEm : g.newEmptyNode.numEdges = g.numEdges := by unfold newEmptyNode; rw [if_pos hr]
  have hEr : g.newEmptyNode.lastNode = g.n + 1 := by unfold newEmptyNode; rw [if_pos hr]; simp [hr]
  have hEp : g.newEmptyNode.pos = g.pos := by unfold newEmptyNode; rw [if_pos hr]
  have hEo : g.newEmptyNode.origNodes = g.origNodes := by unfold newEmptyNode; rw [if_pos hr]
  have hEc : g.newEmptyNode.cont = update g.cont g.contSize [] := by unfold newEmptyNode; rw [if_pos hr]
  have hEcs : g.newEmptyNode.contSize = g.contSize + 1 := by unfold newEmptyNode; rw [if_pos hr]
  obtain ⟨v1, v2, v3⟩ := addVertex_spec hg hE hEl hEe hEw hEm
  have hz : ∀ f, rowSum g.newEmptyNode f g.n = 0 := by
    intro f; unfold rowSum; rw [v3]; simp
  refine ⟨v1, hE, hEr, hEcs, hEc, hEp, hEo, v2, hz, ?_, ?_⟩
  · intro X
    rw [cv_W, cv_W, hE]
    have hW0 : ∀ v, g.newEmptyNode.W g.n v = 0 := fun v => hz _
    have hW1 : ∀ u, u < g.n → g.newEmptyNode.W u g.n = 0 := by
      intro u hu
      rw [v1.W_symm (by omega) (by simp) (by omega) (by simp)]
      exact hW0 u
    unfold cutValue
    rw [Finset.sum_range_succ]
    have e1 : ∑ v ∈ range (g.n + 1), (if X g.n = true ∧ X v = false then g.newEmptyNode.W g.n v else 0) = 0 := by
      refine Finset.sum_eq_zero fun v _ => ?_
      rw [hW0]; simp
    rw [e1, add_zero]
    refine Finset.sum_congr rfl fun u hu => ?_
    have hu := mem_range.1 hu
    rw [Finset.sum_range_succ, hW1 u hu]
    simp only [ite_self, add_zero]
    refine Finset.sum_congr rfl fun v _ => ?_
    have : g.newEmptyNode.W u v = g.W u v := v2 _ u hu
    rw [this]
  · intro a ha
    rw [hEl, update_of_ne (by omega), hEe]
    exact ⟨rfl, rfl⟩

theorem newEdgeOrder_comm (g : MGraph) (s t w : Nat) : g.newEdgeOrder s t w = g.newEdgeOrder t s w := by
  unfold newEdgeOrder
  by_cases h1 : s < t
  · rw [if_pos h1, if_neg (by omega), if_pos h1]
  · by_cases h2 : t < s
    · rw [if_neg h1, if_pos h2, if_pos h2]
    · rw [if_neg h1, if_neg h2, if_neg h2, if_neg h1]

/-- `new_edge_order`. -/
theorem newEdgeOrder_all {g : MGraph} (hg : Valid g) {s t : Nat} (hst : s ≠ t) (hs : s < g.n) (ht : t < g.n) (w : Nat) :
    Valid (g.newEdgeOrder s t w) ∧
    (∀ f a, rowSum (g.newEdgeOrder s t w) f a = rowSum g f a + (if a = s then f t w else 0) + if a = t then f s w else 0) ∧
    (∀ X, (g.newEdgeOrder s t w).cv X = g.cv X + if X s = X t then 0 else w) := by
  have key : ∀ s t, s < t → t < g.n → Valid (g.newEdge s t w) ∧
      (∀ f a, rowSum (g.newEdge s t w) f a = rowSum g f a + (if a = s then f t w else 0) + if a = t then f s w else 0) ∧
      (∀ X, (g.newEdge s t w).cv X = g.cv X + if X s = X t then 0 else w) := by
    intro s t hst ht
    obtain ⟨v1, v2, v3⟩ := newEdge_spec hg (w := w) hst ht
    refine ⟨v1, v3, fun X => ?_⟩
    have hn : (g.newEdge s t w).n = g.n := (fr_eq (newEdge_fr g s t w)).1
    rw [cv_W, cv_W, hn]
    refine cutValue_add (by omega) (by omega) ht ?_ X
    intro u v _
    unfold W
    rw [v3]
    by_cases h1 : u = s
    · subst h1
      rw [if_pos rfl, if_neg (show u ≠ t by omega)]
      by_cases h2 : v = t
      · subst h2; simp
      · rw [if_neg (fun h => h2 h.symm), if_neg]
        rintro (⟨_, h⟩ | ⟨h, _⟩)
        · exact h2 h
        · omega
    · rw [if_neg h1]
      by_cases h2 : u = t
      · subst h2
        rw [if_pos rfl]
        by_cases h3 : v = s
        · subst h3; simp
        · rw [if_neg (fun h => h3 h.symm), if_neg]
          rintro (⟨h, _⟩ | ⟨_, h⟩)
          · exact h1 h
          · exact h3 h
      · rw [if_neg h2, if_neg]
        rintro (⟨h, _⟩ | ⟨h, _⟩)
        · exact h1 h
        · exact h2 h
  unfold newEdgeOrder
  by_cases h1 : s < t
  · rw [if_pos h1]; exact key s t h1 ht
  · have h2 : t < s := by omega
    rw [if_neg h1, if_pos h2]
    obtain ⟨k1, k2, k3⟩ := key t s h2 hs
    refine ⟨k1, ?_, ?_⟩
    · intro f a; rw [k2]; omega
    · intro X; rw [k3]; congr 1
      by_cases hX : X s = X t
      · rw [if_pos hX, if_pos hX.symm]
      · rw [if_neg hX, if_neg (fun h => hX h.symm)]

/-- `deleteEdge`. -/
theorem deleteEdge_all {g : MGraph} (hg : Valid g) {u e : Nat} (hu : u < g.n) (he : e < g.len u) (X : Nat → Bool) :
    (g.deleteEdge u e).cv X + (if X u = X (g.edge u e).target then 0 else (g.edge u e).weight) = g.cv X := by
  obtain ⟨_, _, v3⟩ := deleteEdge_spec hg hu he
  obtain ⟨t1, _, _, _, _, t2⟩ := (valid_iff.1 hg).1 u e hu he
  rw [cv_W, cv_W, (fr_eq (deleteEdge_fr g u e)).1]
  symm
  refine cutValue_add (Ne.symm t2) hu t1 ?_ X
  intro a b _
  unfold W
  rw [← v3]
  congr 1
  set t := (g.edge u e).target
  by_cases h1 : a = u
  · subst h1
    rw [if_pos rfl, if_neg (Ne.symm t2)]
    by_cases h2 : b = t
    · subst h2; simp
    · rw [if_neg (fun h => h2 h.symm), if_neg]
      rintro (⟨_, h⟩ | ⟨h, _⟩)
      · exact h2 h
      · exact t2 h.symm
  · rw [if_neg h1]
    by_cases h2 : a = t
    · rw [if_pos h2]
      by_cases h3 : b = u
      · rw [if_pos h3.symm, if_pos (Or.inr ⟨h2, h3⟩)]; simp
      · rw [if_neg (fun h => h3 h.symm), if_neg]
        rintro (⟨h, _⟩ | ⟨_, h⟩)
        · exact h1 h
        · exact h3 h
    · rw [if_neg h2, if_neg]
      rintro (⟨h, _⟩ | ⟨h, _⟩)
      · exact h1 h
      · exact h2 h

/-- `setEdgeWeight` with a smaller weight. -/
theorem setEdgeWeight_all {g : MGraph} (hg : Valid g) {u e : Nat} (hu : u < g.n) (he : e < g.len u) {w : Nat}
    (hw : w ≤ (g.edge u e).weight) (X : Nat → Bool) :
    (g.setEdgeWeight u e w).cv X + (if X u = X (g.edge u e).target then 0 else (g.edge u e).weight - w) = g.cv X := by
  obtain ⟨_, _, v3⟩ := setEdgeWeight_spec hg hu he w
  obtain ⟨t1, _, _, _, _, t2⟩ := (valid_iff.1 hg).1 u e hu he
  rw [cv_W, cv_W, (fr_eq (setEdgeWeight_fr g u e w)).1]
  symm
  refine cutValue_add (Ne.symm t2) hu t1 ?_ X
  intro a b _
  unfold W
  have h := v3 (fun x y => if x = b then y else 0) a
  set t := (g.edge u e).target
  by_cases h1 : a = u
  · subst h1
    rw [if_pos rfl, if_neg (Ne.symm t2), if_pos rfl, if_neg (Ne.symm t2)] at h
    by_cases h2 : b = t
    · rw [if_pos h2.symm, if_pos h2.symm] at h
      rw [if_pos (Or.inl ⟨rfl, h2⟩)]; omega
    · rw [if_neg (fun h => h2 h.symm), if_neg (fun h => h2 h.symm)] at h
      rw [if_neg]
      · omega
      · rintro (⟨_, h⟩ | ⟨h, _⟩)
        · exact h2 h
        · exact t2 h.symm
  · rw [if_neg h1, if_neg h1] at h
    by_cases h2 : a = t
    · rw [if_pos h2, if_pos h2] at h
      by_cases h3 : b = u
      · rw [if_pos h3.symm, if_pos h3.symm] at h
        rw [if_pos (Or.inr ⟨h2, h3⟩)]; omega
      · rw [if_neg (fun h => h3 h.symm), if_neg (fun h => h3 h.symm)] at h
        rw [if_neg]
        · omega
        · rintro (⟨h, _⟩ | ⟨_, h⟩)
          · exact h1 h
          · exact h3 h
    · rw [if_neg h2, if_neg h2] at h
      rw [if_neg]
      · omega
      · rintro (⟨h, _⟩ | ⟨h, _⟩)
        · exact h1 h
        · exact h2 h

theorem simple_newEmpty {g : MGraph} (hg : Valid g) (hr : g.lastNode = g.n) (hs : Simple g []) : Simple g.newEmptyNode [] := by
  obtain ⟨a1, a2, _, _, _, _, _, a8, a9, _, _⟩ := newEmpty_all hg hr
  intro u v hu _ hv _
  rw [a2] at hu hv
  by_cases hun : u = g.n
  · subst hun
    have : g.newEmptyNode.cnt g.n v = 0 := a9 _
    omega
  · have e1 : g.newEmptyNode.cnt u v = g.cnt u v := a8 _ u (by omega)
    by_cases hvn : v = g.n
    · subst hvn
      rw [a1.cnt_symm (by omega) (by simp) (by omega) (by simp)]
      have : g.newEmptyNode.cnt g.n u = 0 := a9 _
      omega
    · rw [e1]
      exact hs u v (by omega) (by simp) (by omega) (by simp)

theorem cnt_newEdge {g : MGraph} (hg : Valid g) {s t : Nat} (hst : s ≠ t) (hs : s < g.n) (ht : t < g.n) (w a b : Nat) :
    (g.newEdgeOrder s t w).cnt a b = g.cnt a b + if (a = s ∧ b = t) ∨ (a = t ∧ b = s) then 1 else 0 := by
  obtain ⟨_, b2, _⟩ := newEdgeOrder_all hg hst hs ht w
  unfold cnt
  rw [b2]
  by_cases h1 : a = s
  · subst h1
    rw [if_pos rfl, if_neg hst]
    by_cases h2 : b = t
    · subst h2; simp
    · rw [if_neg (fun h => h2 h.symm), if_neg]
      rintro (⟨_, h⟩ | ⟨h, _⟩)
      · exact h2 h
      · exact hst h
  · rw [if_neg h1]
    by_cases h2 : a = t
    · subst h2
      rw [if_pos rfl]
      by_cases h3 : b = s
      · subst h3; simp
      · rw [if_neg (fun h => h3 h.symm), if_neg]
        rintro (⟨h, _⟩ | ⟨_, h⟩)
        · exact h1 h
        · exact h3 h
    · rw [if_neg h2, if_neg]
      rintro (⟨h, _⟩ | ⟨h, _⟩)
      · exact h1 h
      · exact h2 h

theorem simple_newEdge {g : MGraph} (hg : Valid g) (hsim : Simple g []) {s t : Nat} (hst : s ≠ t) (hs : s < g.n) (ht : t < g.n)
    (h0 : g.cnt s t = 0) (w : Nat) : Simple (g.newEdgeOrder s t w) [] := by
  intro a b ha _ hb _
  rw [(fr_eq (newEdgeOrder_fr g s t w)).1] at ha hb
  rw [cnt_newEdge hg hst hs ht]
  split
  · rename_i h
    rcases h with ⟨rfl, rfl⟩ | ⟨rfl, rfl⟩
    · omega
    · rw [hg.cnt_symm ht (by simp) hs (by simp)]; omega
  · exact hsim a b ha (by simp) hb (by simp)

theorem allW_newEmpty {Q : Nat → Prop} {g : MGraph} (hg : Valid g) (hr : g.lastNode = g.n) (h : AllW Q g) : AllW Q g.newEmptyNode := by
  obtain ⟨a1, a2, _, _, _, _, _, a8, a9, _, _⟩ := newEmpty_all hg hr
  rw [allW_rows] at h ⊢
  intro u hu
  by_cases hun : u = g.n
  · subst hun; exact a9 _
  · rw [a8 _ u (by omega)]; exact h u (by omega)

theorem allW_newEdge {Q : Nat → Prop} {g : MGraph} (hg : Valid g) (h : AllW Q g) {s t w : Nat} (hst : s ≠ t) (hs : s < g.n) (ht : t < g.n)
    (hw : Q w) : AllW Q (g.newEdgeOrder s t w) := by
  obtain ⟨_, b2, _⟩ := newEdgeOrder_all hg hst hs ht w
  rw [allW_rows] at h ⊢
  intro u hu
  rw [(fr_eq (newEdgeOrder_fr g s t w)).1] at hu
  rw [b2, h u hu]
  simp [hw]

theorem allW_deleteEdge {Q : Nat → Prop} {g : MGraph} (hg : Valid g) (h : AllW Q g) {u e : Nat} (hu : u < g.n) (he : e < g.len u) :
    AllW Q (g.deleteEdge u e) := by
  obtain ⟨_, _, z⟩ := deleteEdge_spec hg hu he
  rw [allW_rows] at h ⊢
  intro a ha
  rw [(fr_eq (deleteEdge_fr g u e)).1] at ha
  have h1 := h a ha
  rw [← z] at h1
  omega

theorem allW_setEdgeWeight {Q : Nat → Prop} {g : MGraph} (hg : Valid g) (h : AllW Q g) {u e w : Nat} (hu : u < g.n) (he : e < g.len u)
    (hw : Q w) : AllW Q (g.setEdgeWeight u e w) := by
  obtain ⟨_, _, z⟩ := setEdgeWeight_spec hg hu he w
  have hold := h u e hu he
  rw [allW_rows] at h ⊢
  intro a ha
  rw [(fr_eq (setEdgeWeight_fr g u e w)).1] at ha
  have h1 := h a ha
  classical
  have h2 := z (fun _ w => if Q w then 0 else 1) a
  rw [if_pos hold, if_pos hw] at h2
  omega

end MGraph
end VieCut
