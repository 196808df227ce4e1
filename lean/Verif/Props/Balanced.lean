import Verif.Proof.BalancedMark
import Verif.Spec.Cactus
import Verif.Proof.Check
import Verif.Proof.PRTests
import Verif.Model.MutableHistory
import Verif.Proof.MutableHistory

/-!
# C44: the reported most balanced minimum cut is a most balanced one
-/

namespace VieCut
namespace Balanced
open Finset MGraph

variable {G : Graph} {C : MGraph} {c : Nat}

/-- The weight of a vertex of the original graph: one, or its degree if the conductance is optimised. -/
def weightOf (G : Graph) (conductance : Bool) (v : Nat) : Nat := if conductance then G.deg v else 1

theorem vertexWeight_eq (hl : ListsMatch C G.n) (cond : Bool) {q : Nat} (hq : q < C.n) :
    vertexWeight G C cond q = ∑ v ∈ range G.n, if C.pos v = q then weightOf G cond v else 0 := by
  have key : ∀ ω : Nat → Nat, (((List.range G.n).filter fun v => C.pos v == q).map ω).sum = ∑ v ∈ range G.n, if C.pos v = q then ω v else 0 := by
    intro ω
    induction G.n with
    | zero => simp
    | succ k ih =>
      rw [List.range_succ, List.filter_append, List.map_append, List.sum_append, ih, Finset.sum_range_succ]
      congr 1
      by_cases h : C.pos k = q <;> simp [h]
  unfold vertexWeight
  rw [hl q hq]
  cases cond with
  | true => exact key G.deg
  | false =>
    refine Eq.trans ?_ (key fun _ => 1)
    simp

theorem sum_weights (hlt : ∀ v, v < G.n → C.pos v < C.n) (hl : ListsMatch C G.n) (cond : Bool) (X : Nat → Bool) :
    ws C (vertexWeight G C cond) X = ∑ v ∈ range G.n, if X (C.pos v) = true then weightOf G cond v else 0 := by
  unfold ws
  have h1 : ∀ q ∈ range C.n, (if X q = true then vertexWeight G C cond q else 0) =
      ∑ v ∈ range G.n, if C.pos v = q then (if X q = true then weightOf G cond v else 0) else 0 := by
    intro q hq
    rw [vertexWeight_eq hl cond (Finset.mem_range.1 hq)]
    cases X q with
    | true => simp
    | false => simp
  rw [Finset.sum_congr rfl h1, Finset.sum_comm]
  refine Finset.sum_congr rfl fun v hv => ?_
  rw [Finset.sum_eq_single (C.pos v)]
  · rw [if_pos rfl]
  · intro q _ hne
    rw [if_neg (Ne.symm hne)]
  · intro hn
    exact absurd (Finset.mem_range.2 (hlt v (Finset.mem_range.1 hv))) hn

theorem total_weights (hlt : ∀ v, v < G.n → C.pos v < C.n) (hl : ListsMatch C G.n) (horig : C.origNodes = G.n) (cond : Bool) :
    totalWeight G C cond = ∑ v ∈ range G.n, weightOf G cond v ∧ totalWeight G C cond = ∑ q ∈ range C.n, vertexWeight G C cond q := by
  have h1 : totalWeight G C cond = ∑ v ∈ range G.n, weightOf G cond v := by
    unfold totalWeight weightOf
    cases cond with
    | true =>
      show G.totalWeight = ∑ v ∈ range G.n, G.deg v
      unfold Graph.totalWeight
      induction G.n with
      | zero => rfl
      | succ k ih => rw [List.range_succ, List.map_append, List.sum_append, ih, Finset.sum_range_succ]; simp
    | false => simp [horig]
  refine ⟨h1, ?_⟩
  have := sum_weights hlt hl cond fun _ => true
  simp only [if_true] at this
  rw [h1, ← this]
  unfold ws
  simp

theorem lighterSide_eq (hlt : ∀ v, v < G.n → C.pos v < C.n) (hl : ListsMatch C G.n) (horig : C.origNodes = G.n) (cond : Bool) (X : Nat → Bool) :
    lighter (totalWeight G C cond) (ws C (vertexWeight G C cond) X) = lighterSide G.n (weightOf G cond) fun v => X (C.pos v) := by
  unfold lighter lighterSide
  rw [sum_weights hlt hl cond X, (total_weights hlt hl horig cond).1]
  have : ∑ v ∈ range G.n, weightOf G cond v = (∑ v ∈ range G.n, if X (C.pos v) = true then weightOf G cond v else 0) +
      ∑ v ∈ range G.n, if X (C.pos v) = true then 0 else weightOf G cond v := by
    rw [← Finset.sum_add_distrib]
    refine Finset.sum_congr rfl fun v _ => ?_
    cases X (C.pos v) <;> simp
  rw [this, Nat.add_sub_cancel_left]

/-- Both sides of a cut of positive weight have positive weight. -/
theorem lighterSide_pos (hG : G.WF) (cond : Bool) {S : Nat → Bool} (hS : ProperCut G.n S) (hpos : 0 < cutValue G.n G.wt S) :
    0 < lighterSide G.n (weightOf G cond) S := by
  obtain ⟨p, hp, hw⟩ : ∃ p ∈ pairs G.n S, G.wt p.1 p.2 ≠ 0 := by
    by_contra hn
    push Not at hn
    rw [cutValue_pairs, Finset.sum_eq_zero hn] at hpos
    omega
  obtain ⟨⟨a1, a2⟩, a3, a4⟩ := mem_pairs.1 (show (p.1, p.2) ∈ _ from hp)
  have hdeg : ∀ x y, y < G.n → G.wt x y ≠ 0 → x < G.n → 0 < weightOf G cond x := by
    intro x y hy hxy hx
    unfold weightOf
    split
    · have := wt_le_deg hG x y
      omega
    · omega
  have d1 := hdeg p.1 p.2 a2 hw a1
  have d2 := hdeg p.2 p.1 a1 (by rw [← hG.wt_symm p.1 p.2]; exact hw) a2
  unfold lighterSide
  rw [Nat.lt_min]
  constructor
  · have := Finset.single_le_sum (f := fun v => if S v = true then weightOf G cond v else 0) (fun _ _ => Nat.zero_le _) (Finset.mem_range.2 a1)
    rw [if_pos a3] at this
    omega
  · have := Finset.single_le_sum (f := fun v => if S v = true then 0 else weightOf G cond v) (fun _ _ => Nat.zero_le _) (Finset.mem_range.2 a2)
    rw [if_neg (by rw [a4]; simp)] at this
    omega

/-- **C44.** If the cactus represents all minimum cuts of the graph, the search returns for every start vertex and both objectives a minimum
cut such that no minimum cut has a heavier lighter side, and exactly the edges between its two sides. -/
theorem C44_mostBalanced (hG : G.WF) (hmin : IsMinCut G.n G.wt c) (hc : 0 < c) (hrep : RepresentsMinCuts G C C.pos c) (hcac : IsCactus C c)
    (horig : C.origNodes = G.n) (hl : ListsMatch C G.n) (conductance : Bool) {start : Nat} (hs : start < C.n) (flags0 : Nat → Bool) :
    ∃ S edges, findCutFromCactus G C c conductance start flags0 = some (S, edges) ∧ ProperCut G.n S ∧ cutValue G.n G.wt S = c ∧
      (∀ S', ProperCut G.n S' → cutValue G.n G.wt S' = c →
        lighterSide G.n (fun v => if conductance then G.deg v else 1) S' ≤ lighterSide G.n (fun v => if conductance then G.deg v else 1) S) ∧
      ∀ u e, (u, e) ∈ edges ↔ u < G.n ∧ e < (G.edges u).length ∧ S u ≠ S ((G.edges u).getD e (0, 0)).1 := by
  have hF : Facts C c := ⟨hrep.consistent, hrep.simple, hcac, hc, fun X hX => Nat.lt_of_lt_of_le hc (hrep.least X hX)⟩
  have hprop : ∀ (S X : Nat → Bool), ProperCut G.n S → (∀ v, v < G.n → X (C.pos v) = S v) → ProperCut C.n X := by
    rintro S X ⟨⟨u, hu, hSu⟩, v, hv, hSv⟩ hX
    exact ⟨⟨C.pos u, hrep.lt u hu, by rw [hX u hu, hSu]⟩, C.pos v, hrep.lt v hv, by rw [hX v hv, hSv]⟩
  have hls : ∀ (S X : Nat → Bool), (∀ v, v < G.n → X (C.pos v) = S v) →
      lighter (totalWeight G C conductance) (ws C (vertexWeight G C conductance) X) = lighterSide G.n (weightOf G conductance) S := by
    intro S X hX
    rw [lighterSide_eq hrep.lt hl horig conductance X]
    unfold lighterSide
    congr 1 <;> exact Finset.sum_congr rfl fun v hv => by simp only [hX v (Finset.mem_range.1 hv)]
  obtain ⟨⟨S0, hS0, hS0c⟩, _⟩ := hmin
  have hpos0 := lighterSide_pos hG conductance hS0 (by rw [hS0c]; exact hc)
  obtain ⟨X0, hX0c, hX0⟩ := hrep.complete S0 hS0 hS0c
  have hT : 0 < totalWeight G C conductance := by
    rw [← hls S0 X0 hX0] at hpos0
    unfold lighter at hpos0
    omega
  obtain ⟨z, hz, hv, hbest⟩ := run_spec (E := ⟨C, c, vertexWeight G C conductance, totalWeight G C conductance, start⟩) hF
    (total_weights hrep.lt hl horig conductance).2 hT hs
  have hw : 0 < z.weight := by
    have := hbest X0 (hprop S0 X0 hS0 hX0) hX0c
    dsimp only at this
    rw [hls S0 X0 hX0] at this
    omega
  rcases hv with hv | ⟨X, hX1, hX2, hd⟩
  · omega
  dsimp only at hX1 hX2 hd hz
  obtain ⟨S, hS, hSX⟩ := markSide_spec hF hd
  have hSeq : ∀ v, v < G.n → X (C.pos v) = S v := by
    intro v hv
    rw [Bool.eq_iff_iff, hSX]
    constructor
    · intro h
      refine ⟨C.pos v, hrep.lt v hv, h, ?_⟩
      rw [hl _ (hrep.lt v hv), List.mem_filter]
      exact ⟨List.mem_range.2 hv, by simp⟩
    · rintro ⟨p, hp, hXp, hvp⟩
      rw [hl p hp, List.mem_filter] at hvp
      have : C.pos v = p := by simpa using hvp.2
      rw [this]; exact hXp
  have hXp : ProperCut C.n X := ⟨⟨_, hd.lt1, hd.in1⟩, _, hrep.consistent.target _ _ hd.lt1 hd.len1, hd.out1⟩
  obtain ⟨p1, p2⟩ := hrep.sound X hXp hX2
  have hcong : cutValue G.n G.wt (fun v => X (C.pos v)) = cutValue G.n G.wt S := cutValue_congr hSeq
  refine ⟨S, crossing G S, ?_, ?_, by rw [← hcong]; exact p2, ?_, ?_⟩
  · unfold findCutFromCactus
    rw [if_neg (by omega), hz, Option.bind_some, hS]
    rfl
  · obtain ⟨⟨u, hu, h1⟩, v, hv, h2⟩ := p1
    exact ⟨⟨u, hu, by rw [← hSeq u hu]; exact h1⟩, v, hv, by rw [← hSeq v hv]; exact h2⟩
  · intro S' hS' hS'c
    obtain ⟨X', h1, h2⟩ := hrep.complete S' hS' hS'c
    have := hbest X' (hprop S' X' hS' h2) h1
    dsimp only at this
    rw [hls S' X' h2, ← hX1, hls S X hSeq] at this
    exact this
  · intro u e
    unfold crossing
    rw [List.mem_flatMap]
    constructor
    · rintro ⟨u', hu', he⟩
      rw [List.mem_map] at he
      obtain ⟨e', he', heq⟩ := he
      obtain ⟨rfl, rfl⟩ := Prod.mk.inj heq
      rw [List.mem_filter, List.mem_range] at he'
      exact ⟨List.mem_range.1 hu', he'.1, by simpa using he'.2⟩
    · rintro ⟨h1, h2, h3⟩
      refine ⟨u, List.mem_range.2 h1, List.mem_map.2 ⟨e, List.mem_filter.2 ⟨List.mem_range.2 h2, by simpa using h3⟩, rfl⟩⟩

/-! ## A concrete case -/

/-- All lists over `0, …, n - 1` of length at most `k`. -/
def listsUpTo (n : Nat) : Nat → List (List Nat)
  | 0 => [[]]
  | k + 1 => [] :: (listsUpTo n k).flatMap fun l => (List.range n).map (· :: l)

theorem mem_listsUpTo {n : Nat} : ∀ (k : Nat) (l : List Nat), l.length ≤ k → (∀ x ∈ l, x < n) → l ∈ listsUpTo n k := by
  intro k
  induction k with
  | zero =>
    intro l hl _
    rw [List.eq_nil_of_length_eq_zero (by omega : l.length = 0)]
    exact List.mem_cons_self
  | succ k ih =>
    intro l hl hx
    cases l with
    | nil => exact List.mem_cons_self
    | cons x l =>
      refine List.mem_cons_of_mem _ (List.mem_flatMap.2 ⟨l, ih l (by simpa using hl) (fun y hy => hx y (List.mem_cons_of_mem _ hy)), ?_⟩)
      exact List.mem_map.2 ⟨x, List.mem_range.2 (hx x List.mem_cons_self), rfl⟩

instance (C : MGraph) (x y : Nat) : Decidable (C.Adj x y) := by unfold MGraph.Adj; infer_instance

instance (C : MGraph) (l : List Nat) : Decidable (IsCycle C l) :=
  decidable_of_iff (3 ≤ l.length ∧ l.Nodup ∧ (∀ x ∈ l, x < C.n) ∧ ∀ i, i < l.length → C.Adj (l.getD i 0) (l.getD ((i + 1) % l.length) 0))
    ⟨fun h => ⟨h.1, h.2.1, h.2.2.1, h.2.2.2⟩, fun h => ⟨h.1, h.2, h.3, h.4⟩⟩

instance (l : List Nat) (x y : Nat) : Decidable (OnCycle l x y) := by unfold OnCycle; infer_instance

/-- The cycles of a small graph. -/
def cyclesOf (C : MGraph) : List (List Nat) := (listsUpTo C.n C.n).filter fun l => decide (IsCycle C l)

theorem mem_cyclesOf {l : List Nat} : l ∈ cyclesOf C ↔ IsCycle C l := by
  unfold cyclesOf
  rw [List.mem_filter, decide_eq_true_eq]
  refine ⟨fun h => h.2, fun h => ⟨mem_listsUpTo _ _ ?_ h.lt, h⟩⟩
  have : l.toFinset ⊆ range C.n := fun x hx => Finset.mem_range.2 (h.lt x (List.mem_toFinset.1 hx))
  have := Finset.card_le_card this
  rwa [List.toFinset_card_of_nodup h.nodup, Finset.card_range] at this

theorem isCactus_of_check
    (h : (((cyclesOf C).all fun l => (cyclesOf C).all fun l' =>
        !((List.range C.n).any fun x => (List.range C.n).any fun y => decide (OnCycle l x y) && decide (OnCycle l' x y)) ||
        (List.range C.n).all fun x => (List.range C.n).all fun y => !decide (OnCycle l x y) || decide (OnCycle l' x y)) &&
      ((List.range C.n).all fun u => (List.range (C.len u)).all fun e =>
        if (cyclesOf C).any fun l => decide (OnCycle l u (C.edge u e).target) then decide (2 * (C.edge u e).weight = c)
        else decide ((C.edge u e).weight = c))) = true) : IsCactus C c := by
  rw [Bool.and_eq_true] at h
  obtain ⟨h1, h2⟩ := h
  have hon : ∀ l, IsCycle C l → ∀ x y, OnCycle l x y → x < C.n ∧ y < C.n := by
    intro l hl x y hxy
    have hg : ∀ i, i < l.length → l.getD i 0 < C.n := fun i hi => by
      rw [List.getD_eq_getElem?_getD, List.getElem?_eq_getElem hi]
      exact hl.lt _ (List.getElem_mem _)
    have h3 := hl.three
    obtain ⟨i, hi, ⟨e1, e2⟩ | ⟨e1, e2⟩⟩ := hxy <;> rw [e1, e2]
    · exact ⟨hg _ hi, hg _ (Nat.mod_lt _ (by omega))⟩
    · exact ⟨hg _ (Nat.mod_lt _ (by omega)), hg _ hi⟩
  have hedge : ∀ u e, u < C.n → e < C.len u →
      (if (cyclesOf C).any fun l => decide (OnCycle l u (C.edge u e).target) then decide (2 * (C.edge u e).weight = c)
        else decide ((C.edge u e).weight = c)) = true := by
    intro u e hu he
    exact List.all_eq_true.1 (List.all_eq_true.1 h2 u (List.mem_range.2 hu)) e (List.mem_range.2 he)
  refine ⟨?_, ?_, ?_⟩
  · rintro l l' hl hl' ⟨x, y, a, b⟩ x' y' a'
    have := List.all_eq_true.1 (List.all_eq_true.1 h1 l (mem_cyclesOf.2 hl)) l' (mem_cyclesOf.2 hl')
    rw [Bool.or_eq_true] at this
    rcases this with h3 | h3
    · exfalso
      rw [Bool.not_eq_true', ← Bool.not_eq_true] at h3
      apply h3
      obtain ⟨hx, hy⟩ := hon l hl x y a
      exact List.any_eq_true.2 ⟨x, List.mem_range.2 hx, List.any_eq_true.2 ⟨y, List.mem_range.2 hy, by simp [a, b]⟩⟩
    · obtain ⟨hx, hy⟩ := hon l hl x' y' a'
      have h4 := List.all_eq_true.1 (List.all_eq_true.1 h3 x' (List.mem_range.2 hx)) y' (List.mem_range.2 hy)
      simpa [a'] using h4
  · rintro u e hu he ⟨l, hl, ho⟩
    have := hedge u e hu he
    rw [if_pos (List.any_eq_true.2 ⟨l, mem_cyclesOf.2 hl, by simpa using ho⟩)] at this
    simpa using this
  · rintro u e hu he hno
    have := hedge u e hu he
    rw [if_neg (fun ha => by
      obtain ⟨l, hl, ho⟩ := List.any_eq_true.1 ha
      exact hno ⟨l, mem_cyclesOf.1 hl, by simpa using ho⟩)] at this
    simpa using this

/-- The property holds for all subsets if it holds for the listed ones. -/
theorem forall_of_lists {n : Nat} {P : (Nat → Bool) → Prop} (hP : ∀ S T : Nat → Bool, (∀ u, u < n → S u = T u) → P S → P T)
    (h : ∀ l ∈ boolLists n, P fun u => l.getD u false) : ∀ S, P S := by
  intro S
  have hl : ∀ u, u < n → ((List.range n).map S).getD u false = S u := by
    intro u hu
    rw [List.getD_eq_getElem?_getD, List.getElem?_eq_getElem (by simpa using hu)]
    simp
  have hm : (List.range n).map S ∈ boolLists n := by
    have := mem_boolLists ((List.range n).map S)
    simpa using this
  exact hP _ _ hl (h _ hm)

/-- A cycle of four unit edges, a tail of weight two and, at the end of the tail, a heavy edge. -/
def tail : MGraph := (MGraph.start 6).run [.newEdge 0 1 1, .newEdge 1 2 1, .newEdge 2 3 1, .newEdge 0 3 1, .newEdge 3 4 2, .newEdge 4 5 5]

/-- Its cactus: the heavy edge is contracted. -/
def tailCactus : MGraph := tail.run [.contractEdge 4 1]

theorem tail_valid : MGraph.Valid tail := (MGraph.Valid.start 6).run _ (by decide +kernel)

theorem tailCactus_valid : MGraph.Valid tailCactus := tail_valid.run _ (by decide +kernel)

theorem proper_of_pos {n : Nat} {w : Nat → Nat → Nat} {S : Nat → Bool} (h : 0 < cutValue n w S) : ProperCut n S := by
  obtain ⟨p, hp, _⟩ : ∃ p ∈ pairs n S, w p.1 p.2 ≠ 0 := by
    by_contra hn
    push Not at hn
    rw [cutValue_pairs, Finset.sum_eq_zero hn] at h
    omega
  obtain ⟨⟨a1, a2⟩, a3, a4⟩ := mem_pairs.1 (show (p.1, p.2) ∈ _ from hp)
  exact ⟨⟨_, a1, a3⟩, _, a2, a4⟩

theorem tail_represents : RepresentsMinCuts tail.toGraph tailCactus tailCactus.pos 2 := by
  have hn : tail.toGraph.n = 6 := by decide +kernel
  have hcn : tailCactus.n = 5 := by decide +kernel
  refine ⟨consistent_iff.2 tailCactus_valid, by decide +kernel, ?_, ?_, ?_, ?_, ?_⟩
  · rw [hn, hcn]; decide +kernel
  · exact cuts_ge_of_check (by decide +kernel)
  · intro X hX hc
    have : cutValue tail.toGraph.n tail.toGraph.wt (fun v => X (tailCactus.pos v)) = 2 := by
      revert hc
      refine forall_of_lists (n := tailCactus.n) (P := fun X => cutValue tailCactus.n tailCactus.toGraph.wt X = 2 →
        cutValue tail.toGraph.n tail.toGraph.wt (fun v => X (tailCactus.pos v)) = 2) ?_ (by decide +kernel) X
      intro S T h hS hT
      rw [← cutValue_congr h] at hT
      rw [← hS hT]
      refine cutValue_congr fun u hu => (h _ ?_).symm
      rw [hn] at hu
      rw [hcn]
      revert u
      decide +kernel
    exact ⟨proper_of_pos (by rw [this]; omega), this⟩
  · intro S _ hc
    refine ⟨S, ?_⟩
    revert hc
    refine forall_of_lists (n := tail.toGraph.n) (P := fun S => cutValue tail.toGraph.n tail.toGraph.wt S = 2 →
        cutValue tailCactus.n tailCactus.toGraph.wt S = 2 ∧ ∀ v, v < tail.toGraph.n → S (tailCactus.pos v) = S v) ?_ (by decide +kernel) S
    intro S T h hS hT
    rw [← cutValue_congr h] at hT
    obtain ⟨h1, h2⟩ := hS hT
    refine ⟨?_, fun v hv => ?_⟩
    · rw [← h1]
      exact cutValue_congr fun u hu => (h u (by rw [hn]; omega)).symm
    · rw [← h v hv, ← h2 v hv]
      refine (h _ ?_).symm
      rw [hn] at hv ⊢
      revert v
      decide +kernel
  · rw [hcn]
    have : ∀ x, x < 5 → ∀ y, y < 5 → x ≠ y → ∃ l ∈ boolLists 5, l.getD x false = true ∧ l.getD y false = false ∧
        cutValue 5 tailCactus.toGraph.wt (fun u => l.getD u false) = 2 := by decide +kernel
    intro x y hx hy hne
    obtain ⟨l, _, h⟩ := this x hx y hy hne
    exact ⟨fun u => l.getD u false, h⟩

/-- Non-vacuity: the graph and its cactus meet the hypotheses. -/
theorem tail_meets : tail.toGraph.WF ∧ IsMinCut tail.toGraph.n tail.toGraph.wt 2 ∧ RepresentsMinCuts tail.toGraph tailCactus tailCactus.pos 2 ∧
    IsCactus tailCactus 2 ∧ tailCactus.origNodes = tail.toGraph.n ∧ ListsMatch tailCactus tail.toGraph.n ∧ tailCactus.n = 5 := by
  refine ⟨tail_valid.wf, ⟨⟨fun v => v == 4 || v == 5, proper_of_pos (w := tail.toGraph.wt) (by decide +kernel), by decide +kernel⟩, ?_⟩, tail_represents,
    isCactus_of_check (by decide +kernel), by decide +kernel, ?_, by decide +kernel⟩
  · exact cuts_ge_of_check (by decide +kernel)
  · unfold ListsMatch; decide +kernel

/-- With vertices counted, the best cut passes through the cycle; with degrees counted, through the tail. -/
example : (findCutFromCactus tail.toGraph tailCactus 2 false 0 fun _ => false).map (fun r => ((List.range 6).map r.1, r.2)) =
      some ([false, false, false, true, true, true], [(0, 1), (2, 1), (3, 0), (3, 1)]) ∧
    (findCutFromCactus tail.toGraph tailCactus 2 true 0 fun _ => false).map (fun r => ((List.range 6).map r.1, r.2)) =
      some ([true, true, true, true, false, false], [(3, 2), (4, 0)]) := by
  decide +kernel

end Balanced
end VieCut
