import Verif.Model.PushRelabel
import Verif.Proof.MutableHistory
import Verif.Proof.Multicut
import Mathlib.Algebra.BigOperators.Ring.Finset
import Mathlib.Logic.Relation
import Mathlib.Data.Finset.Card
import Mathlib.Order.Interval.Finset.Nat

namespace VieCut
open Finset Function

namespace PushRelabel

/-! ### Sums of a row after one change -/

theorem sum_row_update {m e : Nat} (he : e < m) (p : Nat → Prop) [DecidablePred p] (h : Nat → Int) (x : Int) :
    (∑ i ∈ range m, if p i then update h e x i else 0) =
      (∑ i ∈ range m, if p i then h i else 0) + if p e then x - h e else 0 := by
  have hm : e ∈ range m := Finset.mem_range.2 he
  rw [← Finset.add_sum_erase _ _ hm, ← Finset.add_sum_erase (range m) (fun i => if p i then h i else 0) hm, update_self]
  have : ∑ i ∈ (range m).erase e, (if p i then update h e x i else 0) = ∑ i ∈ (range m).erase e, (if p i then h i else 0) := by
    refine Finset.sum_congr rfl fun i hi => ?_
    rw [update_of_ne (Finset.ne_of_mem_erase hi)]
  rw [this]
  split <;> omega

variable (g : MGraph)

/-- Net flow from `u` to `v`. -/
def net (f : Nat → Nat → Int) (u v : Nat) : Int := ∑ e ∈ range (g.len u), if (g.edge u e).target = v then f u e else 0

/-- Net flow out of `u`. -/
def out (f : Nat → Nat → Int) (u : Nat) : Int := ∑ e ∈ range (g.len u), f u e

variable {g}

/-- The flow after `amount` was sent along edge `e` of `u`. -/
def sent (g : MGraph) (f : Nat → Nat → Int) (u e : Nat) (a : Int) : Nat → Nat → Int :=
  let f1 := update f u (update (f u) e (f u e + a))
  update f1 (g.edge u e).target (update (f1 (g.edge u e).target) (g.edge u e).rev
    (f1 (g.edge u e).target (g.edge u e).rev - a))

theorem sent_self (hg : g.Consistent) {f : Nat → Nat → Int} {u e : Nat} {a : Int} (hu : u < g.n) (he : e < g.len u) :
    sent g f u e a u = update (f u) e (f u e + a) := by
  unfold sent
  rw [update_of_ne (Ne.symm (hg.noLoop u e hu he)), update_self]

theorem sent_target (hg : g.Consistent) {f : Nat → Nat → Int} {u e : Nat} {a : Int} (hu : u < g.n) (he : e < g.len u) :
    sent g f u e a (g.edge u e).target =
      update (f (g.edge u e).target) (g.edge u e).rev (f (g.edge u e).target (g.edge u e).rev - a) := by
  unfold sent
  rw [update_self, update_of_ne (hg.noLoop u e hu he)]

theorem sent_other {f : Nat → Nat → Int} {u e : Nat} {a : Int} {x : Nat} (h1 : x ≠ u) (h2 : x ≠ (g.edge u e).target) :
    sent g f u e a x = f x := by
  unfold sent
  rw [update_of_ne h2, update_of_ne h1]

theorem net_sent (hg : g.Consistent) {f : Nat → Nat → Int} {u e : Nat} {a : Int} (hu : u < g.n) (he : e < g.len u) (x y : Nat) :
    net g (sent g f u e a) x y = net g f x y + (if x = u ∧ y = (g.edge u e).target then a else 0) -
      if x = (g.edge u e).target ∧ y = u then a else 0 := by
  have hne := hg.noLoop u e hu he
  have hr := hg.partner u e hu he
  have hb := (hg.back u e hu he).1
  unfold net
  by_cases h1 : x = u
  · subst h1
    rw [sent_self hg hu he, sum_row_update he (fun i => (g.edge x i).target = y)]
    rw [if_neg (fun h : x = (g.edge x e).target ∧ _ => hne h.1.symm)]
    by_cases h2 : (g.edge x e).target = y
    · rw [if_pos h2, if_pos ⟨rfl, h2.symm⟩]; omega
    · rw [if_neg h2, if_neg (fun h => h2 h.2.symm)]; omega
  · rw [if_neg (fun h => h1 h.1)]
    by_cases h2 : x = (g.edge u e).target
    · subst h2
      rw [sent_target hg hu he, sum_row_update hr (fun i => (g.edge (g.edge u e).target i).target = y), hb]
      by_cases h3 : u = y
      · rw [if_pos h3, if_pos ⟨rfl, h3.symm⟩]; omega
      · rw [if_neg h3, if_neg (fun h => h3 h.2.symm)]; omega
    · rw [sent_other h1 h2, if_neg (fun h => h2 h.1)]; omega

theorem out_eq (hg : g.Consistent) (f : Nat → Nat → Int) {u : Nat} (hu : u < g.n) :
    out g f u = ∑ v ∈ range g.n, net g f u v := by
  unfold out net
  rw [Finset.sum_comm]
  refine Finset.sum_congr rfl fun e he => ?_
  rw [Finset.sum_ite_eq, if_pos (Finset.mem_range.2 (hg.target u e hu (Finset.mem_range.1 he)))]

theorem out_sent (hg : g.Consistent) {f : Nat → Nat → Int} {u e : Nat} {a : Int} (hu : u < g.n) (he : e < g.len u) (x : Nat) :
    out g (sent g f u e a) x = out g f x + (if x = u then a else 0) - if x = (g.edge u e).target then a else 0 := by
  have hne := hg.noLoop u e hu he
  have hr := hg.partner u e hu he
  have key : ∀ (m k : Nat) (h : Nat → Int) (y : Int), k < m → ∑ i ∈ range m, update h k y i = (∑ i ∈ range m, h i) + (y - h k) := by
    intro m k h y hk
    have := sum_row_update hk (fun _ => True) h y
    simpa using this
  unfold out
  by_cases h1 : x = u
  · subst h1
    rw [sent_self hg hu he, key _ _ _ _ he, if_pos rfl, if_neg (Ne.symm hne)]; omega
  · rw [if_neg h1]
    by_cases h2 : x = (g.edge u e).target
    · subst h2
      rw [sent_target hg hu he, key _ _ _ _ hr, if_pos rfl]; omega
    · rw [sent_other h1 h2, if_neg h2]; omega

/-! ### Preflows -/

/-- A preflow with its excesses. -/
structure Preflow (g : MGraph) (src : Nat) (f : Nat → Nat → Int) (x : Nat → Int) : Prop where
  cap : ∀ u e, u < g.n → e < g.len u → f u e ≤ (g.edge u e).weight
  anti : ∀ u v, u < g.n → v < g.n → net g f u v = - net g f v u
  cons : ∀ v, v < g.n → v ≠ src → x v = - out g f v
  nonneg : ∀ v, 0 ≤ x v

theorem Preflow.send (hg : g.Consistent) {src : Nat} {f : Nat → Nat → Int} {x : Nat → Int} (h : Preflow g src f x)
    {u e : Nat} {a : Int} (hu : u < g.n) (he : e < g.len u) (h0 : 0 ≤ a) (h1 : a ≤ (g.edge u e).weight - f u e)
    (h2 : a ≤ x u) :
    Preflow g src (sent g f u e a)
      (update (update x u (x u - a)) (g.edge u e).target (update x u (x u - a) (g.edge u e).target + a)) := by
  have hne := hg.noLoop u e hu he
  refine ⟨?_, ?_, ?_, ?_⟩
  · intro b i hb hi
    by_cases c1 : b = u
    · subst c1
      rw [sent_self hg hu he]
      by_cases c2 : i = e
      · subst c2; rw [update_self]; omega
      · rw [update_of_ne c2]; exact h.cap b i hb hi
    · by_cases c2 : b = (g.edge u e).target
      · subst c2
        rw [sent_target hg hu he]
        by_cases c3 : i = (g.edge u e).rev
        · subst c3
          rw [update_self]
          have := h.cap _ _ hb hi
          omega
        · rw [update_of_ne c3]; exact h.cap _ i hb hi
      · rw [sent_other c1 c2]; exact h.cap b i hb hi
  · intro p q hp hq
    rw [net_sent hg hu he, net_sent hg hu he, h.anti p q hp hq]
    simp only [and_comm (a := q = _)]
    omega
  · intro v hv hs
    rw [out_sent hg hu he]
    have := h.cons v hv hs
    by_cases c2 : v = (g.edge u e).target
    · subst c2
      rw [update_self, update_of_ne hne, if_neg hne, if_pos rfl]; omega
    · rw [update_of_ne c2, if_neg c2]
      by_cases c1 : v = u
      · subst c1; rw [update_self, if_pos rfl]; omega
      · rw [update_of_ne c1, if_neg c1]; omega
  · intro v
    by_cases c2 : v = (g.edge u e).target
    · subst c2
      rw [update_self, update_of_ne hne]
      have := h.nonneg (g.edge u e).target
      omega
    · rw [update_of_ne c2]
      by_cases c1 : v = u
      · subst c1; rw [update_self]; omega
      · rw [update_of_ne c1]; exact h.nonneg v

/-- Residual edges. -/
def REdge (g : MGraph) (f : Nat → Nat → Int) (u v : Nat) : Prop :=
  u < g.n ∧ ∃ e, e < g.len u ∧ (g.edge u e).target = v ∧ f u e < (g.edge u e).weight

/-- Residual reachability. -/
abbrev RReach (g : MGraph) (f : Nat → Nat → Int) : Nat → Nat → Prop := Relation.ReflTransGen (REdge g f)

theorem rreach_lt (hg : g.Consistent) {f : Nat → Nat → Int} {a b : Nat} (ha : a < g.n) (h : RReach g f a b) : b < g.n := by
  induction h with
  | refl => exact ha
  | tail _ hs _ =>
    obtain ⟨hu, e, he, rfl, -⟩ := hs
    exact hg.target _ e hu he

/-- Labels grow by at most one against a residual edge. -/
def ValidLabels (g : MGraph) (f : Nat → Nat → Int) (d : Nat → Nat) : Prop :=
  ∀ u v, REdge g f u v → d u ≤ d v + 1

/-- A residual path cannot drop by `n` labels. -/
theorem climb (hg : g.Consistent) {f : Nat → Nat → Int} {d : Nat → Nat} (hd : ValidLabels g f d) {a b : Nat}
    (ha : a < g.n) (h : RReach g f a b) : d a + 1 ≤ d b + g.n := by
  by_cases hab : d a < d b
  · omega
  have hlev : ∀ l, d b ≤ l → l ≤ d a → ∃ v, v < g.n ∧ d v = l := by
    intro l h1 h2
    by_contra hc
    push Not at hc
    have hall : ∀ v, RReach g f a v → l < d v := by
      intro v hv
      induction hv with
      | refl => have := hc a ha; omega
      | tail hr hs ih =>
        rename_i y z
        have h3 := hd _ _ hs
        have h4 := hc z (rreach_lt hg ha (hr.tail hs))
        omega
    have := hall b h
    omega
  have hsurj : Set.SurjOn d (range g.n) (Finset.Icc (d b) (d a)) := by
    intro l hl
    rw [Finset.mem_coe, Finset.mem_Icc] at hl
    obtain ⟨v, hv, hdv⟩ := hlev l hl.1 hl.2
    exact ⟨v, by simpa using hv, hdv⟩
  have := Finset.card_le_card_of_surjOn d hsurj
  rw [Nat.card_Icc, Finset.card_range] at this
  omega

/-- Flow out of a set: only the part that leaves the set counts. -/
theorem set_flow (hg : g.Consistent) {src : Nat} {f : Nat → Nat → Int} {x : Nat → Int} (h : Preflow g src f x)
    (X : Nat → Prop) [DecidablePred X] (hX : ¬ X src) :
    ∑ v ∈ (range g.n).filter X, x v =
      ∑ u ∈ (range g.n).filter X, ∑ v ∈ (range g.n).filter (fun v => ¬ X v), net g f v u := by
  have h1 : ∑ v ∈ (range g.n).filter X, x v = ∑ u ∈ (range g.n).filter X, ∑ v ∈ range g.n, net g f v u := by
    refine Finset.sum_congr rfl fun u hu => ?_
    rw [Finset.mem_filter, Finset.mem_range] at hu
    rw [h.cons u hu.1 (fun e => hX (e ▸ hu.2)), out_eq hg f hu.1, ← Finset.sum_neg_distrib]
    refine Finset.sum_congr rfl fun v hv => ?_
    rw [h.anti u v hu.1 (Finset.mem_range.1 hv), neg_neg]
  have h2 : ∑ u ∈ (range g.n).filter X, ∑ v ∈ range g.n, net g f v u =
      ∑ u ∈ (range g.n).filter X, ((∑ v ∈ (range g.n).filter X, net g f v u) +
        ∑ v ∈ (range g.n).filter (fun v => ¬ X v), net g f v u) :=
    Finset.sum_congr rfl fun u _ => (Finset.sum_filter_add_sum_filter_not _ _ _).symm
  have h3 : ∑ u ∈ (range g.n).filter X, ∑ v ∈ (range g.n).filter X, net g f v u = 0 := by
    have e1 : ∑ u ∈ (range g.n).filter X, ∑ v ∈ (range g.n).filter X, net g f v u =
        - ∑ u ∈ (range g.n).filter X, ∑ v ∈ (range g.n).filter X, net g f v u := by
      conv_lhs => rw [Finset.sum_comm]
      rw [← Finset.sum_neg_distrib]
      refine Finset.sum_congr rfl fun u hu => ?_
      rw [← Finset.sum_neg_distrib]
      refine Finset.sum_congr rfl fun v hv => ?_
      rw [Finset.mem_filter, Finset.mem_range] at hu hv
      exact h.anti u v hu.1 hv.1
    omega
  rw [h1, h2, Finset.sum_add_distrib, h3, zero_add]

theorem net_saturated {f : Nat → Nat → Int} {u v : Nat} (hu : u < g.n)
    (hs : ∀ e, e < g.len u → (g.edge u e).target = v → ¬ f u e < (g.edge u e).weight)
    (hcap : ∀ e, e < g.len u → f u e ≤ (g.edge u e).weight) : net g f u v = g.toGraph.wt u v := by
  rw [MGraph.toGraph_wt _ hu]
  unfold net MGraph.W MGraph.rowSum
  rw [Nat.cast_sum]
  refine Finset.sum_congr rfl fun e he => ?_
  have he := Finset.mem_range.1 he
  have := hcap e he
  by_cases c : (g.edge u e).target = v
  · have := hs e he c
    simp only [c, if_true]; omega
  · simp [c]

theorem net_le_wt {f : Nat → Nat → Int} {u v : Nat} (hu : u < g.n)
    (hcap : ∀ e, e < g.len u → f u e ≤ (g.edge u e).weight) : net g f u v ≤ g.toGraph.wt u v := by
  rw [MGraph.toGraph_wt _ hu]
  unfold net MGraph.W MGraph.rowSum
  rw [Nat.cast_sum]
  refine Finset.sum_le_sum fun e he => ?_
  have := hcap e (Finset.mem_range.1 he)
  by_cases c : (g.edge u e).target = v
  · simp only [c, if_true]; omega
  · simp [c]

/-- From a vertex with excess the source can be reached. -/
theorem excess_reach (hg : g.Consistent) {src : Nat} {f : Nat → Nat → Int} {x : Nat → Int} (h : Preflow g src f x)
    {v : Nat} (hv : v < g.n) (hx : 0 < x v) : RReach g f v src := by
  classical
  by_contra hc
  have h1 := set_flow hg h (fun u => RReach g f v u) hc
  have h2 : x v ≤ ∑ u ∈ (range g.n).filter (fun u => RReach g f v u), x u :=
    Finset.single_le_sum (f := x) (fun u _ => h.nonneg u)
      (Finset.mem_filter.2 ⟨Finset.mem_range.2 hv, Relation.ReflTransGen.refl⟩)
  have h3 : ∑ u ∈ (range g.n).filter (fun u => RReach g f v u),
      ∑ w ∈ (range g.n).filter (fun w => ¬ RReach g f v w), net g f w u ≤ 0 := by
    refine Finset.sum_nonpos fun u hu => Finset.sum_nonpos fun w hw => ?_
    rw [Finset.mem_filter, Finset.mem_range] at hu hw
    rw [h.anti w u hw.1 hu.1, net_saturated hu.1 ?_ (fun e he => h.cap u e hu.1 he)]
    · omega
    · intro e he ht hlt
      exact hw.2 (hu.2.tail ⟨hu.1, e, he, ht, hlt⟩)
  omega

end PushRelabel
end VieCut
