import Verif.Model.EdgeSelection
import Verif.Proof.BranchChoice

/-!
# C59: the rules for the branching edge
-/

namespace VieCut
namespace Problem
open MGraph Function

/-- What the nested loops find if some score is positive. -/
theorem scanEdges_spec {ts : List Nat} {len : Nat → Nat} {score : Nat → Nat → Nat} (h : ∃ t ∈ ts, ∃ e, e < len t ∧ 0 < score t e) :
    (scanEdges ts len score).1 ∈ ts ∧ (scanEdges ts len score).2 < len (scanEdges ts len score).1 ∧
    ∀ t ∈ ts, ∀ e, e < len t → score t e ≤ score (scanEdges ts len score).1 (scanEdges ts len score).2 := by
  let I : Heavy → Prop := fun s => s.wgt = 0 ∨ (s.t ∈ ts ∧ s.e < len s.t ∧ s.wgt = score s.t s.e)
  let step : Nat → Heavy → Nat → Heavy := fun t s e => if score t e > s.wgt then ⟨score t e, t, e⟩ else s
  have inner : ∀ t ∈ ts, ∀ (l : List Nat) (s : Heavy), (∀ e ∈ l, e < len t) → I s →
      I (l.foldl (step t) s) ∧ s.wgt ≤ (l.foldl (step t) s).wgt ∧ ∀ e ∈ l, score t e ≤ (l.foldl (step t) s).wgt := by
    intro t ht l
    induction l with
    | nil => intro s _ hs; exact ⟨hs, Nat.le_refl _, by simp⟩
    | cons e l ih =>
      intro s hl hs
      rw [List.foldl_cons]
      have h1 : I (step t s e) ∧ s.wgt ≤ (step t s e).wgt ∧ score t e ≤ (step t s e).wgt := by
        show I (if _ then _ else _) ∧ _ ≤ (if _ then _ else _ : Heavy).wgt ∧ _ ≤ (if _ then _ else _ : Heavy).wgt
        split
        · exact ⟨Or.inr ⟨ht, hl e (by simp), rfl⟩, by dsimp only; omega, Nat.le_refl _⟩
        · exact ⟨hs, Nat.le_refl _, by omega⟩
      obtain ⟨a1, a2, a3⟩ := ih _ (fun e he => hl e (by simp [he])) h1.1
      refine ⟨a1, h1.2.1.trans a2, fun e' he' => ?_⟩
      rcases List.mem_cons.1 he' with rfl | he'
      · exact h1.2.2.trans a2
      · exact a3 e' he'
  have outer : ∀ (l : List Nat) (s : Heavy), (∀ t ∈ l, t ∈ ts) → I s →
      I (l.foldl (fun s t => (List.range (len t)).foldl (step t) s) s) ∧
      s.wgt ≤ (l.foldl (fun s t => (List.range (len t)).foldl (step t) s) s).wgt ∧
      ∀ t ∈ l, ∀ e, e < len t → score t e ≤ (l.foldl (fun s t => (List.range (len t)).foldl (step t) s) s).wgt := by
    intro l
    induction l with
    | nil => intro s _ hs; exact ⟨hs, Nat.le_refl _, by simp⟩
    | cons t l ih =>
      intro s hl hs
      rw [List.foldl_cons]
      obtain ⟨b1, b2, b3⟩ := inner t (hl t (by simp)) (List.range (len t)) s (fun e he => List.mem_range.1 he) hs
      obtain ⟨a1, a2, a3⟩ := ih _ (fun t ht => hl t (by simp [ht])) b1
      refine ⟨a1, b2.trans a2, fun t' ht' e he => ?_⟩
      rcases List.mem_cons.1 ht' with rfl | ht'
      · exact (b3 e (List.mem_range.2 he)).trans a2
      · exact a3 t' ht' e he
  obtain ⟨h1, _, h3⟩ := outer ts {} (fun t ht => ht) (Or.inl rfl)
  obtain ⟨t, ht, e, he, hp⟩ := h
  have hpos := h3 t ht e he
  have hv : scanEdges ts len score = ((ts.foldl (fun s t => (List.range (len t)).foldl (step t) s) {}).t,
    (ts.foldl (fun s t => (List.range (len t)).foldl (step t) s) {}).e) := rfl
  rw [hv]
  rcases h1 with h1 | ⟨k1, k2, k3⟩
  · omega
  · refine ⟨k1, k2, fun t ht e he => ?_⟩
    dsimp only
    rw [← k3]
    exact h3 t ht e he

theorem prefixLen_succ {p : Problem} {i : Nat} (hi : i < p.tpos.length) : p.prefixLen (i + 1) = p.prefixLen i + p.graph.len (p.tpos.getD i 0) := by
  unfold prefixLen
  rw [List.take_add_one, List.getElem?_eq_getElem hi, List.getD_eq_getElem?_getD, List.getElem?_eq_getElem hi, List.map_append, List.sum_append]
  simp only [Option.toList_some, List.map_cons, List.map_nil, List.sum_cons, List.sum_nil, Nat.add_zero, Option.getD_some]

theorem prefixLen_mono {p : Problem} {i j : Nat} (h : i ≤ j) (hj : j ≤ p.tpos.length) : p.prefixLen i ≤ p.prefixLen j := by
  induction j with
  | zero => rw [Nat.le_zero.1 h]
  | succ j ih =>
    rcases Nat.lt_or_ge i (j + 1) with hlt | hge
    · have := ih (by omega) (by omega)
      rw [prefixLen_succ (by omega)]
      omega
    · rw [show i = j + 1 by omega]

/-- The random number determines the pair `(i, e)` of terminal and edge with `r = prefixsum[i] + e`. -/
theorem findRandomEdge_iff {p : Problem} {r : Nat} {i e : Nat} (hi : i < p.tpos.length) (he : e < p.graph.len (p.tpos.getD i 0))
    (hr : r = p.prefixLen i + e) : p.findRandomEdge r = some (p.tpos.getD i 0, e) := by
  have h1 : (List.range p.tpos.length).find? (fun t => decide (r < p.prefixLen (t + 1))) = some i := by
    rw [List.find?_range_eq_some]
    refine ⟨?_, List.mem_range.2 hi, fun j hj => ?_⟩
    · rw [prefixLen_succ hi, decide_eq_true_eq]; omega
    · have := prefixLen_mono (p := p) (i := j + 1) (j := i) (by omega) (by omega)
      simp
      omega
  unfold findRandomEdge
  rw [h1, hr]
  simp

theorem exists_prefix {p : Problem} : ∀ (k r : Nat), k ≤ p.tpos.length → r < p.prefixLen k →
    ∃ i e, i < k ∧ e < p.graph.len (p.tpos.getD i 0) ∧ r = p.prefixLen i + e := by
  intro k
  induction k with
  | zero => intro r _ h; simp [prefixLen] at h
  | succ k ih =>
    intro r hk hr
    rw [prefixLen_succ (by omega)] at hr
    by_cases h : r < p.prefixLen k
    · obtain ⟨i, e, a, b, c⟩ := ih r (by omega) h
      exact ⟨i, e, by omega, b, c⟩
    · exact ⟨k, r - p.prefixLen k, by omega, by omega, by omega⟩

/-! ### The rule `connection` -/

/-- All pairs of terminal and edge, in the order of the loops. -/
def allEdges (p : Problem) : List (Nat × Nat) := p.tpos.flatMap fun t => (List.range (p.graph.len t)).map fun e => (t, e)

theorem many_flat (p : Problem) (s : Many) : p.tpos.foldl (fun s t => (List.range (p.graph.len t)).foldl (manyStep p.graph t) s) s =
    p.allEdges.foldl (fun s x => manyStep p.graph x.1 s x.2) s := by
  unfold allEdges
  induction p.tpos generalizing s with
  | nil => rfl
  | cons t l ih => rw [List.foldl_cons, ih, List.flatMap_cons, List.foldl_append, List.foldl_map]

/-- Weight of the listed edges to `v`. -/
def toW (g : MGraph) (l : List (Nat × Nat)) (v : Nat) : Nat := ((l.filter fun x => (g.edge x.1 x.2).target == v).map fun x => (g.edge x.1 x.2).weight).sum

theorem toW_append (g : MGraph) (l m : List (Nat × Nat)) (v : Nat) : toW g (l ++ m) v = toW g l v + toW g m v := by
  simp [toW]

theorem toW_single (g : MGraph) (x : Nat × Nat) (v : Nat) : toW g [x] v = if (g.edge x.1 x.2).target = v then (g.edge x.1 x.2).weight else 0 := by
  unfold toW
  by_cases h : (g.edge x.1 x.2).target = v <;> simp [h]

theorem many_inv {g : MGraph} : ∀ (l done : List (Nat × Nat)) (s : Many), (∀ v, toW g (done ++ l) v < 2 ^ 16) →
    s.terms = toW g done → s.num = toW g done s.ngbr → (∀ v, toW g done v ≤ s.num) →
    let r := l.foldl (fun s x => manyStep g x.1 s x.2) s
    r.num = toW g (done ++ l) r.ngbr ∧ ∀ v, toW g (done ++ l) v ≤ r.num := by
  intro l
  induction l with
  | nil => intro done s _ _ h2 h3; simpa using ⟨h2, h3⟩
  | cons x l ih =>
    intro done s hb h1 h2 h3
    simp only [List.foldl_cons]
    have he : done ++ x :: l = (done ++ [x]) ++ l := by simp
    rw [he] at hb ⊢
    have hx : ∀ v, toW g (done ++ [x]) v < 2 ^ 16 := fun v => by
      have := hb v
      rw [toW_append] at this
      omega
    set v0 := (g.edge x.1 x.2).target with hv0
    have hnew : toW g (done ++ [x]) v0 = toW g done v0 + (g.edge x.1 x.2).weight := by
      rw [toW_append, toW_single, if_pos rfl]
    have hold : ∀ v, v ≠ v0 → toW g (done ++ [x]) v = toW g done v := fun v hv => by
      rw [toW_append, toW_single, if_neg (fun h => hv h.symm), Nat.add_zero]
    have hmod : (s.terms v0 + (g.edge x.1 x.2).weight) % 2 ^ 16 = toW g (done ++ [x]) v0 := by
      rw [h1, ← hnew, Nat.mod_eq_of_lt (hx v0)]
    have hst : manyStep g x.1 s x.2 = Many.mk (update s.terms v0 (toW g (done ++ [x]) v0))
        (if toW g (done ++ [x]) v0 > s.num then toW g (done ++ [x]) v0 else s.num)
        (if toW g (done ++ [x]) v0 > s.num then v0 else s.ngbr) := by
      unfold manyStep
      simp only
      rw [← hv0, hmod]
    refine ih (done ++ [x]) (manyStep g x.1 s x.2) hb ?_ ?_ ?_
    · rw [hst]
      funext v
      show update s.terms v0 _ v = _
      by_cases hv : v = v0
      · rw [hv, update_self]
      · rw [update_of_ne hv, hold v hv, h1]
    · rw [hst]
      show (if _ then _ else _) = toW g (done ++ [x]) (if _ then _ else _)
      by_cases hc : toW g (done ++ [x]) v0 > s.num
      · rw [if_pos hc, if_pos hc]
      · rw [if_neg hc, if_neg hc]
        by_cases hv : s.ngbr = v0
        · rw [hv] at h2 ⊢
          omega
        · rw [hold _ hv, h2]
    · intro v
      rw [hst]
      show _ ≤ if _ then _ else _
      by_cases hv : v = v0
      · rw [hv]; split <;> omega
      · rw [hold v hv]
        have := h3 v
        split <;> omega

/-- The second loop of `findEdgeWithManyTerminals`. -/
theorem best_inv {g : MGraph} {m : Nat} {q : Nat → Bool} (hw : ∀ e, e < g.len m → 0 < (g.edge m e).weight) : ∀ (l : List Nat), (∀ e ∈ l, e < g.len m) →
    ∀ (s : Heavy), ((∃ e, e < g.len m ∧ q (g.edge m e).target = true ∧ s = ⟨(g.edge m e).weight, (g.edge m e).target, (g.edge m e).rev⟩) ∨
      (s.wgt = 0 ∧ ∃ e ∈ l, q (g.edge m e).target = true)) →
    let r := l.foldl (fun (s : Heavy) e =>
      if (g.edge m e).weight > s.wgt ∧ q (g.edge m e).target = true then ⟨(g.edge m e).weight, (g.edge m e).target, (g.edge m e).rev⟩ else s) s
    (∃ e, e < g.len m ∧ q (g.edge m e).target = true ∧ r = ⟨(g.edge m e).weight, (g.edge m e).target, (g.edge m e).rev⟩) ∧
      s.wgt ≤ r.wgt ∧ ∀ e ∈ l, q (g.edge m e).target = true → (g.edge m e).weight ≤ r.wgt := by
  intro l
  induction l with
  | nil =>
    intro _ s h
    rcases h with h | ⟨-, e, he, -⟩
    · exact ⟨h, le_refl _, by simp⟩
    · simp at he
  | cons a l ih =>
    intro hl s h
    simp only [List.foldl_cons]
    have ha := hl a (by simp)
    by_cases hc : (g.edge m a).weight > s.wgt ∧ q (g.edge m a).target = true
    · rw [if_pos hc]
      obtain ⟨h1, h2, h3⟩ := ih (fun e he => hl e (by simp [he])) ⟨(g.edge m a).weight, (g.edge m a).target, (g.edge m a).rev⟩
        (.inl ⟨a, ha, hc.2, rfl⟩)
      have h2' : (g.edge m a).weight ≤ _ := h2
      refine ⟨h1, le_trans hc.1.le h2', fun e he hq => ?_⟩
      rcases List.mem_cons.1 he with rfl | he
      · exact h2'
      · exact h3 e he hq
    · rw [if_neg hc]
      obtain ⟨h1, h2, h3⟩ := ih (fun e he => hl e (by simp [he])) s (by
        rcases h with h | ⟨h0, e, he, hq⟩
        · exact .inl h
        · refine .inr ⟨h0, e, ?_, hq⟩
          rcases List.mem_cons.1 he with rfl | he
          · exact absurd ⟨by rw [h0]; exact hw _ ha, hq⟩ hc
          · exact he)
      refine ⟨h1, h2, fun e he hq => ?_⟩
      rcases List.mem_cons.1 he with rfl | he
      · have : ¬ (g.edge m e).weight > s.wgt := fun hgt => hc ⟨hgt, hq⟩
        omega
      · exact h3 e he hq

theorem toW_all {p : Problem} (ht : ∀ t ∈ p.tpos, t < p.graph.n) (v : Nat) :
    toW p.graph p.allEdges v = (p.tpos.map fun t => p.graph.toGraph.wt t v).sum := by
  unfold allEdges
  have : ∀ l : List Nat, (∀ t ∈ l, t < p.graph.n) →
      toW p.graph (l.flatMap fun t => (List.range (p.graph.len t)).map fun e => (t, e)) v = (l.map fun t => p.graph.toGraph.wt t v).sum := by
    intro l
    induction l with
    | nil => intro _; rfl
    | cons t l ih =>
      intro hl
      rw [List.flatMap_cons, toW_append, ih (fun t ht => hl t (by simp [ht])), List.map_cons, List.sum_cons]
      congr 1
      unfold toW Graph.wt
      rw [toGraph_edges _ (hl t (by simp)), List.filter_map, List.filter_map, List.map_map, List.map_map]
      rfl
  exact this _ ht

/-- What the rule `connection` returns. -/
theorem many_spec {p : Problem} (hg : p.graph.Consistent) (ht : ∀ t ∈ p.tpos, t < p.graph.n)
    (hw : ∀ u e, u < p.graph.n → e < p.graph.len u → 0 < (p.graph.edge u e).weight) (hb : ∀ v, (p.tpos.map fun t => p.graph.toGraph.wt t v).sum < 2 ^ 16)
    (he : ∃ t ∈ p.tpos, 0 < p.graph.len t) :
    ∃ t e, p.findEdgeWithManyTerminals = (t, e) ∧ t ∈ p.tpos ∧ e < p.graph.len t ∧
      (∀ v, (p.tpos.map fun t => p.graph.toGraph.wt t v).sum ≤ (p.tpos.map fun s => p.graph.toGraph.wt s (p.graph.edge t e).target).sum) ∧
      ∀ s ∈ p.tpos, ∀ a, a < p.graph.len s → (p.graph.edge s a).target = (p.graph.edge t e).target →
        (p.graph.edge s a).weight ≤ (p.graph.edge t e).weight := by
  obtain ⟨i1, i2⟩ := many_inv (g := p.graph) p.allEdges [] {} (fun v => by rw [List.nil_append, toW_all ht]; exact hb v) rfl rfl
    (fun v => by simp [toW])
  rw [← many_flat, List.nil_append] at i1 i2
  set m := (p.tpos.foldl (fun s t => (List.range (p.graph.len t)).foldl (manyStep p.graph t) s) ({} : Many)).ngbr with hm
  obtain ⟨t0, ht0, hl0⟩ := he
  have hmpos : 0 < toW p.graph p.allEdges m := by
    rw [← i1]
    refine lt_of_lt_of_le ?_ (i2 (p.graph.edge t0 0).target)
    refine lt_of_lt_of_le (hw t0 0 (ht t0 ht0) hl0) ?_
    refine List.single_le_sum (fun _ _ => Nat.zero_le _) _ (List.mem_map.2 ⟨(t0, 0), List.mem_filter.2 ⟨?_, by simp⟩, rfl⟩)
    exact List.mem_flatMap.2 ⟨t0, ht0, List.mem_map.2 ⟨0, List.mem_range.2 hl0, rfl⟩⟩
  obtain ⟨t1, ht1, a1, ha1, hta⟩ : ∃ t ∈ p.tpos, ∃ a, a < p.graph.len t ∧ (p.graph.edge t a).target = m := by
    by_contra hno
    push Not at hno
    have : toW p.graph p.allEdges m = 0 := by
      unfold toW
      rw [List.filter_eq_nil_iff.2]
      · rfl
      · intro x hx
        obtain ⟨t, ht, hx⟩ := List.mem_flatMap.1 hx
        obtain ⟨e, he, rfl⟩ := List.mem_map.1 hx
        simpa using hno t ht e (List.mem_range.1 he)
    omega
  have hmn : m < p.graph.n := by rw [← hta]; exact hg.target t1 a1 (ht t1 ht1) ha1
  have rev : ∀ s ∈ p.tpos, ∀ a, a < p.graph.len s → (p.graph.edge s a).target = m →
      (p.graph.edge s a).rev < p.graph.len m ∧ (p.graph.edge m (p.graph.edge s a).rev).target = s ∧
      (p.graph.edge m (p.graph.edge s a).rev).weight = (p.graph.edge s a).weight := by
    intro s hs a ha hma
    have k1 := hg.partner s a (ht s hs) ha
    have k2 := (hg.back s a (ht s hs) ha).1
    have k3 := hg.weight s a (ht s hs) ha
    rw [hma] at k1 k2 k3
    exact ⟨k1, k2, k3⟩
  obtain ⟨r1, r2, r3⟩ := rev t1 ht1 a1 ha1 hta
  obtain ⟨⟨e, e1, e2, e3⟩, -, e4⟩ := best_inv (g := p.graph) (m := m) (q := fun v => decide (v ∈ p.tpos)) (fun e he => hw m e hmn he)
    (List.range (p.graph.len m)) (fun e he => List.mem_range.1 he) {} (.inr ⟨rfl, _, List.mem_range.2 r1, by rw [r2]; simpa using ht1⟩)
  simp only [decide_eq_true_eq] at e2 e3 e4
  have hres : p.findEdgeWithManyTerminals = ((p.graph.edge m e).target, (p.graph.edge m e).rev) := by
    unfold findEdgeWithManyTerminals
    simp only
    rw [← hm, e3]
  have b1 := hg.partner m e hmn e1
  have b2 := (hg.back m e hmn e1).1
  have b3 := hg.weight m e hmn e1
  refine ⟨_, _, hres, e2, b1, fun v => ?_, fun s hs a ha hsa => ?_⟩
  · rw [b2, ← toW_all ht, ← toW_all ht, ← i1]
    exact i2 v
  · rw [b2] at hsa
    obtain ⟨c1, c2, c3⟩ := rev s hs a ha hsa
    rw [b3, ← c3]
    have := e4 _ (List.mem_range.2 c1) (by rw [c2]; exact hs)
    rw [e3] at this
    exact this

end Problem
end VieCut
