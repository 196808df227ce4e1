import Verif.Proof.HighDegree

namespace VieCut
open Finset

theorem multicut_le_of_pointwise {n : Nat} {w w' : Nat → Nat → Nat} {f g : Nat → Nat}
    (h : ∀ u v, u < n → v < n → f u ≠ f v → w u v ≤ if g u ≠ g v then w' u v else 0) :
    multicutValue n w f ≤ multicutValue n w' g := by
  unfold multicutValue
  refine Finset.sum_le_sum fun v hv => Finset.sum_le_sum fun u hu => ?_
  have hv' := Finset.mem_range.1 hv
  have hu' := Finset.mem_range.1 hu
  by_cases c : f u ≠ f v
  · rw [if_pos c]; exact h u v (by omega) hv' c
  · rw [if_neg c]; exact Nat.zero_le _

namespace Problem
open MGraph

/-- Index of the heavier of the two edges of a vertex of degree two. -/
def pick2 (g : MGraph) (a : Nat) : Nat := if (g.edge a 0).weight ≥ (g.edge a 1).weight then 0 else 1

/-- Index of the heavier of the two edges other than `r` of a vertex of degree three. -/
def pick3 (g : MGraph) (a r : Nat) : Nat :=
  if (g.edge a (0 + if r = 0 then 1 else 0)).weight ≥ (g.edge a (1 + if r ≤ 1 then 1 else 0)).weight then
    0 + (if r = 0 then 1 else 0) else 1 + (if r ≤ 1 then 1 else 0)

/-- Leaves that are not terminals. -/
def leaf (g : MGraph) (term : Nat → Bool) (v : Nat) : Bool := !term v && decide (g.len v = 1) && decide (v < g.n)

/-- The merges requested by `lowDegreeContraction`. -/
def LowReq (g : MGraph) (term : Nat → Bool) (a b : Nat) : Prop :=
  a < g.n ∧ term a = false ∧
    ((leaf g term a = true ∧ b = (g.edge a 0).target) ∨
     (g.len a = 2 ∧ b = (g.edge a (pick2 g a)).target) ∨
     (g.len a = 3 ∧ ∃ r, r < 3 ∧ leaf g term (g.edge a r).target = true ∧ b = (g.edge a (pick3 g a r)).target))

theorem pick3_spec (g : MGraph) (a : Nat) {r : Nat} (hr : r < 3) : pick3 g a r < 3 ∧ pick3 g a r ≠ r ∧
    ∀ i, i < 3 → i ≠ r → i ≠ pick3 g a r → (g.edge a i).weight ≤ (g.edge a (pick3 g a r)).weight := by
  unfold pick3
  have h3 : r = 0 ∨ r = 1 ∨ r = 2 := by omega
  rcases h3 with rfl | rfl | rfl <;> simp only [if_true, if_false, Nat.le_refl, Nat.zero_le, Nat.one_ne_zero,
    OfNat.ofNat_ne_zero, show ¬ (2 : Nat) ≤ 1 by decide] <;> split <;> rename_i hc <;> refine ⟨by decide, by decide, ?_⟩ <;>
    intro i h1 h2 h4 <;> have h3 : i = 0 ∨ i = 1 ∨ i = 2 := by omega
  all_goals
    rcases h3 with rfl | rfl | rfl <;> simp at h2 h4 hc ⊢ <;> omega

variable {ots : List Nat} {p : Problem} {g : MGraph} {term : Nat → Bool}

theorem lowReq_target (hc : Consistent g) {a b : Nat} (h : LowReq g term a b) : b < g.n := by
  obtain ⟨h1, _, h3⟩ := h
  rcases h3 with ⟨h3, rfl⟩ | ⟨h3, rfl⟩ | ⟨h3, r, hr, _, rfl⟩
  · unfold leaf at h3
    simp only [Bool.and_eq_true, decide_eq_true_eq] at h3
    exact hc.target a 0 h1 (by omega)
  · exact hc.target a _ h1 (by unfold pick2; split <;> omega)
  · exact hc.target a _ h1 (by rw [h3]; exact (pick3_spec g a hr).1)

/-- Weights without the edges at nonterminal leaves. -/
def cutLeaves (g : MGraph) (term : Nat → Bool) (u v : Nat) : Nat :=
  if leaf g term u || leaf g term v then 0 else g.toGraph.wt u v

theorem edge_mem {u e : Nat} (hu : u < g.n) (he : e < g.len u) :
    ((g.edge u e).target, (g.edge u e).weight) ∈ g.toGraph.edges u := by
  rw [toGraph_edges g hu, List.mem_map]
  exact ⟨e, List.mem_range.2 he, rfl⟩

theorem wt_edge (hs : g.NoParallel) {u e : Nat} (hu : u < g.n) (he : e < g.len u) :
    g.toGraph.wt u (g.edge u e).target = (g.edge u e).weight :=
  wt_of_mem (nodup_targets hs hu) (edge_mem hu he)

/-- Requests that do not involve a leaf: the target is determined by the source. -/
theorem lowReq_unique {a b b' : Nat} (h : LowReq g term a b) (h' : LowReq g term a b')
    (ha : leaf g term a = false) (hb : leaf g term b = false) (hb' : leaf g term b' = false) : b = b' := by
  obtain ⟨_, _, h⟩ := h
  obtain ⟨_, _, h'⟩ := h'
  rw [ha] at h h'
  rcases h with ⟨h, _⟩ | ⟨h, e⟩ | ⟨h, r, hr, hl, e⟩
  · exact absurd h (by simp)
  · rcases h' with ⟨h', _⟩ | ⟨_, e'⟩ | ⟨h', _⟩
    · exact absurd h' (by simp)
    · rw [e, e']
    · omega
  · rcases h' with ⟨h', _⟩ | ⟨h', _⟩ | ⟨_, r', hr', hl', e'⟩
    · exact absurd h' (by simp)
    · omega
    · obtain ⟨p1, p2, _⟩ := pick3_spec g a hr
      obtain ⟨q1, q2, _⟩ := pick3_spec g a hr'
      have n1 : pick3 g a r ≠ r' := by
        intro hh; rw [e, hh, hl'] at hb; exact absurd hb (by simp)
      have n2 : pick3 g a r' ≠ r := by
        intro hh; rw [e', hh, hl] at hb'; exact absurd hb' (by simp)
      by_cases hrr : r = r'
      · subst hrr; rw [e, e']
      · have : pick3 g a r = pick3 g a r' := by omega
        rw [e, e', this]

theorem cutLeaves_symm (hv : Valid g) (u v : Nat) : cutLeaves g term u v = cutLeaves g term v u := by
  unfold cutLeaves
  rw [Bool.or_comm, hv.wf.wt_symm]

theorem cutLeaves_le (u v : Nat) : cutLeaves g term u v ≤ g.toGraph.wt u v := by
  unfold cutLeaves; split
  · exact Nat.zero_le _
  · exact Nat.le_refl _

/-- Requests that do not involve a leaf are arcs of the graph without the leaves. -/
theorem lowReq_arc (hv : Valid g) (hs : g.NoParallel) {ts : List Nat} (hts : ∀ v ∈ ts, term v = true ∨ g.len v = 0)
    {a b : Nat} (h : LowReq g term a b) (ha : leaf g term a = false) (hb : leaf g term b = false) :
    Arc g.n (cutLeaves g term) ts a b := by
  have hbn := lowReq_target (consistent_iff.2 hv) h
  obtain ⟨h1, h2, h3⟩ := h
  have hlen : 0 < g.len a := by
    rcases h3 with ⟨h3, _⟩ | ⟨h3, _⟩ | ⟨h3, _⟩
    · rw [ha] at h3; exact absurd h3 (by simp)
    · omega
    · omega
  refine ⟨h1, hbn, ?_, Or.inl ?_⟩
  · intro hh
    rcases hts a hh with h' | h'
    · rw [h2] at h'; exact absurd h' (by simp)
    · omega
  have hrow : btw g.n (cutLeaves g term) (fun x => x = a) (fun x => x ≠ a) ≤
      rowTo g.toGraph a (fun v => !leaf g term v) := by
    rw [btw_row h1, rowTo_eq hv.wf, toGraph_n]
    refine Finset.sum_le_sum fun v _ => ?_
    unfold cutLeaves
    rw [ha, Bool.false_or]
    by_cases hl : leaf g term v = true
    · simp [hl]
    · have hl' : leaf g term v = false := by simpa using hl
      simp only [hl', Bool.false_eq_true, if_false, Bool.not_false, if_true]
      exact Nat.le_trans (Nat.mul_le_mul_right _ (ind_le_one _)) (by rw [Nat.one_mul])
  have hwab : cutLeaves g term a b = g.toGraph.wt a b := by
    unfold cutLeaves; rw [ha, hb]; simp
  rw [hwab]
  refine hrow.trans ?_
  unfold rowTo
  rw [toGraph_edges g h1]
  rcases h3 with ⟨h3, _⟩ | ⟨h3, e⟩ | ⟨h3, r, hr, hl, e⟩
  · rw [ha] at h3; exact absurd h3 (by simp)
  · have hle : ∀ l : List (Nat × Nat), ((l.filter (fun e => !leaf g term e.1)).map (·.2)).sum ≤ (l.map (·.2)).sum := by
      intro l
      induction l with
      | nil => simp
      | cons x l ih =>
        rw [List.filter_cons]
        split
        · simp only [List.map_cons, List.sum_cons]; omega
        · simp only [List.map_cons, List.sum_cons]; omega
    refine (hle _).trans ?_
    rw [e, wt_edge hs h1 (by unfold pick2; split <;> omega), h3]
    simp only [List.range_succ, List.range_zero, List.nil_append, List.cons_append, List.map_cons, List.map_nil,
      List.sum_cons, List.sum_nil]
    unfold pick2
    split <;> omega
  · obtain ⟨p1, p2, p3⟩ := pick3_spec g a hr
    rw [e, wt_edge hs h1 (by rw [h3]; exact p1), h3]
    have key : ∀ i, i < 3 → (if (!leaf g term (g.edge a i).target) = true then (g.edge a i).weight else 0) ≤
        if i = r then 0 else (g.edge a (pick3 g a r)).weight := by
      intro i hi
      by_cases hir : i = r
      · rw [hir, hl]; simp
      · rw [if_neg hir]
        by_cases hip : i = pick3 g a r
        · rw [hip]; split <;> omega
        · have := p3 i hi hir hip
          split <;> omega
    have k0 := key 0 (by omega)
    have k1 := key 1 (by omega)
    have k2 := key 2 (by omega)
    have hsum : ((((List.range 3).map fun e => ((g.edge a e).target, (g.edge a e).weight)).filter
        (fun e => !leaf g term e.1)).map (·.2)).sum =
        (if (!leaf g term (g.edge a 0).target) = true then (g.edge a 0).weight else 0) +
        (if (!leaf g term (g.edge a 1).target) = true then (g.edge a 1).weight else 0) +
        (if (!leaf g term (g.edge a 2).target) = true then (g.edge a 2).weight else 0) := by
      simp only [List.range_succ, List.range_zero, List.nil_append, List.cons_append, List.map_cons, List.map_nil,
        List.filter_cons, List.filter_nil]
      by_cases c0 : leaf g term (g.edge a 0).target = true <;> by_cases c1 : leaf g term (g.edge a 1).target = true <;>
        by_cases c2 : leaf g term (g.edge a 2).target = true <;> simp [c0, c1, c2] <;> omega
    rw [hsum]
    have h3 : r = 0 ∨ r = 1 ∨ r = 2 := by omega
    rcases h3 with h3 | h3 | h3 <;> subst h3 <;> simp only [if_true, if_false, Nat.one_ne_zero, OfNat.ofNat_ne_zero,
      show ¬ (0 : Nat) = 1 by decide, show ¬ (0 : Nat) = 2 by decide, show ¬ (1 : Nat) = 2 by decide,
      show ¬ (2 : Nat) = 1 by decide] at k0 k1 k2 <;> omega

theorem leaf_wt (hv : Valid g) {z v : Nat} (hz : leaf g term z = true) (h : 0 < g.toGraph.wt z v) :
    v = (g.edge z 0).target := by
  unfold leaf at hz
  simp only [Bool.and_eq_true, decide_eq_true_eq, Bool.not_eq_true'] at hz
  obtain ⟨e, he, rfl⟩ := exists_mem_of_wt_pos h
  rw [toGraph_edges g hz.2, hz.1.2] at he
  simp only [List.range_one, List.map_cons, List.map_nil, List.mem_singleton] at he
  rw [he]

/-- All requested merges can be satisfied at the same time. -/
theorem lowReqs_safe (hv : Valid g) (hs : g.NoParallel) {ts : List Nat} (htn : ∀ t ∈ ts, t < g.n)
    (hts : ∀ v ∈ ts, term v = true ∨ g.len v = 0) {ps : List (Nat × Nat)} (hps : ∀ q ∈ ps, LowReq g term q.1 q.2)
    (f : Nat → Nat) (hf : Separates ts f) :
    ∃ f', Separates ts f' ∧ multicutValue g.n g.toGraph.wt f' ≤ multicutValue g.n g.toGraph.wt f ∧
      ∀ q ∈ ps, f' q.1 = f' q.2 := by
  set l := (ps.filter (fun q => !leaf g term q.1 && !leaf g term q.2)).dedup with hl
  have hmem : ∀ q, q ∈ l ↔ q ∈ ps ∧ leaf g term q.1 = false ∧ leaf g term q.2 = false := by
    intro q
    rw [hl, List.mem_dedup, List.mem_filter]
    simp
  have hnd : (l.map Prod.fst).Nodup := by
    refine (List.nodup_map_iff_inj_on (List.nodup_dedup _)).2 ?_
    intro x hx y hy hxy
    obtain ⟨x1, x2, x3⟩ := (hmem x).1 hx
    obtain ⟨y1, y2, y3⟩ := (hmem y).1 hy
    have h1 := hps x x1
    have h2 := hps y y1
    rw [← hxy] at h2
    exact Prod.ext hxy (lowReq_unique h1 h2 x2 x3 y3)
  obtain ⟨f', k1, k2, k3⟩ := arcs_safe (n := g.n) (w := cutLeaves g term) (cutLeaves_symm hv) htn l hnd
    (fun q hq => lowReq_arc hv hs hts (hps q ((hmem q).1 hq).1) ((hmem q).1 hq).2.1 ((hmem q).1 hq).2.2) f hf
  let f'' : Nat → Nat := fun x =>
    if leaf g term x then (if leaf g term (g.edge x 0).target then 0 else f' (g.edge x 0).target) else f' x
  have hnl : ∀ x, leaf g term x = false → f'' x = f' x := by intro x hx; simp [f'', hx]
  have hleafinfo : ∀ z, leaf g term z = true → z < g.n ∧ g.len z = 1 := by
    intro z hz
    unfold leaf at hz
    simp only [Bool.and_eq_true, decide_eq_true_eq, Bool.not_eq_true'] at hz
    exact ⟨hz.2, hz.1.2⟩
  have hback : ∀ z, leaf g term z = true → leaf g term (g.edge z 0).target = true →
      (g.edge (g.edge z 0).target 0).target = z := by
    intro z hz hz'
    obtain ⟨a1, a2⟩ := hleafinfo z hz
    obtain ⟨b1, b2⟩ := hleafinfo _ hz'
    have hc := consistent_iff.2 hv
    have hp := hc.partner z 0 a1 (by omega)
    have hb := (hc.back z 0 a1 (by omega)).1
    rw [b2] at hp
    have : (g.edge z 0).rev = 0 := by omega
    rw [this] at hb
    exact hb
  have hleaf : ∀ z, leaf g term z = true → f'' z = f'' (g.edge z 0).target := by
    intro z hz
    by_cases hz' : leaf g term (g.edge z 0).target = true
    · have hb := hback z hz hz'
      simp only [f'', hz, hz', if_true, hb]
    · have hz'' : leaf g term (g.edge z 0).target = false := by simpa using hz'
      rw [hnl _ hz'']
      simp [f'', hz, hz'']
  refine ⟨f'', ?_, ?_, ?_⟩
  · intro s hs' t ht hne
    have hterm : ∀ s ∈ ts, leaf g term s = false := by
      intro s hs'
      by_contra hc
      have hc' : leaf g term s = true := by simpa using hc
      have := hleafinfo s hc'
      rcases hts s hs' with h' | h'
      · unfold leaf at hc'; rw [h'] at hc'; simp at hc'
      · omega
    rw [hnl s (hterm s hs'), hnl t (hterm t ht)]
    exact k1 s hs' t ht hne
  · refine Nat.le_trans ?_ (k2.trans ?_)
    · refine multicut_le_of_pointwise fun u v hu hv' hne => ?_
      by_cases cu : leaf g term u = true
      · by_cases hp : 0 < g.toGraph.wt u v
        · exact absurd (by rw [leaf_wt hv cu hp]; exact hleaf u cu) hne
        · omega
      · by_cases cv : leaf g term v = true
        · by_cases hp : 0 < g.toGraph.wt u v
          · rw [hv.wf.wt_symm] at hp
            exact absurd (by rw [leaf_wt hv cv hp]; exact (hleaf v cv).symm) hne
          · omega
        · have cu' : leaf g term u = false := by simpa using cu
          have cv' : leaf g term v = false := by simpa using cv
          rw [hnl u cu', hnl v cv'] at hne
          rw [if_pos hne]
          unfold cutLeaves
          rw [cu', cv']
          simp
    · refine multicut_le_of_pointwise fun u v hu hv' hne => ?_
      rw [if_pos hne]
      exact cutLeaves_le u v
  · intro q hq
    have hr := hps q hq
    by_cases c1 : leaf g term q.1 = true
    · obtain ⟨_, _, h3⟩ := hr
      have h1 := (hleafinfo _ c1).2
      rcases h3 with ⟨_, e⟩ | ⟨h3, _⟩ | ⟨h3, _⟩
      · rw [e]; exact hleaf _ c1
      · omega
      · omega
    · have c1' : leaf g term q.1 = false := by simpa using c1
      by_cases c2 : leaf g term q.2 = true
      · -- the target is a leaf, whose only neighbour is the source
        have hc := consistent_iff.2 hv
        have hedge : ∃ i, i < g.len q.1 ∧ q.2 = (g.edge q.1 i).target := by
          obtain ⟨_, _, h3⟩ := hr
          rcases h3 with ⟨h3, _⟩ | ⟨h3, e⟩ | ⟨h3, r, hr, _, e⟩
          · rw [c1'] at h3; exact absurd h3 (by simp)
          · exact ⟨_, by unfold pick2; split <;> omega, e⟩
          · exact ⟨_, by rw [h3]; exact (pick3_spec g q.1 hr).1, e⟩
        obtain ⟨i, hi, he⟩ := hedge
        have hb := hc.back q.1 i hr.1 hi
        have hp := hc.partner q.1 i hr.1 hi
        rw [← he, (hleafinfo _ c2).2] at hp
        have h0 : (g.edge q.1 i).rev = 0 := by omega
        rw [h0, ← he] at hb
        have := hleaf _ c2
        rw [hb.1] at this
        exact this.symm
      · have c2' : leaf g term q.2 = false := by simpa using c2
        rw [hnl _ c1', hnl _ c2']
        exact k3 q ((hmem q).2 ⟨hq, c1', c2'⟩)

/-- No terminal of degree three has a non-terminal neighbour of degree one. -/
def NoSpur (g : MGraph) (term : Nat → Bool) : Prop :=
  ∀ t, t < g.n → term t = true → g.len t = 3 → ∀ e, e < 3 → leaf g term (g.edge t e).target = false

theorem lowStep_rep (hv : Valid g) (hn : NoSpur g term) {uf : UF} {ps : List (Nat × Nat)} (h1 : uf.Rep ps)
    (h2 : uf.size = g.n) (h3 : ∀ q ∈ ps, LowReq g term q.1 q.2) {k : Nat} (hk : k < g.n) :
    ∃ ps', (lowStep g term uf k).Rep ps' ∧ (lowStep g term uf k).size = g.n ∧ ∀ q ∈ ps', LowReq g term q.1 q.2 := by
  have hc := consistent_iff.2 hv
  unfold lowStep
  split
  · exact ⟨ps, h1, h2, h3⟩
  rename_i hterm
  have hterm' : term k = false := by simpa using hterm
  have add : ∀ {uf : UF} {ps : List (Nat × Nat)}, uf.Rep ps → uf.size = g.n → (∀ q ∈ ps, LowReq g term q.1 q.2) →
      ∀ a b, LowReq g term a b → ∃ ps', (uf.union a b).2.Rep ps' ∧ (uf.union a b).2.size = g.n ∧
        ∀ q ∈ ps', LowReq g term q.1 q.2 := by
    intro uf ps h1 h2 h3 a b hr
    have hu := UF.union_spec h1 (l := a) (r := b) (by rw [h2]; exact hr.1) (by rw [h2]; exact lowReq_target hc hr)
    refine ⟨ps ++ [(a, b)], hu.1, hu.2.2.trans h2, ?_⟩
    intro q hq
    rw [List.mem_append, List.mem_singleton] at hq
    rcases hq with hq | rfl
    · exact h3 q hq
    · exact hr
  split
  · rename_i hlen
    dsimp only
    have hleaf : leaf g term k = true := by
      unfold leaf; simp [hterm', hlen, hk]
    have r1 : LowReq g term k (g.edge k 0).target := ⟨hk, hterm', Or.inl ⟨hleaf, rfl⟩⟩
    obtain ⟨ps1, a1, a2, a3⟩ := add h1 h2 h3 _ _ r1
    split
    · rename_i h3'
      have hb := hc.back k 0 hk (by omega)
      have hp := hc.partner k 0 hk (by omega)
      have ht := hc.target k 0 hk (by omega)
      refine add a1 a2 a3 _ _ ⟨ht, ?_, Or.inr (Or.inr ⟨h3', (g.edge k 0).rev, by omega, ?_, ?_⟩)⟩
      · by_contra hcon
        have := hn _ ht (by simpa using hcon) h3' (g.edge k 0).rev (by omega)
        rw [hb.1, hleaf] at this
        exact absurd this (by simp)
      · rw [hb.1]; exact hleaf
      · unfold pick3
        by_cases hw : (g.edge (g.edge k 0).target (0 + if (g.edge k 0).rev = 0 then 1 else 0)).weight ≥
          (g.edge (g.edge k 0).target (1 + if (g.edge k 0).rev ≤ 1 then 1 else 0)).weight
        · rw [if_pos hw, if_pos hw]
        · rw [if_neg hw, if_neg hw]
    · exact ⟨ps1, a1, a2, a3⟩
  · split
    · rename_i hlen
      dsimp only
      refine add h1 h2 h3 _ _ ⟨hk, hterm', Or.inr (Or.inl ⟨hlen, ?_⟩)⟩
      unfold pick2
      split <;> rfl
    · exact ⟨ps, h1, h2, h3⟩

theorem lowDegree_safe (h : Ok ots p) (hn : NoSpur p.graph (p.setTerminals ots).isTerm) :
    ((p.setTerminals ots).lowDegree).Inv ∧ ((p.setTerminals ots).lowDegree).size = p.graph.n ∧
    MergeSafe p.graph.n p.graph.toGraph.wt (p.spots ots) ((p.setTerminals ots).lowDegree).root := by
  have key : ∀ k, k ≤ p.graph.n → ∃ ps,
      ((List.range k).foldl (lowStep p.graph (p.setTerminals ots).isTerm) (UF.mk' p.graph.n)).Rep ps ∧
      ((List.range k).foldl (lowStep p.graph (p.setTerminals ots).isTerm) (UF.mk' p.graph.n)).size = p.graph.n ∧
      ∀ q ∈ ps, LowReq p.graph (p.setTerminals ots).isTerm q.1 q.2 := by
    intro k
    induction k with
    | zero => intro _; exact ⟨[], UF.init_rep _, rfl, by simp⟩
    | succ k ih =>
      intro hk
      obtain ⟨ps, h1, h2, h3⟩ := ih (by omega)
      rw [List.range_succ, List.foldl_append, List.foldl_cons, List.foldl_nil]
      exact lowStep_rep h.valid hn h1 h2 h3 (by omega)
  obtain ⟨ps, h1, h2, h3⟩ := key p.graph.n (Nat.le_refl _)
  exact ⟨h1.inv, h2, mergeSafe_of_rep h1 (lowReqs_safe h.valid h.simple h.spot_lt (spots_isTerm h) h3)⟩

end Problem
end VieCut
