import Verif.Proof.MutableGraph
import Verif.Proof.Contract

/-! Removal of a vertex slot (`freeSlot`) and the position maps. -/

namespace VieCut.MGraph
open Function Finset

/-- Validity of a graph in which the vertices listed in `D` are dead (no live edges from or to them). -/
structure AV (g : MGraph) (D : List Nat) : Prop where
  pv : PV g (fun u e => u < g.n ∧ u ∉ D ∧ e < g.len u)
  wdeg : ∀ u, u < g.n → u ∉ D → g.wdeg u = rowSum g (fun _ w => w) u
  num : g.numEdges = ∑ u ∈ (range g.n).filter (fun u => u ∉ D), g.len u

/-- Validity of a mutable graph. -/
abbrev Valid (g : MGraph) : Prop := AV g []

/-- The two position maps are mutually inverse on the original vertices in `E`, and only these are listed. -/
structure PosIn (E : Nat → Prop) (g : MGraph) : Prop where
  back : ∀ p, p < g.n → ∀ v ∈ g.cont p, E v ∧ g.pos v = p
  mem : ∀ v, E v → g.pos v < g.n → v ∈ g.cont (g.pos v)
  nodup : ∀ p, p < g.n → (g.cont p).Nodup

/-- The two position maps are mutually inverse. -/
abbrev PosInv (g : MGraph) : Prop := PosIn (fun v => v < g.posSize) g

/-- Every live half edge has a positive weight; the vertices in `D` are dead. -/
def PosW (g : MGraph) (D : List Nat) : Prop := ∀ u b, u < g.n → u ∉ D → b < g.len u → 0 < (g.edge u b).weight

theorem AV.symm {g : MGraph} {D : List Nat} (h : AV g D) {u v : Nat} (hu : u < g.n) (hud : u ∉ D)
    (hv : v < g.n) (hvd : v ∉ D) (k : Nat → Nat) :
    rowSum g (fun a w => if a = v then k w else 0) u = rowSum g (fun a w => if a = u then k w else 0) v := by
  unfold rowSum
  rw [← Finset.sum_filter, ← Finset.sum_filter]
  refine Finset.sum_nbij' (fun e => (g.edge u e).rev) (fun e => (g.edge v e).rev) ?_ ?_ ?_ ?_ ?_
  · intro e he
    rw [mem_filter, mem_range] at he
    obtain ⟨h1, h2, h3, h4, h5, h6⟩ := h.pv u e ⟨hu, hud, he.1⟩
    rw [he.2] at h2 h3
    rw [mem_filter, mem_range]
    exact ⟨h2.2.2, h3⟩
  · intro e he
    rw [mem_filter, mem_range] at he
    obtain ⟨h1, h2, h3, h4, h5, h6⟩ := h.pv v e ⟨hv, hvd, he.1⟩
    rw [he.2] at h2 h3
    rw [mem_filter, mem_range]
    exact ⟨h2.2.2, h3⟩
  · intro e he
    rw [mem_filter, mem_range] at he
    obtain ⟨h1, h2, h3, h4, h5, h6⟩ := h.pv u e ⟨hu, hud, he.1⟩
    rw [he.2] at h4
    exact h4
  · intro e he
    rw [mem_filter, mem_range] at he
    obtain ⟨h1, h2, h3, h4, h5, h6⟩ := h.pv v e ⟨hv, hvd, he.1⟩
    rw [he.2] at h4
    exact h4
  · intro e he
    rw [mem_filter, mem_range] at he
    obtain ⟨h1, h2, h3, h4, h5, h6⟩ := h.pv u e ⟨hu, hud, he.1⟩
    rw [he.2] at h5
    rw [h5]

/-- Relabelling of vertices when the last one moves to `slot`. -/
def relab (slot last x : Nat) : Nat := if x = last then slot else x

theorem remap_fold {g : MGraph} {L : Nat → Nat → Prop} {slot last : Nat} (h : PV g L)
    (hl : ∀ c, c < g.len last → L last c) (hsl : ∀ b, ¬ L slot b) :
    ∀ c, c ≤ g.len last → ∀ g1 : MGraph, g1.len = update g.len slot (g.len last) →
      g1.edge = update g.edge slot (g.edge last) →
      let g2 := (List.range c).foldl (remapStep slot) g1
      (g2.len = g1.len ∧ g2.wdeg = g1.wdeg ∧ g2.n = g1.n ∧ g2.pos = g1.pos ∧ g2.cont = g1.cont ∧
        g2.numEdges = g1.numEdges ∧ g2.posSize = g1.posSize ∧ g2.origNodes = g1.origNodes ∧
        g2.lastNode = g1.lastNode ∧ g2.contSize = g1.contSize ∧ g2.part = g1.part ∧ g2.inCut = g1.inCut ∧
        g2.partCount = g1.partCount) ∧
      (∀ b, b < g.len last → g2.edge slot b = g.edge last b) ∧
      (∀ a b, L a b → g2.edge a b =
        if (g.edge a b).target = last ∧ (g.edge a b).rev < c then { g.edge a b with target := slot } else g.edge a b) := by
  intro c
  induction c with
  | zero =>
    intro _ g1 h1 h2
    refine ⟨⟨rfl, rfl, rfl, rfl, rfl, rfl, rfl, rfl, rfl, rfl, rfl, rfl, rfl⟩, ?_, ?_⟩
    · intro b _; simp only [List.range_zero, List.foldl_nil, h2, update_self]
    · intro a b ha
      have : a ≠ slot := fun hh => hsl b (by rw [← hh]; exact ha)
      simp only [List.range_zero, List.foldl_nil, h2, update_of_ne this, Nat.not_lt_zero, and_false, if_false]
  | succ c ih =>
    intro hc g1 h1 h2
    obtain ⟨hf, i1, i2⟩ := ih (by omega) g1 h1 h2
    simp only [List.range_succ, List.foldl_append, List.foldl_cons, List.foldl_nil]
    set g2 := (List.range c).foldl (remapStep slot) g1 with hg2
    obtain ⟨k1, k2, k3, k4, k5, k6⟩ := h last c (hl c (by omega))
    have hr : g2.edge slot c = g.edge last c := i1 c (by omega)
    have hE : ∀ a b, (remapStep slot g2 c).edge a b = if a = (g.edge last c).target ∧ b = (g.edge last c).rev
        then { g2.edge a b with target := slot } else g2.edge a b := by
      intro a b
      unfold remapStep
      simp only [hr, setEdge_edge]
      by_cases hab : a = (g.edge last c).target ∧ b = (g.edge last c).rev
      · rw [if_pos hab, if_pos hab]; rw [hab.1, hab.2]
      · rw [if_neg hab, if_neg hab]
    refine ⟨hf, ?_, ?_⟩
    · intro b hb
      rw [hE, if_neg, i1 b hb]
      rintro ⟨q, _⟩
      rw [← q] at k2
      exact hsl _ k2
    · intro a b had
      rw [hE, i2 a b had]
      obtain ⟨j1, j2, j3, j4, j5, j6⟩ := h a b had
      by_cases hp : a = (g.edge last c).target ∧ b = (g.edge last c).rev
      · rw [if_pos hp]
        obtain ⟨rfl, rfl⟩ := hp
        rw [if_neg (by rw [k4]; rintro ⟨_, hh⟩; omega), if_pos ⟨k3, by omega⟩]
      · rw [if_neg hp]
        by_cases hq : (g.edge a b).target = last ∧ (g.edge a b).rev < c
        · rw [if_pos hq, if_pos ⟨hq.1, by omega⟩]
        · rw [if_neg hq, if_neg]
          rintro ⟨q1, q2⟩
          have q3 : (g.edge a b).rev = c := by
            by_contra hne; exact hq ⟨q1, by omega⟩
          rw [q1, q3] at j3 j4
          exact hp ⟨j3.symm, j4.symm⟩

/-- Structural effect of moving the last vertex into `slot` and shrinking (edge arrays only). -/
structure Freed (g g' : MGraph) (slot : Nat) (D : List Nat) : Prop where
  n : g'.n = g.n - 1
  len : ∀ a, a < g.n - 1 → a ∉ D → g'.len a = g.len (if a = slot then g.n - 1 else a)
  wdeg : ∀ a, a < g.n - 1 → a ∉ D → g'.wdeg a = g.wdeg (if a = slot then g.n - 1 else a)
  edge : ∀ a, a < g.n - 1 → a ∉ D → ∀ b, b < g.len (if a = slot then g.n - 1 else a) →
    g'.edge a b = { g.edge (if a = slot then g.n - 1 else a) b with
      target := relab slot (g.n - 1) (g.edge (if a = slot then g.n - 1 else a) b).target }
  num : g'.numEdges = g.numEdges

/-- Effect of moving the last vertex into `slot` on the live half edges `L`. -/
theorem moved_edges {g : MGraph} {L : Nat → Nat → Prop} {slot : Nat} (h : PV g L) (hs : slot < g.n - 1)
    (hl : ∀ c, c < g.len (g.n - 1) → L (g.n - 1) c) (hsl : ∀ b, ¬ L slot b) :
    let g' := (g.moveLast slot).popVertex.remap slot
    g'.n = g.n - 1 ∧ g'.numEdges = g.numEdges ∧
    (∀ a, a < g.n - 1 → g'.len a = g.len (if a = slot then g.n - 1 else a)) ∧
    (∀ a, a < g.n - 1 → g'.wdeg a = g.wdeg (if a = slot then g.n - 1 else a)) ∧
    (∀ a, a < g.n - 1 → ∀ b, L (if a = slot then g.n - 1 else a) b →
      g'.edge a b = { g.edge (if a = slot then g.n - 1 else a) b with
        target := relab slot (g.n - 1) (g.edge (if a = slot then g.n - 1 else a) b).target }) := by
  intro g'
  have hlen0 : (g.moveLast slot).popVertex.len slot = g.len (g.n - 1) := by
    simp [moveLast, popVertex]
  have hk := remap_fold h hl hsl (g.len (g.n - 1)) (le_refl _) (g.moveLast slot).popVertex rfl rfl
  have hdef : g' = (List.range (g.len (g.n - 1))).foldl (remapStep slot) (g.moveLast slot).popVertex := by
    show remap _ _ = _
    unfold remap; rw [hlen0]
  rw [hdef]
  obtain ⟨⟨f1, f2, f3, f4, f5, f6, f7⟩, k1, k2⟩ := hk
  refine ⟨by rw [f3]; rfl, by rw [f6]; rfl, ?_, ?_, ?_⟩
  · intro a ha
    rw [f1]
    simp only [moveLast, popVertex]
    by_cases h1 : a = slot
    · subst h1; simp
    · rw [update_of_ne h1, if_neg h1]
  · intro a ha
    rw [f2]
    simp only [moveLast, popVertex]
    by_cases h1 : a = slot
    · subst h1; simp
    · rw [update_of_ne h1, if_neg h1]
  · intro a ha b hb
    by_cases h1 : a = slot
    · subst h1
      rw [if_pos rfl] at hb ⊢
      obtain ⟨j1, j2, j3, j4, j5, j6⟩ := h _ b hb
      rw [k1 b j1]
      unfold relab
      rw [if_neg j6]
    · rw [if_neg h1] at hb ⊢
      rw [k2 a b hb]
      unfold relab
      obtain ⟨j1, j2, j3, j4, j5, j6⟩ := h a b hb
      by_cases h2 : (g.edge a b).target = g.n - 1
      · rw [if_pos h2, if_pos]
        have := (h _ _ j2).1
        rw [h2] at this
        exact ⟨h2, this⟩
      · rw [if_neg h2, if_neg (by intro hh; exact h2 hh.1)]

theorem freed_move {g : MGraph} {D : List Nat} {slot : Nat} (h : AV g (slot :: D)) (hs : slot < g.n - 1)
    (hD : ∀ d ∈ D, d < slot) : Freed g ((g.moveLast slot).popVertex.remap slot) slot D := by
  have hl : g.n - 1 ∉ slot :: D := by
    intro hh
    rcases List.mem_cons.1 hh with h1 | h1
    · omega
    · have := hD _ h1; omega
  obtain ⟨k1, k2, k3, k4, k5⟩ := moved_edges h.pv hs (fun c hc => ⟨by omega, hl, hc⟩) (fun b hb => hb.2.1 (by simp))
  refine ⟨k1, fun a ha _ => k3 a ha, fun a ha _ => k4 a ha, ?_, k2⟩
  intro a ha had b hb
  refine k5 a ha b ?_
  by_cases h1 : a = slot
  · rw [if_pos h1] at hb ⊢; exact ⟨by omega, hl, hb⟩
  · rw [if_neg h1] at hb ⊢; exact ⟨by omega, by simp [h1, had], hb⟩

theorem freed_pop {g : MGraph} {D : List Nat} {slot : Nat} (h : AV g (slot :: D)) (hs : slot = g.n - 1)
    (hn : 0 < g.n) : Freed g g.popVertex slot D := by
  have hne : ∀ a, a < g.n - 1 → a ≠ slot := by intro a ha; omega
  refine ⟨rfl, ?_, ?_, ?_, rfl⟩
  · intro a ha _; rw [if_neg (hne a ha)]; rfl
  · intro a ha _; rw [if_neg (hne a ha)]; rfl
  · intro a ha had b hb
    rw [if_neg (hne a ha)] at hb ⊢
    have had' : a ∉ slot :: D := by
      intro hh; rcases List.mem_cons.1 hh with h2 | h2
      · exact hne a ha h2
      · exact had h2
    obtain ⟨j1, j2, j3, j4, j5, j6⟩ := h.pv a b ⟨by omega, had', hb⟩
    unfold relab
    rw [if_neg]
    · rfl
    · intro hh; exact j2.2.1 (by rw [hh, hs]; simp)

theorem Freed.row {g g' : MGraph} {slot : Nat} {D : List Nat} (h : Freed g g' slot D) (f : Nat → Nat → Nat)
    {a : Nat} (ha : a < g.n - 1) (had : a ∉ D) :
    rowSum g' f a = rowSum g (fun x w => f (relab slot (g.n - 1) x) w) (if a = slot then g.n - 1 else a) := by
  unfold rowSum
  rw [h.len a ha had]
  refine Finset.sum_congr rfl fun b hb => ?_
  rw [h.edge a ha had b (mem_range.1 hb)]

theorem Freed.av {g g' : MGraph} {slot : Nat} {D : List Nat} (h : Freed g g' slot D) (ha : AV g (slot :: D))
    (hs : slot < g.n) (hD : ∀ d ∈ D, d < slot) : AV g' D := by
  have hsD : slot ∉ D := fun hh => by have := hD _ hh; omega
  have hlast : slot < g.n - 1 → g.n - 1 ∉ slot :: D := by
    intro h1 hh
    rcases List.mem_cons.1 hh with h2 | h2
    · omega
    · have := hD _ h2; omega
  have hold : ∀ a, a < g.n - 1 → a ∉ D → (if a = slot then g.n - 1 else a) < g.n ∧
      (if a = slot then g.n - 1 else a) ∉ slot :: D := by
    intro a h1 h2
    by_cases h3 : a = slot
    · rw [if_pos h3]; subst h3; exact ⟨by omega, hlast h1⟩
    · rw [if_neg h3]; exact ⟨by omega, by simp [h3, h2]⟩
  have hro : ∀ a, a < g.n - 1 → a ∉ D → relab slot (g.n - 1) (if a = slot then g.n - 1 else a) = a := by
    intro a h1 h2
    unfold relab
    by_cases h3 : a = slot
    · rw [if_pos h3, if_pos rfl, h3]
    · rw [if_neg h3, if_neg (by omega)]
  have hor : ∀ x, x < g.n → x ∉ slot :: D → relab slot (g.n - 1) x < g.n - 1 ∧ relab slot (g.n - 1) x ∉ D ∧
      (if relab slot (g.n - 1) x = slot then g.n - 1 else relab slot (g.n - 1) x) = x := by
    intro x h1 h2
    have hx : x ≠ slot := fun hh => h2 (by simp [hh])
    have hxD : x ∉ D := fun hh => h2 (by simp [hh])
    unfold relab
    by_cases h3 : x = g.n - 1
    · rw [if_pos h3, if_pos rfl]; exact ⟨by omega, hsD, h3.symm⟩
    · rw [if_neg h3, if_neg hx]; exact ⟨by omega, hxD, rfl⟩
  refine ⟨?_, ?_, ?_⟩
  · rintro a b ⟨h1, h2, h3⟩
    rw [h.n] at h1
    rw [h.len a h1 h2] at h3
    obtain ⟨o1, o2⟩ := hold a h1 h2
    have hro' := hro a h1 h2
    have hE := h.edge a h1 h2 b h3
    set oa := (if a = slot then g.n - 1 else a) with hoa
    obtain ⟨j1, ⟨j2, j2', j2''⟩, j3, j4, j5, j6⟩ := ha.pv oa b ⟨o1, o2, h3⟩
    obtain ⟨q1, q2, q3⟩ := hor _ j2 j2'
    have hE2 := h.edge _ q1 q2 (g.edge oa b).rev (by rw [q3]; exact j2'')
    rw [q3] at hE2
    rw [hE]
    simp only
    rw [hE2]
    simp only
    refine ⟨by rw [h.len a h1 h2]; exact h3, ⟨by rw [h.n]; exact q1, q2, by rw [h.len _ q1 q2, q3]; exact j2''⟩,
      ?_, j4, j5, ?_⟩
    · rw [j3]; exact hro'
    · intro hh
      apply j6
      rw [hh, ← hoa] at q3
      exact q3.symm
  · intro a h1 h2
    rw [h.n] at h1
    rw [h.wdeg a h1 h2, h.row _ h1 h2]
    exact ha.wdeg _ (hold a h1 h2).1 (hold a h1 h2).2
  · rw [h.num, ha.num, h.n]
    symm
    refine Finset.sum_nbij' (fun a => if a = slot then g.n - 1 else a) (relab slot (g.n - 1)) ?_ ?_ ?_ ?_ ?_
    · intro a hh
      rw [mem_filter, mem_range] at hh ⊢
      exact hold a hh.1 hh.2
    · intro a hh
      rw [mem_filter, mem_range] at hh ⊢
      obtain ⟨q1, q2, _⟩ := hor a hh.1 hh.2
      exact ⟨q1, q2⟩
    · intro a hh
      rw [mem_filter, mem_range] at hh
      exact hro a hh.1 hh.2
    · intro a hh
      rw [mem_filter, mem_range] at hh
      exact (hor a hh.1 hh.2).2.2
    · intro a hh
      rw [mem_filter, mem_range] at hh
      exact h.len a hh.1 hh.2

theorem relab_spec {slot n : Nat} {D : List Nat} (hs : slot < n) (hD : ∀ d ∈ D, d < slot) {x : Nat} (hx : x < n)
    (hxD : x ∉ slot :: D) : relab slot (n - 1) x < n - 1 ∧ relab slot (n - 1) x ∉ D ∧
      (if relab slot (n - 1) x = slot then n - 1 else relab slot (n - 1) x) = x := by
  have hsD : slot ∉ D := fun hh => by have := hD _ hh; omega
  have hx1 : x ≠ slot := fun hh => hxD (by simp [hh])
  have hxD' : x ∉ D := fun hh => hxD (by simp [hh])
  unfold relab
  by_cases h3 : x = n - 1
  · rw [if_pos h3, if_pos rfl]; exact ⟨by omega, hsD, h3.symm⟩
  · rw [if_neg h3, if_neg hx1]; exact ⟨by omega, hxD', rfl⟩

theorem relab_inj {slot n : Nat} {D : List Nat} (hs : slot < n) (hD : ∀ d ∈ D, d < slot) {x y : Nat} (hx : x < n)
    (hxD : x ∉ slot :: D) (hy : y < n) (hyD : y ∉ slot :: D) :
    relab slot (n - 1) x = relab slot (n - 1) y ↔ x = y := by
  constructor
  · intro h
    have h1 := (relab_spec hs hD hx hxD).2.2
    have h2 := (relab_spec hs hD hy hyD).2.2
    rw [h] at h1
    exact h1.symm.trans h2
  · rintro rfl; rfl

/-- Row sums selecting one target, after `Freed`. -/
theorem Freed.rowSum_at {g g' : MGraph} {slot : Nat} {D : List Nat} (h : Freed g g' slot D) (ha : AV g (slot :: D))
    (hs : slot < g.n) (hD : ∀ d ∈ D, d < slot) (k : Nat → Nat) {u v : Nat} (hu : u < g.n) (huD : u ∉ slot :: D)
    (hv : v < g.n) (hvD : v ∉ slot :: D) :
    rowSum g' (fun a w => if a = relab slot (g.n - 1) v then k w else 0) (relab slot (g.n - 1) u) =
      rowSum g (fun a w => if a = v then k w else 0) u := by
  obtain ⟨q1, q2, q3⟩ := relab_spec hs hD hu huD
  rw [h.row _ q1 q2, q3]
  unfold rowSum
  refine Finset.sum_congr rfl fun e he => ?_
  obtain ⟨j1, ⟨j2, j2', j2''⟩, j3, j4, j5, j6⟩ := ha.pv u e ⟨hu, huD, mem_range.1 he⟩
  simp only [relab_inj hs hD j2 j2' hv hvD]

end VieCut.MGraph
