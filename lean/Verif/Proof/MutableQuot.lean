import Verif.Proof.MutableFold

/-! From half-edge invariants to quotient graphs. -/

namespace VieCut.MGraph
open Function Finset

/-- Weight between two vertices. -/
def W (g : MGraph) (u v : Nat) : Nat := rowSum g (fun a w => if a = v then w else 0) u

/-- Number of edges from `u` to `v`. -/
def cnt (g : MGraph) (u v : Nat) : Nat := rowSum g (fun a _ => if a = v then 1 else 0) u

theorem toGraph_n (g : MGraph) : g.toGraph.n = g.n := by simp [toGraph, Graph.n]

theorem toGraph_edges (g : MGraph) {u : Nat} (hu : u < g.n) : g.toGraph.edges u =
    (List.range (g.len u)).map fun e => ((g.edge u e).target, (g.edge u e).weight) := by
  simp [toGraph, Graph.edges, List.getD_eq_getElem?_getD, hu]

theorem sum_range_list (f : Nat → Nat) (n : Nat) : ((List.range n).map f).sum = ∑ e ∈ range n, f e := by
  induction n with
  | zero => simp
  | succ n ih => rw [List.range_succ, List.map_append, List.sum_append, ih, Finset.sum_range_succ]; simp

theorem toGraph_wt (g : MGraph) {u : Nat} (hu : u < g.n) (v : Nat) : g.toGraph.wt u v = g.W u v := by
  unfold Graph.wt W rowSum
  rw [toGraph_edges g hu, List.filter_map, List.map_map]
  have := sum_filter_range (g.len u) ((fun e : Nat × Nat => e.1 == v) ∘ fun e => ((g.edge u e).target, (g.edge u e).weight))
    (fun e => (g.edge u e).weight)
  have h2 : ((fun x : Nat × Nat => x.2) ∘ fun e => ((g.edge u e).target, (g.edge u e).weight)) =
      fun e => (g.edge u e).weight := rfl
  rw [h2, this]
  refine Finset.sum_congr rfl fun e _ => ?_
  simp

theorem toGraph_deg (g : MGraph) {u : Nat} (hu : u < g.n) : g.toGraph.deg u = rowSum g (fun _ w => w) u := by
  unfold Graph.deg rowSum
  rw [toGraph_edges g hu, List.map_map]
  exact sum_range_list _ _

theorem AV.W_symm {g : MGraph} {D : List Nat} (h : AV g D) {u v : Nat} (hu : u < g.n) (hud : u ∉ D)
    (hv : v < g.n) (hvd : v ∉ D) : g.W u v = g.W v u := h.symm hu hud hv hvd (fun w => w)

theorem AV.cnt_symm {g : MGraph} {D : List Nat} (h : AV g D) {u v : Nat} (hu : u < g.n) (hud : u ∉ D)
    (hv : v < g.n) (hvd : v ∉ D) : g.cnt u v = g.cnt v u := h.symm hu hud hv hvd (fun _ => 1)

theorem Valid.wf {g : MGraph} (h : Valid g) : g.toGraph.WF := by
  refine ⟨?_, ?_, ?_⟩
  · intro u e he
    by_cases hu : u < g.n
    · rw [toGraph_edges g hu, List.mem_map] at he
      obtain ⟨i, hi, rfl⟩ := he
      rw [toGraph_n]
      exact (h.pv u i ⟨hu, by simp, by simpa using hi⟩).2.1.1
    · rw [Graph.edges_of_ge (by rw [toGraph_n]; omega)] at he; simp at he
  · intro u e he
    by_cases hu : u < g.n
    · rw [toGraph_edges g hu, List.mem_map] at he
      obtain ⟨i, hi, rfl⟩ := he
      exact (h.pv u i ⟨hu, by simp, by simpa using hi⟩).2.2.2.2.2
    · rw [Graph.edges_of_ge (by rw [toGraph_n]; omega)] at he; simp at he
  · intro u v hu hv
    rw [toGraph_n] at hu hv
    rw [toGraph_wt g hu, toGraph_wt g hv]
    exact h.W_symm hu (by simp) hv (by simp)

/-- No parallel edges between live vertices. -/
def Simple (g : MGraph) (D : List Nat) : Prop :=
  ∀ u v, u < g.n → u ∉ D → v < g.n → v ∉ D → g.cnt u v ≤ 1

/-- `g` (with dead vertices `D`) is the quotient of `G` by `φ`. -/
structure Quot (G : Graph) (g : MGraph) (D : List Nat) (φ : Nat → Nat) : Prop where
  lt : ∀ u, u < G.n → φ u < g.n ∧ φ u ∉ D
  surj : ∀ p, p < g.n → p ∉ D → ∃ u, u < G.n ∧ φ u = p
  wt : ∀ p q, p < g.n → p ∉ D → q < g.n → q ∉ D → p ≠ q →
    g.W p q = ∑ u ∈ range G.n, ∑ v ∈ range G.n, if φ u = p ∧ φ v = q then G.wt u v else 0

theorem Quot.isContraction {G : Graph} {g : MGraph} {φ : Nat → Nat} (h : Quot G g [] φ) (hv : Valid g) :
    IsContraction G g.toGraph φ := by
  refine ⟨?_, ?_, hv.wf, ?_⟩
  · intro u hu; rw [toGraph_n]; exact (h.lt u hu).1
  · intro p hp; rw [toGraph_n] at hp; exact h.surj p hp (by simp)
  · intro p q hp hq hpq
    rw [toGraph_n] at hp hq
    rw [toGraph_wt g hp]
    exact h.wt p q hp (by simp) hq (by simp) hpq

theorem Quot.freed {G : Graph} {g g' : MGraph} {D : List Nat} {slot : Nat} {φ : Nat → Nat}
    (h : Quot G g (slot :: D) φ) (hf : Freed g g' slot D) (ha : AV g (slot :: D)) (hs : slot < g.n)
    (hD : ∀ d ∈ D, d < slot) : Quot G g' D (fun u => relab slot (g.n - 1) (φ u)) := by
  have hback : ∀ p, p < g.n - 1 → p ∉ D → ∃ x, x < g.n ∧ x ∉ slot :: D ∧ relab slot (g.n - 1) x = p := by
    intro p hp hpD
    by_cases h3 : p = slot
    · refine ⟨g.n - 1, by omega, ?_, by simp [relab, h3]⟩
      intro hh
      rcases List.mem_cons.1 hh with h2 | h2
      · omega
      · have := hD _ h2; omega
    · exact ⟨p, by omega, by simp [h3, hpD], by simp [relab]; omega⟩
  refine ⟨?_, ?_, ?_⟩
  · intro u hu
    obtain ⟨h1, h2⟩ := h.lt u hu
    obtain ⟨q1, q2, _⟩ := relab_spec hs hD h1 h2
    exact ⟨by rw [hf.n]; exact q1, q2⟩
  · intro p hp hpD
    rw [hf.n] at hp
    obtain ⟨x, h1, h2, h3⟩ := hback p hp hpD
    obtain ⟨u, hu, hux⟩ := h.surj x h1 h2
    exact ⟨u, hu, by rw [hux, h3]⟩
  · intro p q hp hpD hq hqD hpq
    rw [hf.n] at hp hq
    obtain ⟨x, x1, x2, x3⟩ := hback p hp hpD
    obtain ⟨y, y1, y2, y3⟩ := hback q hq hqD
    have hxy : x ≠ y := by rintro rfl; exact hpq (x3.symm.trans y3)
    have : g'.W p q = g.W x y := by
      rw [← x3, ← y3]
      exact hf.rowSum_at ha hs hD (fun w => w) x1 x2 y1 y2
    rw [this, h.wt x y x1 x2 y1 y2 hxy]
    refine Finset.sum_congr rfl fun u hu => Finset.sum_congr rfl fun v hv => ?_
    obtain ⟨a1, a2⟩ := h.lt u (mem_range.1 hu)
    obtain ⟨b1, b2⟩ := h.lt v (mem_range.1 hv)
    simp only [← x3, ← y3, relab_inj hs hD a1 a2 x1 x2, relab_inj hs hD b1 b2 y1 y2]

theorem Simple.freed {g g' : MGraph} {D : List Nat} {slot : Nat} (h : Simple g (slot :: D))
    (hf : Freed g g' slot D) (ha : AV g (slot :: D)) (hs : slot < g.n) (hD : ∀ d ∈ D, d < slot) : Simple g' D := by
  have hback : ∀ p, p < g.n - 1 → p ∉ D → ∃ x, x < g.n ∧ x ∉ slot :: D ∧ relab slot (g.n - 1) x = p := by
    intro p hp hpD
    by_cases h3 : p = slot
    · refine ⟨g.n - 1, by omega, ?_, by simp [relab, h3]⟩
      intro hh
      rcases List.mem_cons.1 hh with h2 | h2
      · omega
      · have := hD _ h2; omega
    · exact ⟨p, by omega, by simp [h3, hpD], by simp [relab]; omega⟩
  intro p q hp hpD hq hqD
  rw [hf.n] at hp hq
  obtain ⟨x, x1, x2, x3⟩ := hback p hp hpD
  obtain ⟨y, y1, y2, y3⟩ := hback q hq hqD
  have : g'.cnt p q = g.cnt x y := by
    rw [← x3, ← y3]
    exact hf.rowSum_at ha hs hD (fun _ => 1) x1 x2 y1 y2
  rw [this]
  exact h x y x1 x2 y1 y2

theorem rowSum_fiber {g : MGraph} {u m : Nat} (ht : ∀ e, e < g.len u → (g.edge u e).target < m) (P : Nat → Prop)
    [DecidablePred P] : rowSum g (fun a w => if P a then w else 0) u = ∑ v ∈ range m, if P v then g.W u v else 0 := by
  unfold W rowSum
  have : ∀ v, (if P v then ∑ e ∈ range (g.len u), (if (g.edge u e).target = v then (g.edge u e).weight else 0) else 0) =
      ∑ e ∈ range (g.len u), if P v ∧ (g.edge u e).target = v then (g.edge u e).weight else 0 := by
    intro v
    by_cases h : P v <;> simp [h]
  simp only [this]
  rw [Finset.sum_comm]
  refine Finset.sum_congr rfl fun e he => ?_
  rw [Finset.sum_eq_single (g.edge u e).target]
  · simp
  · intro v _ hv
    rw [if_neg]
    intro hh; exact hv hh.2.symm
  · intro hh
    exact absurd (mem_range.2 (ht e (mem_range.1 he))) hh

theorem rowSum_add (g : MGraph) (f f' : Nat → Nat → Nat) (u : Nat) :
    rowSum g (fun a w => f a w + f' a w) u = rowSum g f u + rowSum g f' u := by
  unfold rowSum; rw [Finset.sum_add_distrib]

/-- The vertex the members of `S` are merged into. -/
def collapse (S : List Nat) (keep x : Nat) : Nat := if x ∈ S then keep else x

/-- State at the end of the folding phase. -/
structure CE (g0 g : MGraph) (S : List Nat) (keep : Nat) (sim : Prop) : Prop where
  fr : g.frame = g0.frame
  kS : keep ∈ S
  kn : keep < g.n
  pv : PV g (LC g S keep (fun _ => False) (fun _ _ => False))
  rows : ∀ t, t ∉ S → t < g.n → ∀ f : Nat → Nat → Nat, (∀ a ∈ S, ∀ w, f a w = 0) → rowSum g f t = rowSum g0 f t
  rowS : ∀ t, t ∉ S → t < g.n → rowSum g (fun a w => if a ∈ S then w else 0) t =
    rowSum g0 (fun a w => if a ∈ S then w else 0) t
  wdegT : ∀ t, t ∉ S → g.wdeg t = g0.wdeg t
  wdegK : g.wdeg keep = rowSum g (fun _ w => w) keep
  num : g.numEdges = ∑ u ∈ (range g.n).filter (fun u => u ∉ S), g.len u + g.len keep
  uniq : sim → ∀ b b', b < g.len keep → b' < g.len keep →
    (g.edge keep b).target = (g.edge keep b').target → b = b'
  posK : PosW g0 [] → ∀ b, b < g.len keep → 0 < (g.edge keep b).weight

theorem CI.ce {g0 g : MGraph} {S : List Nat} {keep : Nat} {sim : Prop}
    (h : CI g0 g S keep (fun _ => False) (fun _ _ => False) 0 sim) : CE g0 g S keep sim :=
  ⟨h.fr, h.kS, h.kn, h.pv, h.rows, h.rowS, h.wdegT, h.wdegK, h.num,
    fun hs b b' hb hb' => h.uniq hs b b' hb not_false hb' not_false, fun hw => (h.posP hw).2⟩

/-- End of the folding phase. -/
theorem CE.finish {gI g0 g : MGraph} {S : List Nat} {keep : Nat} {sim : Prop} {D : List Nat}
    (h : CE g0 g S keep sim) (hI : Valid gI) (hn : g0.n = gI.n)
    (hrow : ∀ t, t ∉ S → t < gI.n → ∀ f : Nat → Nat → Nat, rowSum g0 f t = rowSum gI f t)
    (hw0 : ∀ t, t ∉ S → t < gI.n → g0.wdeg t = gI.wdeg t)
    (hD : ∀ u, u < gI.n → (u ∈ D ↔ u ∈ S ∧ u ≠ keep)) :
    AV g D ∧ Quot gI.toGraph g D (collapse S keep) ∧ (sim → Simple gI [] → Simple g D) ∧
      (PosW g0 [] → PosW g D) := by
  have hgn : g.n = gI.n := (frame_n h.fr).trans hn
  have hL : ∀ u e, LC g S keep (fun _ => False) (fun _ _ => False) u e ↔ u < g.n ∧ u ∉ D ∧ e < g.len u := by
    intro u e
    unfold LC
    constructor
    · rintro (⟨h1, h2, h3⟩ | ⟨h1, h2, _⟩ | h1)
      · exact ⟨h2, fun hh => h1 ((hD u (by omega)).1 hh).1, h3⟩
      · subst h1; exact ⟨h.kn, fun hh => ((hD u (by rw [← hgn]; exact h.kn)).1 hh).2 rfl, h2⟩
      · exact h1.elim
    · rintro ⟨h1, h2, h3⟩
      by_cases hS : u ∈ S
      · by_cases hk : u = keep
        · subst hk; exact Or.inr (Or.inl ⟨rfl, h3, not_false⟩)
        · exact absurd ((hD u (by omega)).2 ⟨hS, hk⟩) h2
      · exact Or.inl ⟨hS, h1, h3⟩
  have hpv : PV g (fun u e => u < g.n ∧ u ∉ D ∧ e < g.len u) := by
    intro u e hue
    have := h.pv u e ((hL u e).2 hue)
    rw [hL] at this
    exact this
  have hkD : keep ∉ D := fun hh => ((hD keep (by rw [← hgn]; exact h.kn)).1 hh).2 rfl
  have hnS : ∀ u, u < g.n → u ∉ D → u ≠ keep → u ∉ S := fun u hu hud huk hh =>
    hud ((hD u (by omega)).2 ⟨hh, huk⟩)
  -- members of S that are targets: only `keep`
  have hSk : ∀ u, u < g.n → u ∉ D → ∀ e, e < g.len u → (g.edge u e).target ∈ S → (g.edge u e).target = keep := by
    intro u hu hud e he ht
    obtain ⟨_, ⟨j2, j2', _⟩, _⟩ := hpv u e ⟨hu, hud, he⟩
    by_contra hne
    exact hnS _ j2 j2' hne ht
  have hav : AV g D := by
    refine ⟨hpv, ?_, ?_⟩
    · intro u hu hud
      by_cases huk : u = keep
      · subst huk; exact h.wdegK
      · have huS := hnS u hu hud huk
        rw [h.wdegT u huS, hw0 u huS (by omega), hI.wdeg u (by omega) (by simp)]
        have split : ∀ g : MGraph, rowSum g (fun _ w => w) u =
            rowSum g (fun a w => if a ∈ S then 0 else w) u + rowSum g (fun a w => if a ∈ S then w else 0) u := by
          intro g
          rw [← rowSum_add]
          unfold rowSum
          refine Finset.sum_congr rfl fun e _ => ?_
          dsimp only
          split <;> simp
        rw [split g, h.rows u huS hu _ (by intro a ha w; simp [ha]), h.rowS u huS hu,
          hrow u huS (by omega), hrow u huS (by omega), ← split gI]
    · rw [h.num]
      have : (range g.n).filter (fun u => u ∉ D) = insert keep ((range g.n).filter (fun u => u ∉ S)) := by
        ext u
        rw [mem_insert, mem_filter, mem_filter, mem_range]
        constructor
        · rintro ⟨h1, h2⟩
          by_cases hk : u = keep
          · exact Or.inl hk
          · exact Or.inr ⟨h1, hnS u h1 h2 hk⟩
        · rintro (h1 | ⟨h1, h2⟩)
          · rw [h1]; exact ⟨h.kn, hkD⟩
          · exact ⟨h1, fun hh => h2 ((hD u (by omega)).1 hh).1⟩
      rw [this, Finset.sum_insert (by rw [mem_filter]; exact fun hh => hh.2 h.kS)]
      omega
  have hWrow : ∀ u q, u < g.n → u ∉ S → q < g.n → q ∉ D →
      g.W u q = ∑ v ∈ range gI.n, if collapse S keep v = q then gI.W u v else 0 := by
    intro u q hu huS hq hqD
    have huD : u ∉ D := fun hh => huS ((hD u (by omega)).1 hh).1
    have hfib := rowSum_fiber (g := gI) (u := u) (m := gI.n)
      (fun e he => (hI.pv u e ⟨by omega, by simp, he⟩).2.1.1) (fun v => collapse S keep v = q)
    rw [← hfib]
    by_cases hqk : q = keep
    · subst hqk
      have e1 : g.W u q = rowSum g (fun a w => if a ∈ S then w else 0) u := by
        unfold W rowSum
        refine Finset.sum_congr rfl fun e he => ?_
        dsimp only
        by_cases ht : (g.edge u e).target ∈ S
        · rw [if_pos ht, if_pos (hSk u hu huD e (mem_range.1 he) ht)]
        · rw [if_neg ht, if_neg (fun hh => ht (by rw [hh]; exact h.kS))]
      rw [e1, h.rowS u huS hu, hrow u huS (by omega)]
      unfold rowSum
      refine Finset.sum_congr rfl fun e _ => ?_
      unfold collapse
      by_cases ht : (gI.edge u e).target ∈ S
      · simp [ht]
      · have : (gI.edge u e).target ≠ q := fun hh => ht (by rw [hh]; exact h.kS)
        simp [ht, this]
    · have hqS := hnS q hq hqD hqk
      have e1 : g.W u q = rowSum g0 (fun a w => if a = q then w else 0) u :=
        h.rows u huS hu _ (fun a ha w => if_neg (fun hh => hqS (by rw [← hh]; exact ha)))
      rw [e1, hrow u huS (by omega)]
      unfold rowSum
      refine Finset.sum_congr rfl fun e _ => ?_
      unfold collapse
      by_cases ht : (gI.edge u e).target ∈ S
      · have h1 : (gI.edge u e).target ≠ q := fun hh => hqS (by rw [← hh]; exact ht)
        have h2 : keep ≠ q := fun hh => hqk hh.symm
        simp [ht, h1, h2]
      · simp [ht]
  refine ⟨hav, ⟨?_, ?_, ?_⟩, ?_, ?_⟩
  · intro u hu
    rw [toGraph_n] at hu
    unfold collapse
    split
    · exact ⟨h.kn, hkD⟩
    · rename_i hS
      exact ⟨by omega, fun hh => hS ((hD u hu).1 hh).1⟩
  · intro p hp hpD
    refine ⟨p, by rw [toGraph_n]; omega, ?_⟩
    unfold collapse
    split
    · rename_i hS
      by_contra hne
      exact hpD ((hD p (by omega)).2 ⟨hS, fun hh => hne hh.symm⟩)
    · rfl
  · -- weights
    have hmain : ∀ p q, p < g.n → p ∉ S → q < g.n → q ∉ D → p ≠ q →
        g.W p q = ∑ u ∈ range gI.n, ∑ v ∈ range gI.n,
          if collapse S keep u = p ∧ collapse S keep v = q then gI.W u v else 0 := by
      intro p q hp hpS hq hqD hpq
      rw [hWrow p q hp hpS hq hqD]
      symm
      refine (Finset.sum_eq_single p ?_ ?_).trans ?_
      rotate_left 2
      · refine Finset.sum_congr rfl fun v _ => ?_
        have : collapse S keep p = p := by simp [collapse, hpS]
        simp [this]
      · intro u hu hup
        refine Finset.sum_eq_zero fun v _ => if_neg ?_
        rintro ⟨h1, _⟩
        unfold collapse at h1
        split at h1
        · exact hpS (by rw [← h1]; exact h.kS)
        · exact hup h1
      · intro hh; exact absurd (mem_range.2 (by omega)) hh
    intro p q hp hpD hq hqD hpq
    rw [toGraph_n]
    have hconv : ∀ p q, ∑ u ∈ range gI.n, ∑ v ∈ range gI.n,
        (if collapse S keep u = p ∧ collapse S keep v = q then gI.toGraph.wt u v else 0) =
        ∑ u ∈ range gI.n, ∑ v ∈ range gI.n,
          if collapse S keep u = p ∧ collapse S keep v = q then gI.W u v else 0 := by
      intro p q
      refine Finset.sum_congr rfl fun u hu => Finset.sum_congr rfl fun v _ => ?_
      rw [toGraph_wt gI (mem_range.1 hu)]
    rw [hconv]
    by_cases hpk : p = keep
    · have hqS : q ∉ S := hnS q hq hqD (fun hh => hpq (hpk.trans hh.symm))
      rw [hav.W_symm hp hpD hq hqD, hmain q p hq hqS hp hpD (Ne.symm hpq), Finset.sum_comm]
      refine Finset.sum_congr rfl fun u hu => Finset.sum_congr rfl fun v hv => ?_
      rw [hI.W_symm (mem_range.1 hu) (by simp) (mem_range.1 hv) (by simp)]
      simp only [and_comm]
    · exact hmain p q hp (hnS p hp hpD hpk) hq hqD hpq
  · intro hs hsim
    have hkeep : ∀ v, v < g.n → v ∉ D → g.cnt keep v ≤ 1 := by
      intro v hv hvD
      unfold cnt rowSum
      rw [← Finset.sum_filter, ← Finset.card_eq_sum_ones, Finset.card_le_one]
      intro b hb b' hb'
      rw [mem_filter, mem_range] at hb hb'
      exact h.uniq hs b b' hb.1 hb'.1 (hb.2.trans hb'.2.symm)
    intro u v hu huD hv hvD
    by_cases huk : u = keep
    · rw [huk]; exact hkeep v hv hvD
    · by_cases hvk : v = keep
      · rw [hav.cnt_symm hu huD hv hvD, hvk]; exact hkeep u hu huD
      · have huS := hnS u hu huD huk
        have hvS := hnS v hv hvD hvk
        have e1 : g.cnt u v = rowSum g0 (fun a _ => if a = v then 1 else 0) u :=
          h.rows u huS hu _ (fun a ha w => if_neg (fun hh => hvS (by rw [← hh]; exact ha)))
        rw [e1, hrow u huS (by omega)]
        exact hsim u v (by omega) (by simp) (by omega) (by simp)
  · intro hw u b hu huD hb
    by_cases huk : u = keep
    · rw [huk] at hb ⊢; exact h.posK hw b hb
    · have huS := hnS u hu huD huk
      by_cases ht : (g.edge u b).target ∈ S
      · obtain ⟨_, ⟨j2, _, j3⟩, _, _, j5, _⟩ := hpv u b ⟨hu, huD, hb⟩
        rw [hSk u hu huD b hb ht] at j3 j5
        rw [← j5]
        exact h.posK hw _ j3
      · by_contra h0
        have h1 := h.rows u huS hu (fun a w => if a ∈ S then 0 else if w = 0 then 1 else 0)
          (fun a ha w => if_pos ha)
        have h2 : rowSum g0 (fun a w => if a ∈ S then 0 else if w = 0 then 1 else 0) u = 0 := by
          unfold rowSum
          refine Finset.sum_eq_zero fun e he => ?_
          have := hw u e (by rw [hn]; omega) (by simp) (mem_range.1 he)
          dsimp only
          split
          · rfl
          · rw [if_neg (by omega)]
        rw [h2] at h1
        unfold rowSum at h1
        have h3 := Finset.sum_eq_zero_iff.1 h1 b (mem_range.2 hb)
        dsimp only at h3
        rw [if_neg ht, if_pos (by omega)] at h3
        omega

end VieCut.MGraph
