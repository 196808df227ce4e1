import Verif.Proof.MutableEdge

/-! Edge insertion, weight change, edge and vertex deletion of `mutable_graph`. -/

namespace VieCut.MGraph
open Function Finset

theorem valid_iff {g : MGraph} : Valid g ↔
    (∀ u e, u < g.n → e < g.len u → (g.edge u e).target < g.n ∧ (g.edge u e).rev < g.len (g.edge u e).target ∧
      (g.edge (g.edge u e).target (g.edge u e).rev).target = u ∧
      (g.edge (g.edge u e).target (g.edge u e).rev).rev = e ∧
      (g.edge (g.edge u e).target (g.edge u e).rev).weight = (g.edge u e).weight ∧
      (g.edge u e).target ≠ u) ∧
    (∀ u, u < g.n → g.wdeg u = rowSum g (fun _ w => w) u) ∧
    g.numEdges = ∑ u ∈ range g.n, g.len u := by
  have hf : (range g.n).filter (fun u => u ∉ ([] : List Nat)) = range g.n := by simp
  constructor
  · intro h
    refine ⟨?_, fun u hu => h.wdeg u hu (by simp), ?_⟩
    · intro u e hu he
      obtain ⟨h1, h2, h3, h4, h5, h6⟩ := h.pv u e ⟨hu, by simp, he⟩
      exact ⟨h2.1, h2.2.2, h3, h4, h5, h6⟩
    · have := h.num; rwa [hf] at this
  · rintro ⟨h1, h2, h3⟩
    refine ⟨?_, fun u hu _ => h2 u hu, by rw [hf]; exact h3⟩
    intro u e ⟨hu, _, he⟩
    obtain ⟨j1, j2, j3, j4, j5, j6⟩ := h1 u e hu he
    exact ⟨he, ⟨j1, by simp, j2⟩, j3, j4, j5, j6⟩

theorem Valid.start (n : Nat) : Valid (start n) := by
  rw [valid_iff]
  refine ⟨?_, ?_, ?_⟩
  · intro u e _ he; simp [MGraph.start] at he
  · intro u _; simp [MGraph.start, rowSum]
  · simp [MGraph.start]

theorem PosIn.start (n : Nat) : PosInv (MGraph.start n) := by
  refine ⟨?_, ?_, ?_⟩
  · intro p hp v hv
    simp only [MGraph.start, List.mem_singleton] at hp hv ⊢
    omega
  · intro v hv _; simp [MGraph.start]
  · intro p _; simp [MGraph.start]

/-! ### new_edge -/

theorem newEdge_spec {g : MGraph} (hg : Valid g) {s t w : Nat} (hst : s < t) (ht : t < g.n) :
    Valid (g.newEdge s t w) ∧ (g.newEdge s t w).pframe = g.pframe ∧
    (∀ f a, rowSum (g.newEdge s t w) f a = rowSum g f a + (if a = s then f t w else 0) + if a = t then f s w else 0) := by
  rw [valid_iff] at hg
  obtain ⟨hpv, hwd, hnum⟩ := hg
  have hs : s < g.n := by omega
  have hne : s ≠ t := by omega
  set g' := g.newEdge s t w with hg'
  have hlen : g'.len = update (update g.len s (g.len s + 1)) t (g.len t + 1) := by
    simp only [hg', newEdge, if_pos hst, pushEdge_len, update_of_ne (Ne.symm hne)]
  have hn : g'.n = g.n := by simp only [hg', newEdge, if_pos hst]; rfl
  have hE : ∀ a b, g'.edge a b = if a = t ∧ b = g.len t then { target := s, weight := w, rev := g.len s }
      else if a = s ∧ b = g.len s then { target := t, weight := w, rev := g.len t } else g.edge a b := by
    intro a b
    simp only [hg', newEdge, if_pos hst, pushEdge_edge, pushEdge_len, update_of_ne (Ne.symm hne)]
  have hEo : ∀ a b, b < g.len a → g'.edge a b = g.edge a b := by
    intro a b hb
    rw [hE, if_neg (by rintro ⟨rfl, rfl⟩; omega), if_neg (by rintro ⟨rfl, rfl⟩; omega)]
  have hlen_le : ∀ a, g.len a ≤ g'.len a := by
    intro a; rw [hlen]; simp only [update_apply]; split <;> (try split) <;> (subst_vars; omega)
  have hrow : ∀ f a, rowSum g' f a = rowSum g f a + (if a = s then f t w else 0) + if a = t then f s w else 0 := by
    intro f a
    have e1 : rowSum g' f a = rowSum ((g.pushEdge s { target := t, weight := w, rev := g.len t }).pushEdge t
        { target := s, weight := w, rev := g.len s }) f a := by
      simp only [hg', newEdge, if_pos hst]; rfl
    rw [e1]
    obtain ⟨p1, p2⟩ := rowSum_pushEdge (g.pushEdge s { target := t, weight := w, rev := g.len t }) t
      { target := s, weight := w, rev := g.len s } f
    obtain ⟨q1, q2⟩ := rowSum_pushEdge g s { target := t, weight := w, rev := g.len t } f
    by_cases h1 : a = t
    · subst h1; rw [p1, q2 _ (Ne.symm hne), if_neg (Ne.symm hne), if_pos rfl]; simp
    · rw [p2 _ h1, if_neg h1]
      by_cases h2 : a = s
      · subst h2; rw [q1, if_pos rfl]; simp
      · rw [q2 _ h2, if_neg h2]; simp
  refine ⟨?_, ?_, hrow⟩
  · rw [valid_iff]
    refine ⟨?_, ?_, ?_⟩
    · intro u e hu he
      rw [hn] at hu ⊢
      by_cases c1 : u = t ∧ e = g.len t
      · obtain ⟨rfl, rfl⟩ := c1
        have h1 : g'.edge u (g.len u) = { target := s, weight := w, rev := g.len s } := by rw [hE, if_pos ⟨rfl, rfl⟩]
        have h2 : g'.edge s (g.len s) = { target := u, weight := w, rev := g.len u } := by
          rw [hE, if_neg (fun hh => hne hh.1), if_pos ⟨rfl, rfl⟩]
        rw [h1]
        dsimp only
        rw [h2]
        refine ⟨hs, ?_, rfl, rfl, rfl, hne⟩
        rw [hlen, update_of_ne hne, update_self]; omega
      · by_cases c2 : u = s ∧ e = g.len s
        · obtain ⟨rfl, rfl⟩ := c2
          have h1 : g'.edge t (g.len t) = { target := u, weight := w, rev := g.len u } := by rw [hE, if_pos ⟨rfl, rfl⟩]
          have h2 : g'.edge u (g.len u) = { target := t, weight := w, rev := g.len t } := by
            rw [hE, if_neg (fun hh => hne hh.1), if_pos ⟨rfl, rfl⟩]
          rw [h2]
          dsimp only
          rw [h1]
          refine ⟨ht, ?_, rfl, rfl, rfl, Ne.symm hne⟩
          rw [hlen, update_self]; omega
        · have he' : e < g.len u := by
            rw [hlen] at he
            simp only [update_apply] at he
            split at he
            · subst_vars; have : ¬ e = g.len u := fun hh => c1 ⟨rfl, hh⟩
              omega
            · split at he
              · subst_vars; have : ¬ e = g.len u := fun hh => c2 ⟨rfl, hh⟩
                omega
              · exact he
          obtain ⟨j1, j2, j3, j4, j5, j6⟩ := hpv u e hu he'
          rw [hEo u e he', hEo _ _ j2]
          exact ⟨j1, lt_of_lt_of_le j2 (hlen_le _), j3, j4, j5, j6⟩
    · intro u hu
      rw [hn] at hu
      have : g'.wdeg = update (update g.wdeg s (g.wdeg s + w)) t ((update g.wdeg s (g.wdeg s + w)) t + w) := by
        simp only [hg', newEdge, if_pos hst]; rfl
      rw [this, hrow, ← hwd u hu]
      simp only [update_apply]
      by_cases h1 : u = t
      · subst h1; simp [Ne.symm hne]
      · by_cases h2 : u = s
        · subst h2; simp [h1]
        · simp [h1, h2]
    · have : g'.numEdges = g.numEdges + 2 := by simp only [hg', newEdge, if_pos hst]; rfl
      rw [this, hn, hnum, hlen]
      rw [← Finset.add_sum_erase (range g.n) (update (update g.len s (g.len s + 1)) t (g.len t + 1)) (mem_range.2 ht),
        ← Finset.add_sum_erase (range g.n) g.len (mem_range.2 ht), update_self]
      have hsm : s ∈ (range g.n).erase t := mem_erase.2 ⟨hne, mem_range.2 hs⟩
      rw [← Finset.add_sum_erase _ (update (update g.len s (g.len s + 1)) t (g.len t + 1)) hsm,
        ← Finset.add_sum_erase _ g.len hsm, update_of_ne hne, update_self]
      have : ∑ x ∈ ((range g.n).erase t).erase s, update (update g.len s (g.len s + 1)) t (g.len t + 1) x =
          ∑ x ∈ ((range g.n).erase t).erase s, g.len x := by
        refine Finset.sum_congr rfl fun x hx => ?_
        rw [mem_erase, mem_erase] at hx
        rw [update_of_ne hx.2.1, update_of_ne hx.1]
      rw [this]; omega
  · simp only [hg', newEdge, if_pos hst]; rfl

/-! ### setEdgeWeight -/

theorem rowSum_ge {g : MGraph} {u e : Nat} (he : e < g.len u) : (g.edge u e).weight ≤ rowSum g (fun _ w => w) u :=
  Finset.single_le_sum (f := fun e => (g.edge u e).weight) (fun _ _ => Nat.zero_le _) (mem_range.2 he)

theorem setEdgeWeight_spec {g : MGraph} (hg : Valid g) {u e : Nat} (hu : u < g.n) (he : e < g.len u) (w : Nat) :
    Valid (g.setEdgeWeight u e w) ∧ (g.setEdgeWeight u e w).pframe = g.pframe ∧
    (∀ f a, rowSum (g.setEdgeWeight u e w) f a +
      ((if a = u then f (g.edge u e).target (g.edge u e).weight else 0) +
        if a = (g.edge u e).target then f u (g.edge u e).weight else 0) = rowSum g f a +
      ((if a = u then f (g.edge u e).target w else 0) + if a = (g.edge u e).target then f u w else 0)) := by
  have hpv' := hg.pv.setWeights (u := u) (e := e) ⟨hu, by simp, he⟩ w
  obtain ⟨h1, ⟨h2, _, h3⟩, h4, h5, h6, h7⟩ := hg.pv u e ⟨hu, by simp, he⟩
  set t := (g.edge u e).target with htd
  set r := (g.edge u e).rev with hrd
  have hrow : ∀ f a, rowSum (g.setEdgeWeight u e w) f a +
      ((if a = u then f t (g.edge u e).weight else 0) +
        if a = t then f u (g.edge u e).weight else 0) = rowSum g f a +
      ((if a = u then f t w else 0) + if a = t then f u w else 0) := by
    intro f a
    have e1 : rowSum (g.setEdgeWeight u e w) f a = rowSum ((g.setEdge u e { g.edge u e with weight := w }).setEdge t r
      { (g.setEdge u e { g.edge u e with weight := w }).edge t r with weight := w }) f a := rfl
    rw [e1]
    by_cases c1 : a = u
    · subst c1
      rw [if_pos rfl, if_pos rfl, if_neg (Ne.symm h7), if_neg (Ne.symm h7), rowSum_setEdge_ne _ (Ne.symm h7)]
      have := rowSum_setEdge g he { g.edge a e with weight := w } f
      simpa using this
    · rw [if_neg c1, if_neg c1]
      by_cases c2 : a = t
      · rw [c2, if_pos rfl, if_pos rfl]
        have := rowSum_setEdge (g.setEdge u e { g.edge u e with weight := w }) (u := t) (e := r) h3
          { (g.setEdge u e { g.edge u e with weight := w }).edge t r with weight := w } f
        rw [rowSum_setEdge_ne _ h7] at this
        simp only [setEdge_edge, if_neg (show ¬ (t = u ∧ r = e) from fun hh => h7 hh.1), h4, h6] at this
        simp only [setEdge_edge, if_neg (show ¬ (t = u ∧ r = e) from fun hh => h7 hh.1), h4, Nat.zero_add]
        exact this
      · rw [if_neg c2, if_neg c2, rowSum_setEdge_ne _ c2, rowSum_setEdge_ne _ c1]
  refine ⟨⟨hpv', ?_, hg.num⟩, rfl, hrow⟩
  intro a ha had
  have e1 : (g.setEdgeWeight u e w).wdeg a = update (update g.wdeg u (g.wdeg u + w - (g.edge u e).weight)) t
      ((update g.wdeg u (g.wdeg u + w - (g.edge u e).weight)) t + w - (g.edge u e).weight) a := rfl
  have e2 := hg.wdeg a ha had
  have e3 := hrow (fun _ w => w) a
  rw [e1]
  by_cases c1 : a = u
  · subst c1
    rw [update_of_ne (Ne.symm h7), update_self, e2]
    rw [if_neg (Ne.symm h7), if_neg (Ne.symm h7), if_pos rfl, if_pos rfl] at e3
    omega
  · by_cases c2 : a = t
    · rw [c2, update_self, update_of_ne h7]
      rw [c2] at e2 e3
      rw [if_neg h7, if_neg h7, if_pos rfl, if_pos rfl] at e3
      rw [e2]; omega
    · rw [update_of_ne c2, update_of_ne c1, e2]
      rw [if_neg c1, if_neg c1, if_neg c2, if_neg c2] at e3
      omega

/-! ### deleteEdge -/

theorem PV.iff {g : MGraph} {L L' : Nat → Nat → Prop} (h : PV g L) (hi : ∀ a b, L' a b ↔ L a b) : PV g L' := by
  have : L' = L := by funext a b; exact propext (hi a b)
  rw [this]; exact h

/-- Deleting the dead half edges of an edge whose two halves have left the live set. -/
theorem deleteEdge_spec {g : MGraph} (hg : Valid g) {u e : Nat} (hu : u < g.n) (he : e < g.len u) :
    Valid (g.deleteEdge u e) ∧ (g.deleteEdge u e).pframe = g.pframe ∧
    (∀ f a, rowSum (g.deleteEdge u e) f a +
      ((if a = u then f (g.edge u e).target (g.edge u e).weight else 0) +
        if a = (g.edge u e).target then f u (g.edge u e).weight else 0) = rowSum g f a) := by
  have hL0 : (fun u e => u < g.n ∧ u ∉ ([] : List Nat) ∧ e < g.len u) = fun u e => u < g.n ∧ e < g.len u := by
    funext a b; simp
  have hpv := hg.pv
  rw [hL0] at hpv
  obtain ⟨h1, ⟨h2, h3⟩, h4, h5, h6, h7⟩ := hpv u e ⟨hu, he⟩
  have hK := hpv.kill (u := u) (e := e) ⟨hu, he⟩
  set t := (g.edge u e).target with htd
  set r := (g.edge u e).rev with hrd
  set L1 : Nat → Nat → Prop := fun a b => (a < g.n ∧ b < g.len a) ∧ ¬ (a = u ∧ b = e) ∧ ¬ (a = t ∧ b = r) with hL1
  have hl1 : g.len u > e + 1 → L1 u (g.len u - 1) := by
    intro hc
    exact ⟨⟨hu, by omega⟩, by omega, fun hh => h7 hh.1.symm⟩
  have hd1 : ¬ L1 u e := fun hh => hh.2.1 ⟨rfl, rfl⟩
  have hP1 := hK.internalDelete he hd1 hl1
  obtain ⟨f1, f2, f3, f4, f5, f6⟩ := internalDelete_frame g u e
  have ft := internalDelete_edge_target hK he hl1
  have hr1 := rowSum_internalDelete hK he hl1
  set g1 := g.internalDelete u e with hg1
  set L2 := Lren L1 u e (g.len u - 1) with hL2
  have hlt1 : g1.len t = g.len t := by rw [f6, update_of_ne h7]
  have hl2 : g1.len t > r + 1 → L2 t (g1.len t - 1) := by
    intro hc
    rw [hlt1] at hc ⊢
    show if t = u then _ else L1 t (g.len t - 1)
    rw [if_neg h7]
    exact ⟨⟨h2, by omega⟩, fun hh => h7 hh.1, by omega⟩
  have hd2 : ¬ L2 t r := by
    show ¬ if t = u then _ else L1 t r
    rw [if_neg h7]; exact fun hh => hh.2.2 ⟨rfl, rfl⟩
  have hr' : r < g1.len t := by rw [hlt1]; exact h3
  have hP2 := hP1.internalDelete hr' hd2 hl2
  obtain ⟨f1', f2', f3', f4', f5', f6'⟩ := internalDelete_frame g1 t r
  have hr2 := rowSum_internalDelete hP1 hr' hl2
  set g2 := g1.internalDelete t r with hg2
  -- the edge removed second
  have hE1 : (g1.edge t r).target = u ∧ (g1.edge t r).weight = (g.edge u e).weight := by
    rw [(ft t r).1, (ft t r).2, if_neg (fun hh => h7 hh.1)]; exact ⟨h4, h6⟩
  have hrow : ∀ f a, rowSum (g.deleteEdge u e) f a +
      ((if a = u then f t (g.edge u e).weight else 0) + if a = t then f u (g.edge u e).weight else 0) =
      rowSum g f a := by
    intro f a
    have e1 : rowSum (g.deleteEdge u e) f a = rowSum g2 f a := rfl
    rw [e1]
    by_cases c1 : a = u
    · rw [c1, if_pos rfl, if_neg (Ne.symm h7), (hr2 f).2 u (Ne.symm h7)]
      have := (hr1 f).1; simpa using this
    · rw [if_neg c1]
      by_cases c2 : a = t
      · rw [c2, if_pos rfl]
        have := (hr2 f).1
        rw [hE1.1, hE1.2, (hr1 f).2 t h7] at this
        simpa using this
      · rw [if_neg c2, (hr2 f).2 a c2, (hr1 f).2 a c1]; simp
  have hn : (g.deleteEdge u e).n = g.n := f1'.trans f1
  have hlen : (g.deleteEdge u e).len = update (update g.len u (g.len u - 1)) t (g.len t - 1) := by
    show g2.len = _
    rw [f6', f6, update_of_ne h7]
  have hfr : (g.deleteEdge u e).frame = g.frame := by
    have a1 := internalDelete_frame' g u e
    have a2 := internalDelete_frame' g1 t r
    exact a2.trans a1
  refine ⟨⟨?_, ?_, ?_⟩, pframe_of_frame hfr, hrow⟩
  · refine PV.iff (L := Lren L2 t r (g1.len t - 1)) hP2 ?_
    intro a b
    rw [hn, hlen, hlt1]
    unfold Lren
    by_cases c1 : a = t
    · rw [c1, if_pos rfl, update_self]
      simp only [List.not_mem_nil, not_false_iff, true_and]
      constructor
      · rintro ⟨_, hb⟩
        refine ⟨hb, ?_⟩
        have key : ∀ c, c < g.len t → c ≠ r → L2 t c := by
          intro c hc hcr
          show if t = u then _ else L1 t c
          rw [if_neg h7]; exact ⟨⟨h2, hc⟩, fun hh => h7 hh.1, fun hh => hcr hh.2⟩
        split
        · exact key _ (by omega) (by omega)
        · exact key _ (by omega) (by assumption)
      · rintro ⟨hb, _⟩; exact ⟨h2, hb⟩
    · rw [if_neg c1, update_of_ne c1]
      show _ ↔ if a = u then _ else L1 a b
      by_cases c2 : a = u
      · rw [c2, if_pos rfl, update_self]
        simp only [List.not_mem_nil, not_false_iff, true_and]
        have key : ∀ c, c < g.len u → c ≠ e → L1 u c := by
          intro c hc hcr
          exact ⟨⟨hu, hc⟩, fun hh => hcr hh.2, fun hh => h7 hh.1.symm⟩
        constructor
        · rintro ⟨_, hb⟩
          refine ⟨hb, ?_⟩
          split
          · exact key _ (by omega) (by omega)
          · exact key _ (by omega) (by assumption)
        · rintro ⟨hb, _⟩; exact ⟨hu, hb⟩
      · rw [if_neg c2, update_of_ne c2]
        constructor
        · rintro ⟨k1, _, k2⟩; exact ⟨⟨k1, k2⟩, fun hh => c2 hh.1, fun hh => c1 hh.1⟩
        · rintro ⟨⟨k1, k2⟩, _⟩; exact ⟨k1, by simp, k2⟩
  · intro a ha had
    rw [hn] at ha
    have e1 : (g.deleteEdge u e).wdeg = update (update g2.wdeg u (g2.wdeg u - (g.edge u e).weight)) t
      ((update g2.wdeg u (g2.wdeg u - (g.edge u e).weight)) t - (g.edge u e).weight) := rfl
    have e2 := hg.wdeg a ha had
    have e3 := hrow (fun _ w => w) a
    rw [e1, f2', f2]
    by_cases c1 : a = u
    · rw [c1] at e2 e3 ⊢
      rw [update_of_ne (Ne.symm h7), update_self, e2]
      rw [if_pos rfl, if_neg (Ne.symm h7)] at e3
      omega
    · by_cases c2 : a = t
      · rw [c2] at e2 e3 ⊢
        rw [update_self, update_of_ne h7, e2]
        rw [if_neg h7, if_pos rfl] at e3
        omega
      · rw [update_of_ne c2, update_of_ne c1, e2]
        rw [if_neg c1, if_neg c2] at e3
        omega
  · have hf : (range g.n).filter (fun u => u ∉ ([] : List Nat)) = range g.n := by simp
    have e1 : (g.deleteEdge u e).numEdges = g.numEdges - 2 := by
      show g2.numEdges - 2 = _
      rw [f3', f3]
    have e2 := hg.num
    rw [hf] at e2
    rw [e1, e2, hn, hf, hlen]
    rw [← Finset.add_sum_erase (range g.n) (update (update g.len u (g.len u - 1)) t (g.len t - 1)) (mem_range.2 h2),
      ← Finset.add_sum_erase (range g.n) g.len (mem_range.2 h2), update_self]
    have hsm : u ∈ (range g.n).erase t := mem_erase.2 ⟨Ne.symm h7, mem_range.2 hu⟩
    rw [← Finset.add_sum_erase _ (update (update g.len u (g.len u - 1)) t (g.len t - 1)) hsm,
      ← Finset.add_sum_erase _ g.len hsm, update_of_ne (Ne.symm h7), update_self]
    have : ∑ x ∈ ((range g.n).erase t).erase u, update (update g.len u (g.len u - 1)) t (g.len t - 1) x =
        ∑ x ∈ ((range g.n).erase t).erase u, g.len x := by
      refine Finset.sum_congr rfl fun x hx => ?_
      rw [mem_erase, mem_erase] at hx
      rw [update_of_ne hx.2.1, update_of_ne hx.1]
    rw [this]; omega

/-! ### deleteVertex -/

/-- Body of the first loop of `deleteVertex`. -/
def dvStep (node : Nat) (h : MGraph) (e : Nat) : MGraph :=
  let r := h.edge node e
  let h1 := h.internalDelete r.target r.rev
  { h1 with numEdges := h1.numEdges - 2, wdeg := update h1.wdeg r.target (h1.wdeg r.target - r.weight) }

/-- State after the first `k` edges of `node` have been removed from the neighbours. -/
structure DV (g : MGraph) (node k : Nat) (h : MGraph) : Prop where
  pv : PV h (fun a b => a < g.n ∧ b < h.len a ∧ (a = node → k ≤ b))
  fr : h.frame = g.frame
  len : h.len node = g.len node
  rows : ∀ a, a < g.n → a ≠ node → ∀ f : Nat → Nat → Nat, (∀ w, f node w = 0) → rowSum h f a = rowSum g f a
  wdeg : ∀ a, a < g.n → a ≠ node → h.wdeg a = rowSum h (fun _ w => w) a
  num : h.numEdges = ∑ a ∈ (range g.n).erase node, h.len a + (g.len node - k)

theorem DV.init {g : MGraph} (hg : Valid g) {node : Nat} (hn : node < g.n) : DV g node 0 g := by
  refine ⟨?_, rfl, rfl, fun _ _ _ _ _ => rfl, fun a ha _ => hg.wdeg a ha (by simp), ?_⟩
  · refine PV.iff hg.pv ?_
    intro a b; simp
  · have := (valid_iff.1 hg).2.2
    rw [this, ← Finset.add_sum_erase (range g.n) g.len (mem_range.2 hn)]
    omega

theorem DV.step {g : MGraph} {node k : Nat} {h : MGraph} (hn : node < g.n) (hk : k < g.len node)
    (H : DV g node k h) : DV g node (k + 1) (dvStep node h k) := by
  have hlive : (fun a b => a < g.n ∧ b < h.len a ∧ (a = node → k ≤ b)) node k :=
    ⟨hn, by rw [H.len]; exact hk, fun _ => le_refl _⟩
  obtain ⟨h1, ⟨h2, h3, h3'⟩, h4, h5, h6, h7⟩ := H.pv node k hlive
  have hK := H.pv.kill hlive
  set t := (h.edge node k).target with htd
  set r := (h.edge node k).rev with hrd
  set L1 : Nat → Nat → Prop := fun a b => (a < g.n ∧ b < h.len a ∧ (a = node → k ≤ b)) ∧
    ¬ (a = node ∧ b = k) ∧ ¬ (a = t ∧ b = r) with hL1
  have hl1 : h.len t > r + 1 → L1 t (h.len t - 1) := by
    intro hc
    exact ⟨⟨h2, by omega, fun hh => absurd hh h7⟩, fun hh => h7 hh.1, by omega⟩
  have hd1 : ¬ L1 t r := fun hh => hh.2.2 ⟨rfl, rfl⟩
  have hP := hK.internalDelete h3 hd1 hl1
  obtain ⟨f1, f2, f3, f4, f5, f6⟩ := internalDelete_frame h t r
  have hrs := rowSum_internalDelete hK h3 hl1
  set h' := h.internalDelete t r with hh'
  have e0 : (dvStep node h k).len = h'.len := rfl
  have e1 : (dvStep node h k).wdeg = update h'.wdeg t (h'.wdeg t - (h.edge node k).weight) := rfl
  have er : ∀ f a, rowSum (dvStep node h k) f a = rowSum h' f a := fun _ _ => rfl
  refine ⟨?_, ?_, ?_, ?_, ?_, ?_⟩
  · have : PV (dvStep node h k) (Lren L1 t r (h.len t - 1)) := hP
    refine PV.iff this ?_
    intro a b
    rw [e0, f6]
    unfold Lren
    by_cases c1 : a = t
    · rw [c1, if_pos rfl, update_self]
      constructor
      · rintro ⟨_, hb, _⟩
        refine ⟨hb, ?_⟩
        have key : ∀ c, c < h.len t → c ≠ r → L1 t c := fun c hc hcr =>
          ⟨⟨h2, hc, fun hh => absurd hh h7⟩, fun hh => h7 hh.1, fun hh => hcr hh.2⟩
        split
        · exact key _ (by omega) (by omega)
        · exact key _ (by omega) (by assumption)
      · rintro ⟨hb, _⟩; exact ⟨h2, hb, fun hh => absurd hh h7⟩
    · rw [if_neg c1, update_of_ne c1]
      constructor
      · rintro ⟨k1, k2, k3⟩
        refine ⟨⟨k1, k2, fun hh => by have := k3 hh; omega⟩, ?_, fun hh => c1 hh.1⟩
        rintro ⟨q1, q2⟩
        have := k3 q1; omega
      · rintro ⟨⟨k1, k2, k3⟩, k4, _⟩
        refine ⟨k1, k2, fun hh => ?_⟩
        have := k3 hh
        have : b ≠ k := fun hb => k4 ⟨hh, hb⟩
        omega
  · exact (internalDelete_frame' h t r).trans H.fr
  · rw [e0, f6, update_of_ne (Ne.symm h7)]; exact H.len
  · intro a ha hane f hf
    rw [er, ← H.rows a ha hane f hf]
    by_cases c1 : a = t
    · rw [c1]
      have := (hrs f).1
      rw [h4, hf] at this
      exact this
    · exact (hrs f).2 a c1
  · intro a ha hane
    rw [er, e1, f2]
    by_cases c1 : a = t
    · have := (hrs (fun _ w => w)).1
      rw [h6] at this
      rw [c1, update_self, H.wdeg t h2 h7]
      omega
    · rw [update_of_ne c1, H.wdeg a ha hane, (hrs _).2 a c1]
  · have : (dvStep node h k).numEdges = h.numEdges - 2 := by
      show h'.numEdges - 2 = _
      rw [f3]
    rw [this, H.num, e0, f6]
    have htm : t ∈ (range g.n).erase node := mem_erase.2 ⟨h7, mem_range.2 h2⟩
    rw [← Finset.add_sum_erase _ h.len htm, ← Finset.add_sum_erase _ (update h.len t (h.len t - 1)) htm, update_self]
    have : ∑ x ∈ ((range g.n).erase node).erase t, update h.len t (h.len t - 1) x =
        ∑ x ∈ ((range g.n).erase node).erase t, h.len x := by
      refine Finset.sum_congr rfl fun x hx => ?_
      rw [mem_erase] at hx
      rw [update_of_ne hx.1]
    rw [this]; omega

theorem DV.loop {g1 : MGraph} (hg : Valid g1) {node : Nat} (hnode : node < g1.n) :
    ∀ k, k ≤ g1.len node → DV g1 node k ((List.range k).foldl (dvStep node) g1) := by
  intro k
  induction k with
  | zero => intro _; exact DV.init hg hnode
  | succ k ih =>
    intro hk
    rw [List.range_succ, List.foldl_append, List.foldl_cons, List.foldl_nil]
    exact (ih (by omega)).step hnode (by omega)

theorem DV.av {g h : MGraph} {node : Nat} (H : DV g node (g.len node) h) (hn : node < g.n) :
    AV h [node] := by
  have hnn := frame_n H.fr
  refine ⟨?_, ?_, ?_⟩
  · refine PV.iff H.pv ?_
    intro a b
    rw [hnn]
    simp only [List.mem_singleton]
    constructor
    · rintro ⟨k1, k2, k3⟩; exact ⟨k1, k3, fun hh => absurd hh k2⟩
    · rintro ⟨k1, k2, k3⟩
      refine ⟨k1, ?_, k2⟩
      rintro rfl
      have := k3 rfl
      rw [H.len] at k2; omega
  · intro a ha had
    rw [hnn] at ha
    exact H.wdeg a ha (by simpa using had)
  · rw [H.num, hnn, Nat.sub_self, Nat.add_zero]
    refine Finset.sum_congr ?_ fun _ _ => rfl
    ext x; simp [and_comm]

/-- Body of the relabelling loop of `deleteVertex`, which runs before the last vertex is moved. -/
def preStep (node back : Nat) (h : MGraph) (e : Nat) : MGraph :=
  let r := h.edge back e
  h.setEdge r.target r.rev { h.edge r.target r.rev with target := node }

theorem pre_fold {g : MGraph} {L : Nat → Nat → Prop} {node back : Nat} (h : PV g L)
    (hl : ∀ c, c < g.len back → L back c) :
    ∀ c, c ≤ g.len back →
      let g2 := (List.range c).foldl (preStep node back) g
      g2.frame = g.frame ∧ g2.len = g.len ∧ g2.wdeg = g.wdeg ∧ g2.numEdges = g.numEdges ∧
      (∀ b, b < g.len back → g2.edge back b = g.edge back b) ∧
      (∀ a b, L a b → g2.edge a b =
        if (g.edge a b).target = back ∧ (g.edge a b).rev < c then { g.edge a b with target := node } else g.edge a b) := by
  intro c
  induction c with
  | zero =>
    intro _
    refine ⟨rfl, rfl, rfl, rfl, fun _ _ => rfl, ?_⟩
    intro a b _; simp
  | succ c ih =>
    intro hc
    obtain ⟨f1, f2, f3, f4, i1, i2⟩ := ih (by omega)
    simp only [List.range_succ, List.foldl_append, List.foldl_cons, List.foldl_nil]
    set g2 := (List.range c).foldl (preStep node back) g with hg2
    obtain ⟨k1, k2, k3, k4, k5, k6⟩ := h back c (hl c (by omega))
    have hr : g2.edge back c = g.edge back c := i1 c (by omega)
    have hE : ∀ a b, (preStep node back g2 c).edge a b = if a = (g.edge back c).target ∧ b = (g.edge back c).rev
        then { g2.edge a b with target := node } else g2.edge a b := by
      intro a b
      unfold preStep
      simp only [hr, setEdge_edge]
      by_cases hab : a = (g.edge back c).target ∧ b = (g.edge back c).rev
      · rw [if_pos hab, if_pos hab]; rw [hab.1, hab.2]
      · rw [if_neg hab, if_neg hab]
    refine ⟨f1, f2, f3, f4, ?_, ?_⟩
    · intro b hb
      rw [hE, if_neg, i1 b hb]
      rintro ⟨q, _⟩
      exact k6 q.symm
    · intro a b had
      rw [hE, i2 a b had]
      obtain ⟨j1, j2, j3, j4, j5, j6⟩ := h a b had
      by_cases hp : a = (g.edge back c).target ∧ b = (g.edge back c).rev
      · rw [if_pos hp]
        obtain ⟨rfl, rfl⟩ := hp
        rw [if_neg (by rw [k4]; rintro ⟨_, hh⟩; omega), if_pos ⟨k3, by omega⟩]
      · rw [if_neg hp]
        by_cases hq : (g.edge a b).target = back ∧ (g.edge a b).rev < c
        · rw [if_pos hq, if_pos ⟨hq.1, by omega⟩]
        · rw [if_neg hq, if_neg]
          rintro ⟨q1, q2⟩
          have q3 : (g.edge a b).rev = c := by
            by_contra hne; exact hq ⟨q1, by omega⟩
          rw [q1, q3] at j3 j4
          exact hp ⟨j3.symm, j4.symm⟩

theorem Freed.of_eq {g g' h : MGraph} {slot : Nat} {D : List Nat} (H : Freed g g' slot D) (h1 : h.n = g'.n)
    (h2 : h.len = g'.len) (h3 : h.wdeg = g'.wdeg) (h4 : h.edge = g'.edge) (h5 : h.numEdges = g'.numEdges) :
    Freed g h slot D := by
  refine ⟨h1.trans H.n, ?_, ?_, ?_, h5.trans H.num⟩
  · rw [h2]; exact H.len
  · rw [h3]; exact H.wdeg
  · rw [h4]; exact H.edge

/-- The graph after the position maps have been updated by `deleteVertex`. -/
def dvPos (g : MGraph) (node : Nat) : MGraph :=
  if node < g.n - 1 then
    { g with
      pos := fun v => if v ∈ g.cont node then g.n - 1 else if v ∈ g.cont (g.n - 1) then node else g.pos v
      cont := update g.cont node (g.cont (g.n - 1)) }
  else g

/-- The graph after the relabelling loop. -/
def dvPre (g : MGraph) (node back : Nat) : MGraph :=
  if node < back then (List.range (g.len back)).foldl (preStep node back) g else g

theorem deleteVertex_eq (g : MGraph) (node : Nat) : g.deleteVertex node =
    let g1 := g.dvPos node
    let g2 := (List.range (g1.len node)).foldl (dvStep node) g1
    let g4 := (g2.dvPre node (g.n - 1)).moveLast node
    { g4 with n := g4.n - 1, lastNode := g4.lastNode - 1 } := rfl

theorem dv_freed {g : MGraph} {node : Nat} (h : AV g [node]) (hn : node < g.n) :
    Freed g { (g.dvPre node (g.n - 1)).moveLast node with n := g.n - 1 } node [] := by
  by_cases hc : node < g.n - 1
  · obtain ⟨f1, f2, f3, f4, i1, i2⟩ := pre_fold (node := node) (back := g.n - 1) h.pv
      (fun c hc' => ⟨by omega, by simp; omega, hc'⟩) (g.len (g.n - 1)) (le_refl _)
    have e : g.dvPre node (g.n - 1) = (List.range (g.len (g.n - 1))).foldl (preStep node (g.n - 1)) g := by
      unfold dvPre; rw [if_pos hc]
    rw [e]
    set g2 := (List.range (g.len (g.n - 1))).foldl (preStep node (g.n - 1)) g with hg2
    have hnn := frame_n f1
    refine ⟨rfl, ?_, ?_, ?_, f4⟩
    · intro a _ _
      show update g2.len node (g2.len (g2.n - 1)) a = _
      rw [f2, hnn]
      by_cases h1 : a = node
      · rw [h1, update_self, if_pos rfl]
      · rw [update_of_ne h1, if_neg h1]
    · intro a _ _
      show update g2.wdeg node (g2.wdeg (g2.n - 1)) a = _
      rw [f3, hnn]
      by_cases h1 : a = node
      · rw [h1, update_self, if_pos rfl]
      · rw [update_of_ne h1, if_neg h1]
    · intro a ha _ b hb
      show update g2.edge node (g2.edge (g2.n - 1)) a b = _
      rw [hnn]
      by_cases h1 : a = node
      · rw [h1, update_self, if_pos rfl]
        rw [if_pos h1] at hb
        rw [i1 b hb]
        obtain ⟨j1, j2, j3, j4, j5, j6⟩ := h.pv (g.n - 1) b ⟨by omega, by simp; omega, hb⟩
        unfold relab; rw [if_neg j6]
      · rw [update_of_ne h1, if_neg h1]
        rw [if_neg h1] at hb
        have hlv : a < g.n ∧ a ∉ [node] ∧ b < g.len a := ⟨by omega, by simpa using h1, hb⟩
        obtain ⟨j1, j2, j3, j4, j5, j6⟩ := h.pv a b hlv
        rw [i2 a b hlv]
        unfold relab
        by_cases h2 : (g.edge a b).target = g.n - 1
        · rw [if_pos h2, if_pos]
          have := j2.2.2
          rw [h2] at this
          exact ⟨h2, this⟩
        · rw [if_neg h2, if_neg (by intro hh; exact h2 hh.1)]
  · have e : g.dvPre node (g.n - 1) = g := by unfold dvPre; rw [if_neg hc]
    rw [e]
    have hne : node = g.n - 1 := by omega
    have := freed_pop h hne (by omega)
    refine this.of_eq rfl ?_ ?_ ?_ rfl
    · show update g.len node (g.len (g.n - 1)) = g.len
      rw [← hne, update_eq_self]
    · show update g.wdeg node (g.wdeg (g.n - 1)) = g.wdeg
      rw [← hne, update_eq_self]
    · show update g.edge node (g.edge (g.n - 1)) = g.edge
      rw [← hne, update_eq_self]

/-- Positions after deleting a vertex: live originals follow their vertex, the deleted ones get an invalid position. -/
theorem dvPos_inv {E : Nat → Prop} {g : MGraph} (h : PosIn E g) {node : Nat} (hn : node < g.n) {g' : MGraph} (h1 : g'.n = g.n - 1)
    (h2 : g'.pos = (g.dvPos node).pos) (h4 : g'.cont = (g.dvPos node).cont) :
    PosIn E g' ∧ (∀ v, E v → g.pos v < g.n → g.pos v ≠ node → g'.pos v = relab node (g.n - 1) (g.pos v)) ∧
    ∀ v, E v → g.pos v = node → g'.pos v = g'.n := by
  have hmem : ∀ p, p < g.n → ∀ v, E v → (v ∈ g.cont p ↔ g.pos v = p) := by
    intro p hp v hv
    constructor
    · intro hh; exact (h.back p hp v hh).2
    · intro hh
      have := h.mem v hv (by rw [hh]; exact hp)
      rw [hh] at this; exact this
  by_cases hc : node < g.n - 1
  · have hpos : ∀ v, g'.pos v = if v ∈ g.cont node then g.n - 1 else if v ∈ g.cont (g.n - 1) then node else g.pos v := by
      intro v; rw [h2]; unfold dvPos; rw [if_pos hc]
    have hcont : ∀ p, g'.cont p = if p = node then g.cont (g.n - 1) else g.cont p := by
      intro p; rw [h4]; unfold dvPos; rw [if_pos hc]; simp only [update_apply]
    refine ⟨⟨?_, ?_, ?_⟩, ?_, ?_⟩
    · intro p hp v hv
      rw [h1] at hp
      rw [hcont] at hv
      by_cases c : p = node
      · rw [if_pos c] at hv
        obtain ⟨b1, b2⟩ := h.back _ (by omega) v hv
        refine ⟨b1, ?_⟩
        rw [hpos, if_neg (by rw [hmem node hn v b1]; omega), if_pos hv, c]
      · rw [if_neg c] at hv
        obtain ⟨b1, b2⟩ := h.back p (by omega) v hv
        refine ⟨b1, ?_⟩
        rw [hpos, if_neg (by rw [hmem node hn v b1]; omega), if_neg (by rw [hmem _ (by omega) v b1]; omega), b2]
    · intro v hv hvn
      rw [h1] at hvn
      rw [hcont]
      rw [hpos] at hvn ⊢
      split at hvn
      · omega
      · split at hvn
        · rename_i q1 q2
          rw [if_neg q1, if_pos q2, if_pos rfl]; exact q2
        · rename_i q1 q2
          rw [if_neg q1, if_neg q2, if_neg (by rw [hmem node hn v hv] at q1; exact q1)]
          exact h.mem v hv (by omega)
    · intro p hp
      rw [h1] at hp
      rw [hcont]
      split
      · exact h.nodup _ (by omega)
      · exact h.nodup _ (by omega)
    · intro v hv hvn hne
      rw [hpos, if_neg (by rw [hmem node hn v hv]; exact hne)]
      unfold relab
      simp only [hmem _ (show g.n - 1 < g.n by omega) v hv]
    · intro v hv he
      rw [hpos, if_pos ((hmem node hn v hv).2 he), h1]
  · have hne : node = g.n - 1 := by omega
    have hpos : g'.pos = g.pos := by rw [h2]; unfold dvPos; rw [if_neg hc]
    have hcont : g'.cont = g.cont := by rw [h4]; unfold dvPos; rw [if_neg hc]
    refine ⟨⟨?_, ?_, ?_⟩, ?_, ?_⟩
    · intro p hp; rw [hcont, hpos]; exact h.back p (by omega)
    · intro v hv hvn; rw [hcont, hpos]; rw [hpos] at hvn; exact h.mem v hv (by omega)
    · intro p hp; rw [hcont]; exact h.nodup p (by omega)
    · intro v hv hvn hv2; rw [hpos]; unfold relab; rw [if_neg (by omega)]
    · intro v hv he; rw [hpos, he, h1, hne]

/-- Deleting a vertex: the graph induced by the other vertices, the last one renumbered. -/
theorem deleteVertex_spec {g : MGraph} (hg : Valid g) {node : Nat} (hn : node < g.n) :
    Valid (g.deleteVertex node) ∧ (g.deleteVertex node).n = g.n - 1 ∧
    (∀ u v, u < g.n → v < g.n → u ≠ node → v ≠ node →
      (g.deleteVertex node).W (relab node (g.n - 1) u) (relab node (g.n - 1) v) = g.W u v ∧
      (g.deleteVertex node).cnt (relab node (g.n - 1) u) (relab node (g.n - 1) v) = g.cnt u v) ∧
    (g.deleteVertex node).posSize = g.posSize ∧ (g.deleteVertex node).origNodes = g.origNodes ∧
    (∀ E, PosIn E g → PosIn E (g.deleteVertex node) ∧
      (∀ v, E v → g.pos v < g.n → g.pos v ≠ node →
        (g.deleteVertex node).pos v = relab node (g.n - 1) (g.pos v)) ∧
      ∀ v, E v → g.pos v = node → (g.deleteVertex node).pos v = (g.deleteVertex node).n) ∧
    (PosW g [] → PosW (g.deleteVertex node) []) ∧ (g.deleteVertex node).lastNode = g.lastNode - 1 ∧
    (g.deleteVertex node).contSize = g.contSize := by
  rw [deleteVertex_eq]
  dsimp only
  have p0 : (g.dvPos node).n = g.n ∧ (g.dvPos node).len = g.len ∧ (g.dvPos node).edge = g.edge ∧
      (g.dvPos node).wdeg = g.wdeg ∧ (g.dvPos node).numEdges = g.numEdges ∧ (g.dvPos node).posSize = g.posSize ∧
      (g.dvPos node).origNodes = g.origNodes := by
    unfold dvPos; split <;> exact ⟨rfl, rfl, rfl, rfl, rfl, rfl, rfl⟩
  obtain ⟨p1, p2, p3, p4, p5, p6, p7⟩ := p0
  have hg1 : Valid (g.dvPos node) := hg.of_eq p1 p2 p3 p4 p5
  have hrow1 : ∀ f a, rowSum (g.dvPos node) f a = rowSum g f a := by
    intro f a; unfold rowSum; rw [p2, p3]
  have H := DV.loop hg1 (node := node) (by rw [p1]; exact hn) _ (le_refl _)
  set g1 := g.dvPos node with hg1d
  set g2 := (List.range (g1.len node)).foldl (dvStep node) g1 with hg2d
  have hav := H.av (by rw [p1]; exact hn)
  have hn2 : g2.n = g.n := (frame_n H.fr).trans p1
  have hF := dv_freed hav (by rw [hn2]; exact hn)
  rw [hn2] at hF
  have hpf : (g2.dvPre node (g.n - 1)).frame = g2.frame := by
    unfold dvPre
    split
    · exact (pre_fold (node := node) (back := g.n - 1) hav.pv
        (fun c hc' => ⟨by omega, by simp; omega, hc'⟩) (g2.len (g.n - 1)) (le_refl _)).1
    · rfl
  have hn3 : (g2.dvPre node (g.n - 1)).n = g.n := (frame_n hpf).trans hn2
  set g5 : MGraph := { (g2.dvPre node (g.n - 1)).moveLast node with
    n := ((g2.dvPre node (g.n - 1)).moveLast node).n - 1
    lastNode := ((g2.dvPre node (g.n - 1)).moveLast node).lastNode - 1 } with hg5
  have hF5 : Freed g2 g5 node [] := by
    refine hF.of_eq ?_ rfl rfl rfl rfl
    show (g2.dvPre node (g.n - 1)).n - 1 = g.n - 1
    rw [hn3]
  have hfr5 : g5.pos = g1.pos ∧ g5.posSize = g1.posSize ∧ g5.cont = g1.cont ∧ g5.origNodes = g1.origNodes := by
    have := hpf.trans H.fr
    have hp := pframe_of_frame this
    unfold pframe at hp
    simp only [Prod.mk.injEq] at hp
    exact hp.2
  have hD : ∀ d ∈ ([] : List Nat), d < node := by simp
  have hn5 : g5.n = g.n - 1 := by rw [hF5.n, hn2]
  have hW : ∀ (k : Nat → Nat) u v, u < g.n → v < g.n → u ≠ node → v ≠ node →
      rowSum g5 (fun a w => if a = relab node (g.n - 1) v then k w else 0) (relab node (g.n - 1) u) =
      rowSum g (fun a w => if a = v then k w else 0) u := by
    intro k u v hu hv hun hvn
    have hlt : relab node (g.n - 1) u < g2.n - 1 := by
      rw [hn2]; unfold relab; split <;> omega
    rw [hF5.row _ hlt (by simp), hn2]
    have hold : (if relab node (g.n - 1) u = node then g.n - 1 else relab node (g.n - 1) u) = u := by
      unfold relab; split <;> (try split) <;> simp_all
    rw [hold, ← hrow1, ← H.rows u (by rw [p1]; exact hu) hun _ (by intro w; rw [if_neg (Ne.symm hvn)])]
    refine Finset.sum_congr rfl fun b hb => ?_
    obtain ⟨j1, j2, j3, j4, j5, j6⟩ := hav.pv u b ⟨by rw [hn2]; exact hu, by simpa using hun, mem_range.1 hb⟩
    have ht : (g2.edge u b).target ≠ node := by simpa using j2.2.1
    have : relab node (g.n - 1) (g2.edge u b).target = relab node (g.n - 1) v ↔ (g2.edge u b).target = v := by
      constructor
      · unfold relab; split <;> split <;> intro hh <;> omega
      · intro hh; rw [hh]
    simp only [this]
  refine ⟨hF5.av hav (by rw [hn2]; exact hn) hD, hn5, ?_, hfr5.2.1.trans p6, hfr5.2.2.2.trans p7, ?_, ?_, ?_, ?_⟩
  · intro u v hu hv hun hvn
    exact ⟨hW (fun w => w) u v hu hv hun hvn, hW (fun _ => 1) u v hu hv hun hvn⟩
  · intro E hp
    exact dvPos_inv hp hn hn5 hfr5.1 hfr5.2.2.1
  · intro hw u b hu _ hb
    rw [hn5] at hu
    rw [hF5.len u (by rw [hn2]; exact hu) (by simp)] at hb
    rw [hF5.edge u (by rw [hn2]; exact hu) (by simp) b hb, hn2]
    rw [hn2] at hb
    generalize hx : (if u = node then g.n - 1 else u) = x at hb ⊢
    have hxn : x < g.n ∧ x ≠ node := by
      rw [← hx]; split <;> omega
    obtain ⟨j1, j2, j3, j4, j5, j6⟩ := hav.pv x b ⟨by rw [hn2]; exact hxn.1, by simpa using hxn.2, hb⟩
    have ht : (g2.edge x b).target ≠ node := by simpa using j2.2.1
    by_contra h0
    dsimp only at h0
    have h1 := H.rows x (by rw [p1]; exact hxn.1) hxn.2 (fun a w => if a = node then 0 else if w = 0 then 1 else 0)
      (fun w => if_pos rfl)
    have h2 : rowSum g1 (fun a w => if a = node then 0 else if w = 0 then 1 else 0) x = 0 := by
      unfold rowSum
      refine Finset.sum_eq_zero fun e he => ?_
      rw [p2] at he
      rw [p3]
      have := hw x e hxn.1 (by simp) (mem_range.1 he)
      dsimp only
      split
      · rfl
      · rw [if_neg (by omega)]
    rw [h2] at h1
    unfold rowSum at h1
    have h3 := Finset.sum_eq_zero_iff.1 h1 b (mem_range.2 hb)
    dsimp only at h3
    rw [if_neg ht, if_pos (by omega)] at h3
    omega
  · have q1 := lastNode_of_frame (hpf.trans H.fr)
    have q2 : g1.lastNode = g.lastNode := by rw [hg1d]; unfold dvPos; split <;> rfl
    show (g2.dvPre node (g.n - 1)).lastNode - 1 = _
    rw [q1, q2]
  · have q1 := contSize_of_frame (hpf.trans H.fr)
    have q2 : g1.contSize = g.contSize := by rw [hg1d]; unfold dvPos; split <;> rfl
    show (g2.dvPre node (g.n - 1)).contSize = _
    rw [q1, q2]

/-! ### new_node, new_empty_node -/

theorem addVertex_spec {g g' : MGraph} (hg : Valid g) (h1 : g'.n = g.n + 1) (h2 : g'.len = update g.len g.n 0)
    (h3 : g'.edge = g.edge) (h4 : g'.wdeg = update g.wdeg g.n 0) (h5 : g'.numEdges = g.numEdges) :
    Valid g' ∧ (∀ f a, a < g.n → rowSum g' f a = rowSum g f a) ∧ g'.len g.n = 0 := by
  have hl : ∀ a, a < g.n → g'.len a = g.len a := by
    intro a ha; rw [h2, update_of_ne (by omega)]
  have hr : ∀ f a, a < g.n → rowSum g' f a = rowSum g f a := by
    intro f a ha; unfold rowSum; rw [hl a ha, h3]
  have h0 : g'.len g.n = 0 := by rw [h2, update_self]
  refine ⟨?_, hr, h0⟩
  rw [valid_iff] at hg ⊢
  obtain ⟨k1, k2, k3⟩ := hg
  refine ⟨?_, ?_, ?_⟩
  · intro u e hu he
    by_cases hc : u = g.n
    · rw [hc, h0] at he; omega
    · rw [hl u (by omega)] at he
      obtain ⟨j1, j2, j3, j4, j5, j6⟩ := k1 u e (by omega) he
      rw [h3, hl _ j1]
      exact ⟨by omega, j2, j3, j4, j5, j6⟩
  · intro u hu
    by_cases hc : u = g.n
    · rw [hc, h4, update_self]; unfold rowSum; rw [h0]; simp
    · rw [h4, update_of_ne hc, hr _ u (by omega)]; exact k2 u (by omega)
  · rw [h5, h1, Finset.sum_range_succ, h0, k3, Nat.add_zero]
    exact (Finset.sum_congr rfl fun x hx => hl x (mem_range.1 hx)).symm

end VieCut.MGraph
