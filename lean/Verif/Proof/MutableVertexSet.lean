import Verif.Proof.MutableRemove

/-! `contractVertexSet`. -/

namespace VieCut.MGraph
open Function Finset

/-- The map of `contractVertexSet` is accurate. -/
structure MapOK (g : MGraph) (first : Nat) (map : Nat → Option (Nat × Nat × Nat)) : Prop where
  some : ∀ t t' rev ed2, map t = some (t', rev, ed2) →
    t' = t ∧ ed2 < g.len first ∧ (g.edge first ed2).target = t ∧ (g.edge first ed2).rev = rev
  none : ∀ t, map t = none → ∀ b, b < g.len first → (g.edge first b).target ≠ t

theorem cvsStep_spec {g0 : MGraph} {S : List Nat} {first n e R : Nat} {pend : Nat → Nat → Prop} {sim : Prop} {s : CVS}
    (h : CI g0 s.g S first (fun _ => False) pend (R + 1) sim) (hm : MapOK s.g first s.map)
    (hpend : (s.g.edge n e).target ∉ S → pend n e) :
    CI g0 (cvsStep S first n s e).g S first (fun _ => False) (fun a b => pend a b ∧ ¬ (a = n ∧ b = e)) R sim ∧
      MapOK (cvsStep S first n s e).g first (cvsStep S first n s e).map := by
  unfold cvsStep
  simp only
  by_cases hS : (s.g.edge n e).target ∈ S
  · rw [if_pos hS]
    refine ⟨h.skip.congr ?_, ⟨hm.some, hm.none⟩⟩
    intro a b
    constructor
    · exact fun hh => hh.1
    · intro hh
      refine ⟨hh, ?_⟩
      rintro ⟨rfl, rfl⟩
      exact (h.pendT _ _ hh).1 hS
  · rw [if_neg hS]
    have hp := hpend hS
    obtain ⟨F, htn⟩ := h.fold hp
    have hkt0 : first ≠ (s.g.edge n e).target := fun hh => F.tk hh.symm
    have hfn : ∀ b, ¬ (first = n ∧ b = e) := fun b hh => F.nk hh.1.symm
    rcases hmt : s.map (s.g.edge n e).target with _ | ⟨t', rev, ed2⟩
    · simp only
      have hno := hm.none _ hmt
      refine ⟨h.redir hp (fun _ b hb _ => hno b hb), ?_⟩
      obtain ⟨p1, p2, p3, p4, p5, _, _, p8, p9, p10, p11⟩ := redirect_spec F
      set d := s.g.edge n e with hd
      set g' := s.g.redirect first d with hg'
      have hlk : g'.len first = s.g.len first + 1 := by rw [p2, update_self]
      refine ⟨?_, ?_⟩
      · intro t t'' rev' ed2' hmap
        by_cases ht : t = d.target
        · rw [ht, update_self, Option.some.injEq, Prod.mk.injEq, Prod.mk.injEq] at hmap
          obtain ⟨rfl, rfl, rfl⟩ := hmap
          exact ⟨ht.symm, by omega, by rw [p8, ht], p9⟩
        · rw [update_of_ne ht] at hmap
          obtain ⟨q1, q2, q3, q4⟩ := hm.some _ _ _ _ hmap
          have e1 : g'.edge first ed2' = s.g.edge first ed2' := p10 first ed2' hkt0 (fun hh => by omega)
          exact ⟨q1, by omega, by rw [e1]; exact q3, by rw [e1]; exact q4⟩
      · intro t hmap b hb
        by_cases ht : t = d.target
        · rw [ht, update_self] at hmap; simp at hmap
        · rw [update_of_ne ht] at hmap
          by_cases hbl : b = s.g.len first
          · rw [hbl, p8]; exact fun hh => ht hh.symm
          · rw [p10 first b hkt0 (fun hh => hbl hh.2)]
            exact hm.none t hmap b (by omega)
    · simp only
      obtain ⟨q1, q2, q3, q4⟩ := hm.some _ _ _ _ hmt
      rw [q1, ← q4]
      refine ⟨h.merge hp q2 not_false q3, ?_⟩
      obtain ⟨p1, p2, p3, p4, p5, _, _, p8, p9, p10, p11⟩ := mergePair_spec F (Or.inr (Or.inl ⟨rfl, q2, not_false⟩)) q3
      set d := s.g.edge n e with hd
      set g' := s.g.mergePair first ed2 d.target (s.g.edge first ed2).rev d with hg'
      have hlk : g'.len first = s.g.len first := by rw [p2, update_of_ne hkt0]
      refine ⟨?_, ?_⟩
      · intro t t'' rev' ed2' hmap
        have key : ∀ b, b < s.g.len first → (g'.edge first b).rev =
            if (s.g.edge first b).target = d.target ∧ (s.g.edge first b).rev = s.g.len d.target - 1 then d.rev
            else (s.g.edge first b).rev := fun b hb =>
          p10 first b hkt0 (Or.inr (Or.inl ⟨rfl, hb, not_false⟩)) (hfn b)
        by_cases ht : t = d.target
        · subst ht
          by_cases hlast : s.g.len d.target - 1 = (s.g.edge first ed2).rev
          · rw [if_pos hlast, update_self, Option.some.injEq, Prod.mk.injEq, Prod.mk.injEq] at hmap
            obtain ⟨rfl, rfl, rfl⟩ := hmap
            refine ⟨rfl, by omega, by rw [p8 first _ hkt0]; exact q3, ?_⟩
            rw [key _ q2, if_pos ⟨q3, hlast.symm⟩]
          · rw [if_neg hlast, hmt, Option.some.injEq, Prod.mk.injEq, Prod.mk.injEq] at hmap
            obtain ⟨rfl, rfl, rfl⟩ := hmap
            refine ⟨q1, by omega, by rw [p8 first _ hkt0]; exact q3, ?_⟩
            rw [key _ q2, if_neg (fun hh => hlast hh.2.symm)]
            exact q4
        · have hmap' : s.map t = some (t'', rev', ed2') := by
            split at hmap
            · rw [update_of_ne ht] at hmap; exact hmap
            · exact hmap
          obtain ⟨r1, r2, r3, r4⟩ := hm.some _ _ _ _ hmap'
          refine ⟨r1, by omega, by rw [p8 first _ hkt0]; exact r3, ?_⟩
          rw [key _ r2, if_neg (fun hh => ht (r3.symm.trans hh.1))]
          exact r4
      · intro t hmap b hb
        rw [hlk] at hb
        have hmap' : s.map t = none := by
          split at hmap
          · by_cases ht : t = d.target
            · rw [ht, update_self] at hmap; simp at hmap
            · rw [update_of_ne ht] at hmap; exact hmap
          · exact hmap
        rw [p8 first b hkt0]
        exact hm.none t hmap' b hb

/-- Half edges of merged vertices still to be processed in the second loop. -/
def P2 (gI : MGraph) (S : List Nat) (rest : List Nat) (n c a b : Nat) : Prop :=
  (a ∈ rest ∨ (a = n ∧ c ≤ b)) ∧ b < gI.len a ∧ (gI.edge a b).target ∉ S

theorem cvs_inner {gI g0 : MGraph} {S : List Nat} {first n R : Nat} {rest : List Nat} {sim : Prop}
    (hn : n ∉ rest) (hnS : n ∈ S) (hnf : n ≠ first) (hT : ∀ b, b < gI.len n → (g0.edge n b).target = (gI.edge n b).target)
    (s : CVS) (h : CI g0 s.g S first (fun _ => False) (P2 gI S rest n 0) (R + gI.len n) sim)
    (hm : MapOK s.g first s.map) : ∀ c, c ≤ gI.len n →
    let s' := (List.range c).foldl (cvsStep S first n) s
    CI g0 s'.g S first (fun _ => False) (P2 gI S rest n c) (R + (gI.len n - c)) sim ∧ MapOK s'.g first s'.map := by
  intro c
  induction c with
  | zero => intro _; exact ⟨h, hm⟩
  | succ c ih =>
    intro hc
    obtain ⟨i1, i2⟩ := ih (by omega)
    simp only [List.range_succ, List.foldl_append, List.foldl_cons, List.foldl_nil]
    set s1 := (List.range c).foldl (cvsStep S first n) s with hs1
    have hR : R + (gI.len n - c) = (R + (gI.len n - (c + 1))) + 1 := by omega
    rw [hR] at i1
    obtain ⟨k1, k2⟩ := cvsStep_spec (n := n) (e := c) i1 i2 (by
      intro hh
      refine ⟨Or.inr ⟨rfl, le_refl _⟩, by omega, ?_⟩
      rw [← hT c (by omega), ← i1.memT n c hnS hnf]; exact hh)
    refine ⟨k1.congr ?_, k2⟩
    intro a b
    unfold P2
    constructor
    · rintro ⟨h1 | ⟨h1, h2⟩, h3⟩
      · exact ⟨⟨Or.inl h1, h3⟩, fun hh => hn (by rw [← hh.1]; exact h1)⟩
      · exact ⟨⟨Or.inr ⟨h1, by omega⟩, h3⟩, fun hh => by omega⟩
    · rintro ⟨⟨h1 | ⟨h1, h2⟩, h3⟩, h4⟩
      · exact ⟨Or.inl h1, h3⟩
      · refine ⟨Or.inr ⟨h1, ?_⟩, h3⟩
        have : b ≠ c := fun hh => h4 ⟨h1, hh⟩
        omega

theorem cvs_outer {gI g0 : MGraph} {S : List Nat} {first : Nat} {sim : Prop}
    (hT : ∀ a b, a ∈ S → a ≠ first → a < gI.n → b < gI.len a → (g0.edge a b).target = (gI.edge a b).target)
    (hL : ∀ a, a ∈ S → a ≠ first → g0.len a = gI.len a) :
    ∀ (l : List Nat), l.Nodup → (∀ a ∈ l, a ∈ S ∧ a ≠ first ∧ a < gI.n) → ∀ (s : CVS) (R : Nat),
    CI g0 s.g S first (fun _ => False) (fun a b => a ∈ l ∧ b < gI.len a ∧ (gI.edge a b).target ∉ S)
      (R + (l.map gI.len).sum) sim → MapOK s.g first s.map →
    let s' := l.foldl (fun s n => (List.range (s.g.len n)).foldl (cvsStep S first n) s) s
    CI g0 s'.g S first (fun _ => False) (fun _ _ => False) R sim := by
  intro l
  induction l with
  | nil =>
    intro _ _ s R h _
    simp only [List.map_nil, List.sum_nil, Nat.add_zero] at h
    refine h.congr ?_
    intro a b; simp
  | cons n l ih =>
    intro hnd hmem s R h hm
    rw [List.nodup_cons] at hnd
    obtain ⟨n1, n2, n3⟩ := hmem n (by simp)
    have hlen : s.g.len n = gI.len n := by rw [h.memlen n n1 n2, hL n n1 n2]
    have h' : CI g0 s.g S first (fun _ => False) (P2 gI S l n 0) ((R + (l.map gI.len).sum) + gI.len n) sim := by
      have e : R + ((n :: l).map gI.len).sum = (R + (l.map gI.len).sum) + gI.len n := by
        simp only [List.map_cons, List.sum_cons]; omega
      rw [e] at h
      refine h.congr ?_
      intro a b
      unfold P2
      simp only [List.mem_cons]
      constructor
      · rintro ⟨h1 | h1, h2⟩
        · exact ⟨Or.inr h1, h2⟩
        · exact ⟨Or.inl h1.1, h2⟩
      · rintro ⟨h1 | h1, h2⟩
        · exact ⟨Or.inr ⟨h1, Nat.zero_le _⟩, h2⟩
        · exact ⟨Or.inl h1, h2⟩
    obtain ⟨k1, k2⟩ := cvs_inner hnd.1 n1 n2 (fun b hb => hT n b n1 n2 n3 hb) s h' hm (gI.len n) (le_refl _)
    rw [Nat.sub_self, Nat.add_zero] at k1
    simp only [List.foldl_cons]
    rw [hlen]
    refine ih hnd.2 (fun a ha => hmem a (by simp [ha])) _ R (k1.congr ?_) k2
    intro a b
    unfold P2
    constructor
    · rintro ⟨h1, h2⟩; exact ⟨Or.inl h1, h2⟩
    · rintro ⟨h1 | h1, h2, h3⟩
      · exact ⟨h1, h2, h3⟩
      · have h4 := h1.2; rw [h1.1] at h2; omega

/-- First loop of `contractVertexSet`. -/
structure P1 (gI : MGraph) (S : List Nat) (first c : Nat) (s : CVS) : Prop where
  fr : s.g.frame = gI.frame
  len : s.g.len = gI.len
  i1 : ∀ j, j < s.edges.length → ∃ e, e < c ∧ s.edges[j]? = some (gI.edge first e) ∧ (gI.edge first e).target ∉ S ∧
    s.g.edge (gI.edge first e).target (gI.edge first e).rev =
      { gI.edge (gI.edge first e).target (gI.edge first e).rev with rev := j }
  i2 : ∀ e, e < c → (gI.edge first e).target ∉ S → ∃ j, s.edges[j]? = some (gI.edge first e) ∧
    s.g.edge (gI.edge first e).target (gI.edge first e).rev =
      { gI.edge (gI.edge first e).target (gI.edge first e).rev with rev := j }
  i3 : ∀ a b, a < gI.n → b < gI.len a → ¬ (a ∉ S ∧ (gI.edge a b).target = first ∧ (gI.edge a b).rev < c) →
    s.g.edge a b = gI.edge a b
  wdegO : ∀ u, u ≠ first → s.g.wdeg u = gI.wdeg u
  wdeg : s.g.wdeg first + ∑ e ∈ range c, (gI.edge first e).weight =
    (s.edges.map (·.weight)).sum + gI.wdeg first
  num : s.g.numEdges + c = s.edges.length + gI.numEdges
  m1 : ∀ t t' rev ed2, s.map t = some (t', rev, ed2) →
    t' = t ∧ ∃ r, s.edges[ed2]? = some r ∧ r.target = t ∧ r.rev = rev
  m2 : ∀ t, s.map t = none → ∀ r ∈ s.edges, r.target ≠ t

theorem P1.init (gI : MGraph) (S : List Nat) (first : Nat) : P1 gI S first 0 ⟨gI, [], fun _ => none⟩ := by
  refine ⟨rfl, rfl, ?_, ?_, ?_, ?_, ?_, ?_, ?_, ?_⟩ <;> simp

theorem P1.step {gI : MGraph} {S : List Nat} {first c : Nat} {s : CVS} (hI : Valid gI) (hf : first < gI.n)
    (hfS : first ∈ S) (hc : c < gI.len first) (h : P1 gI S first c s) : P1 gI S first (c + 1) (cvsFirstStep S first s c) := by
  obtain ⟨j1, ⟨j2, _, j2'⟩, j3, j4, j5, j6⟩ := hI.pv first c ⟨hf, by simp, hc⟩
  have hr : s.g.edge first c = gI.edge first c := h.i3 first c hf hc (fun hh => hh.1 hfS)
  have hwle : ∑ e ∈ range (c + 1), (gI.edge first e).weight ≤ gI.wdeg first := by
    rw [hI.wdeg first hf (by simp)]
    unfold rowSum
    exact Finset.sum_le_sum_of_subset (by intro x; simp only [mem_range]; omega)
  have hnle : gI.len first ≤ gI.numEdges := by
    rw [hI.num]
    exact Finset.single_le_sum (f := gI.len) (fun _ _ => Nat.zero_le _) (by simp [hf])
  rw [Finset.sum_range_succ] at hwle
  unfold cvsFirstStep
  simp only [hr]
  by_cases hS : (gI.edge first c).target ∈ S
  · rw [if_pos hS]
    refine ⟨h.fr, h.len, ?_, ?_, ?_, ?_, ?_, ?_, h.m1, h.m2⟩
    · intro j hj
      obtain ⟨e, e1, e2⟩ := h.i1 j hj
      exact ⟨e, by omega, e2⟩
    · intro e he ht
      have : e ≠ c := by rintro rfl; exact ht hS
      exact h.i2 e (by omega) ht
    · intro a b ha hb hh
      exact h.i3 a b ha hb (fun h2 => hh ⟨h2.1, h2.2.1, by omega⟩)
    · intro u hu
      show update s.g.wdeg first _ u = _
      rw [update_of_ne hu]; exact h.wdegO u hu
    · show update s.g.wdeg first _ first + _ = _
      rw [update_self, Finset.sum_range_succ]
      have := h.wdeg
      show _ = (s.edges.map (·.weight)).sum + _
      omega
    · show s.g.numEdges - 1 + (c + 1) = s.edges.length + _
      have := h.num
      omega
  · rw [if_neg hS]
    have hset : ∀ a b, (s.g.setEdge (gI.edge first c).target (gI.edge first c).rev
        { s.g.edge (gI.edge first c).target (gI.edge first c).rev with rev := s.edges.length }).edge a b =
        if a = (gI.edge first c).target ∧ b = (gI.edge first c).rev then
          { gI.edge (gI.edge first c).target (gI.edge first c).rev with rev := s.edges.length } else s.g.edge a b := by
      intro a b
      rw [setEdge_edge, h.i3 _ _ j2 j2']
      rintro ⟨_, _, h3⟩
      rw [j4] at h3; omega
    have hother : ∀ e, e < c → ¬ ((gI.edge first e).target = (gI.edge first c).target ∧
        (gI.edge first e).rev = (gI.edge first c).rev) := by
      rintro e he ⟨h1, h2⟩
      have := (hI.pv first e ⟨hf, by simp, by omega⟩).2.2.2.1
      rw [h1, h2, j4] at this
      omega
    refine ⟨h.fr, h.len, ?_, ?_, ?_, ?_, ?_, ?_, ?_, ?_⟩
    · intro j hj
      simp only [List.length_append, List.length_cons, List.length_nil] at hj
      by_cases hjl : j = s.edges.length
      · refine ⟨c, by omega, ?_, hS, ?_⟩
        · simp [hjl]
        · simp only [hset]
          rw [if_pos ⟨trivial, trivial⟩, hjl]
      · obtain ⟨e, e1, e2, e3, e4⟩ := h.i1 j (by omega)
        refine ⟨e, by omega, ?_, e3, ?_⟩
        · rw [List.getElem?_append_left (by omega)]; exact e2
        · simp only [hset]
          rw [if_neg (hother e e1)]; exact e4
    · intro e he ht
      by_cases hec : e = c
      · subst hec
        refine ⟨s.edges.length, by simp, ?_⟩
        simp only [hset]
        rw [if_pos ⟨trivial, trivial⟩]
      · obtain ⟨j, e2, e4⟩ := h.i2 e (by omega) ht
        have hj : j < s.edges.length := by
          by_contra hh
          rw [List.getElem?_eq_none (by omega)] at e2; simp at e2
        refine ⟨j, ?_, ?_⟩
        · rw [List.getElem?_append_left hj]; exact e2
        · simp only [hset]
          rw [if_neg (hother e (by omega))]; exact e4
    · intro a b ha hb hh
      simp only [hset]
      rw [if_neg]
      · exact h.i3 a b ha hb (fun h2 => hh ⟨h2.1, h2.2.1, by omega⟩)
      · rintro ⟨rfl, rfl⟩
        exact hh ⟨hS, j3, by omega⟩
    · intro u hu; exact h.wdegO u hu
    · rw [Finset.sum_range_succ]
      have := h.wdeg
      simp only [List.map_append, List.map_cons, List.map_nil, List.sum_append, List.sum_cons, List.sum_nil, setEdge_wdeg]
      omega
    · have := h.num
      simp only [List.length_append, List.length_cons, List.length_nil, setEdge_numEdges]
      omega
    · intro t t' rev ed2 hmap
      have hold : s.map t = some (t', rev, ed2) → t' = t ∧ ∃ r, (s.edges ++ [gI.edge first c])[ed2]? = some r ∧
          r.target = t ∧ r.rev = rev := by
        intro hm
        obtain ⟨q1, r, q2, q3⟩ := h.m1 _ _ _ _ hm
        have hj : ed2 < s.edges.length := by
          by_contra hh
          rw [List.getElem?_eq_none (by omega)] at q2; simp at q2
        exact ⟨q1, r, by rw [List.getElem?_append_left hj]; exact q2, q3⟩
      rcases hmc : s.map (gI.edge first c).target with _ | x
      · simp only [hmc] at hmap
        by_cases ht : t = (gI.edge first c).target
        · rw [ht, update_self, Option.some.injEq, Prod.mk.injEq, Prod.mk.injEq] at hmap
          obtain ⟨rfl, rfl, rfl⟩ := hmap
          exact ⟨ht.symm, gI.edge first c, by simp, ht.symm, rfl⟩
        · rw [update_of_ne ht] at hmap
          exact hold hmap
      · simp only [hmc] at hmap
        exact hold hmap
    · intro t hmap r hr
      rcases hmc : s.map (gI.edge first c).target with _ | x
      · simp only [hmc] at hmap
        by_cases ht : t = (gI.edge first c).target
        · rw [ht, update_self] at hmap; simp at hmap
        · rw [update_of_ne ht] at hmap
          rcases List.mem_append.1 hr with h1 | h1
          · exact h.m2 t hmap r h1
          · rw [List.mem_singleton] at h1
            rw [h1]; exact fun hh => ht hh.symm
      · simp only [hmc] at hmap
        rcases List.mem_append.1 hr with h1 | h1
        · exact h.m2 t hmap r h1
        · rw [List.mem_singleton] at h1
          rw [h1]; intro hh
          rw [hh, hmap] at hmc; simp at hmc

theorem P1.loop {gI : MGraph} {S : List Nat} {first : Nat} (hI : Valid gI) (hf : first < gI.n)
    (hfS : first ∈ S) : ∀ c, c ≤ gI.len first →
    P1 gI S first c ((List.range c).foldl (cvsFirstStep S first) ⟨gI, [], fun _ => none⟩) := by
  intro c
  induction c with
  | zero => intro _; exact P1.init gI S first
  | succ c ih =>
    intro hc
    simp only [List.range_succ, List.foldl_append, List.foldl_cons, List.foldl_nil]
    exact (ih (by omega)).step hI hf hfS (by omega)

theorem list_sum_range (l : List Nat) : l.sum = ∑ i ∈ range l.length, l.getD i 0 := by
  induction l with
  | nil => rfl
  | cons a l ih =>
    rw [List.length_cons, Finset.sum_range_succ', List.sum_cons, ih, Nat.add_comm]
    simp

/-- State between the two loops. -/
theorem P1.finish {gI : MGraph} {S : List Nat} {first : Nat} {s : CVS} {others : List Nat} (hI : Valid gI)
    (hf : first < gI.n) (hfS : first ∈ S) (h : P1 gI S first (gI.len first) s)
    (ho : ∀ a, a ∈ others ↔ a ∈ S ∧ a ≠ first ∧ a < gI.n) (hnd : others.Nodup)
    (g1 : MGraph) (hg1 : g1 = { s.g with edge := update s.g.edge first (fun i => s.edges.getD i ⟨0, 0, 0, 0, 0⟩), len := update s.g.len first s.edges.length }) :
    CI g1 g1 S first (fun _ => False) (fun a b => a ∈ others ∧ b < gI.len a ∧ (gI.edge a b).target ∉ S)
      (0 + (others.map gI.len).sum) (Simple gI []) ∧ MapOK g1 first s.map ∧ g1.frame = gI.frame ∧
    (∀ a b, a ≠ first → a < gI.n → b < gI.len a → (g1.edge a b).target = (gI.edge a b).target ∧
      (g1.edge a b).weight = (gI.edge a b).weight) ∧
    (∀ a, a ≠ first → g1.len a = gI.len a) ∧ (∀ u, u ≠ first → g1.wdeg u = gI.wdeg u) ∧ (PosW gI [] → PosW g1 []) := by
  have hfr : g1.frame = gI.frame := by rw [hg1]; exact h.fr
  have hgn : g1.n = gI.n := frame_n hfr
  have hlf : g1.len first = s.edges.length := by rw [hg1]; exact update_self _ _ _
  have hlo : ∀ a, a ≠ first → g1.len a = gI.len a := by
    intro a ha; rw [hg1]; show update s.g.len first _ a = _; rw [update_of_ne ha, h.len]
  have hef : ∀ j, g1.edge first j = s.edges.getD j ⟨0, 0, 0, 0, 0⟩ := by
    intro j; rw [hg1]; show update s.g.edge first _ first j = _; rw [update_self]
  have heo : ∀ a b, a ≠ first → g1.edge a b = s.g.edge a b := by
    intro a b ha; rw [hg1]; show update s.g.edge first _ a b = _; rw [update_of_ne ha]
  have hef' : ∀ j e, s.edges[j]? = some e → j < s.edges.length ∧ g1.edge first j = e := by
    intro j e hj
    refine ⟨?_, ?_⟩
    · by_contra hh
      rw [List.getElem?_eq_none (by omega)] at hj; simp at hj
    · rw [hef, List.getD_eq_getElem?_getD, hj]; rfl
  -- every outside half edge
  have hout : ∀ a b, a ≠ first → a < gI.n → b < gI.len a →
      (a ∉ S ∧ (gI.edge a b).target = first ∧ ∃ j, j < s.edges.length ∧
        g1.edge first j = gI.edge first (gI.edge a b).rev ∧ g1.edge a b = { gI.edge a b with rev := j }) ∨
      (¬ (a ∉ S ∧ (gI.edge a b).target = first) ∧ g1.edge a b = gI.edge a b) := by
    intro a b ha han hb
    by_cases hc : a ∉ S ∧ (gI.edge a b).target = first
    · left
      refine ⟨hc.1, hc.2, ?_⟩
      obtain ⟨k1, ⟨k2, _, k2'⟩, k3, k4, k5, k6⟩ := hI.pv a b ⟨han, by simp, hb⟩
      rw [hc.2] at k2' k3 k4
      obtain ⟨j, q1, q2⟩ := h.i2 (gI.edge a b).rev k2' (by rw [k3]; exact hc.1)
      obtain ⟨r1, r2⟩ := hef' _ _ q1
      rw [k3, k4] at q2
      exact ⟨j, r1, r2, by rw [heo a b ha]; exact q2⟩
    · right
      refine ⟨hc, ?_⟩
      rw [heo a b ha]
      exact h.i3 a b han hb (fun hh => hc ⟨hh.1, hh.2.1⟩)
  have htw : ∀ a b, a ≠ first → a < gI.n → b < gI.len a → (g1.edge a b).target = (gI.edge a b).target ∧
      (g1.edge a b).weight = (gI.edge a b).weight := by
    intro a b ha han hb
    rcases hout a b ha han hb with ⟨_, _, j, _, _, hj⟩ | ⟨_, hj⟩ <;> rw [hj] <;> exact ⟨rfl, rfl⟩
  have hin : ∀ j, j < s.edges.length → ∃ e, e < gI.len first ∧ g1.edge first j = gI.edge first e ∧
      (gI.edge first e).target ∉ S ∧ g1.edge (gI.edge first e).target (gI.edge first e).rev =
        { gI.edge (gI.edge first e).target (gI.edge first e).rev with rev := j } := by
    intro j hj
    obtain ⟨e, e1, e2, e3, e4⟩ := h.i1 j hj
    refine ⟨e, e1, (hef' _ _ e2).2, e3, ?_⟩
    rw [heo _ _ (fun hh => e3 (by rw [hh]; exact hfS))]; exact e4
  refine ⟨⟨rfl, hfS, by rw [hgn]; exact hf, ?_, ?_, ?_, ?_, fun _ _ _ => rfl, fun _ _ _ _ _ => rfl, fun _ _ _ => rfl,
    fun _ _ => rfl, ?_, ?_, ?_, fun _ hh => hh.elim, fun _ _ => rfl, fun _ _ _ _ => rfl, ⟨le_refl _, fun _ _ => rfl⟩, ?_⟩, ?_, hfr, htw, hlo, ?_, ?_⟩
  · -- partner validity
    have hLC : ∀ a b, LC g1 S first (fun _ => False)
        (fun a b => a ∈ others ∧ b < gI.len a ∧ (gI.edge a b).target ∉ S) a b ↔
        (a ∉ S ∧ a < gI.n ∧ b < gI.len a) ∨ (a = first ∧ b < s.edges.length) ∨
          (a ∈ others ∧ b < gI.len a ∧ (gI.edge a b).target ∉ S) := by
      intro a b
      unfold LC
      rw [hgn, hlf]
      constructor
      · rintro (h1 | h1 | h1)
        · rw [hlo a (fun hh => h1.1 (by rw [hh]; exact hfS))] at h1
          exact Or.inl h1
        · exact Or.inr (Or.inl ⟨h1.1, h1.2.1⟩)
        · exact Or.inr (Or.inr h1)
      · rintro (h1 | h1 | h1)
        · left
          rw [hlo a (fun hh => h1.1 (by rw [hh]; exact hfS))]; exact h1
        · exact Or.inr (Or.inl ⟨h1.1, h1.2, not_false⟩)
        · exact Or.inr (Or.inr h1)
    intro a b hab
    rw [hLC] at hab
    rw [hLC]
    rcases hab with ⟨a1, a2, a3⟩ | ⟨a1, a2⟩ | ⟨a1, a2, a3⟩
    · have haf : a ≠ first := fun hh => a1 (by rw [hh]; exact hfS)
      obtain ⟨k1, ⟨k2, _, k2'⟩, k3, k4, k5, k6⟩ := hI.pv a b ⟨a2, by simp, a3⟩
      rcases hout a b haf a2 a3 with ⟨_, o2, j, o3, o4, o5⟩ | ⟨o1, o2⟩
      · rw [o5]
        simp only
        rw [o2] at k2 k2' k3 k4 k5 k6
        refine ⟨by rw [hlo a haf]; exact a3, Or.inr (Or.inl ⟨o2, o3⟩), ?_, ?_, ?_, by rw [o2]; exact k6⟩
        · rw [o2, o4]; exact k3
        · rw [o2, o4]; exact k4
        · rw [o2, o4]; exact k5
      · rw [o2]
        have htf : (gI.edge a b).target ≠ first := fun hh => o1 ⟨a1, hh⟩
        have hpar : g1.edge (gI.edge a b).target (gI.edge a b).rev = gI.edge (gI.edge a b).target (gI.edge a b).rev := by
          rcases hout _ _ htf k2 k2' with ⟨_, p2, _⟩ | ⟨_, p2⟩
          · rw [k3] at p2; exact absurd p2 haf
          · exact p2
        refine ⟨by rw [hlo a haf]; exact a3, ?_, by rw [hpar]; exact k3, by rw [hpar]; exact k4, by rw [hpar]; exact k5, k6⟩
        by_cases hS : (gI.edge a b).target ∈ S
        · right; right
          exact ⟨(ho _).2 ⟨hS, htf, k2⟩, k2', by rw [k3]; exact a1⟩
        · exact Or.inl ⟨hS, k2, k2'⟩
    · subst a1
      obtain ⟨e, e1, e2, e3, e4⟩ := hin b a2
      obtain ⟨k1, ⟨k2, _, k2'⟩, k3, k4, k5, k6⟩ := hI.pv a e ⟨hf, by simp, e1⟩
      rw [e2, e4]
      exact ⟨by rw [hlf]; exact a2, Or.inl ⟨e3, k2, k2'⟩, k3, rfl, k5, k6⟩
    · obtain ⟨b1, b2, b3⟩ := (ho a).1 a1
      obtain ⟨k1, ⟨k2, _, k2'⟩, k3, k4, k5, k6⟩ := hI.pv a b ⟨b3, by simp, a2⟩
      have e1 : g1.edge a b = gI.edge a b := by
        rcases hout a b b2 b3 a2 with ⟨o1, _⟩ | ⟨_, o1⟩
        · exact absurd b1 o1
        · exact o1
      have htf : (gI.edge a b).target ≠ first := fun hh => a3 (by rw [hh]; exact hfS)
      have hpar : g1.edge (gI.edge a b).target (gI.edge a b).rev = gI.edge (gI.edge a b).target (gI.edge a b).rev := by
        rcases hout _ _ htf k2 k2' with ⟨_, p2, _⟩ | ⟨_, p2⟩
        · rw [k3] at p2; exact absurd p2 b2
        · exact p2
      rw [e1]
      exact ⟨by rw [hlo a b2]; exact a2, Or.inl ⟨a3, k2, k2'⟩, by rw [hpar]; exact k3, by rw [hpar]; exact k4,
        by rw [hpar]; exact k5, k6⟩
  · intro a b hab
    obtain ⟨b1, b2, b3⟩ := (ho a).1 hab.1
    exact ⟨b1, b2⟩
  · intro a b hab
    obtain ⟨b1, b2, b3⟩ := (ho a).1 hab.1
    rw [(htw a b b2 b3 hab.2.1).1]
    exact ⟨hab.2.2, rfl, rfl⟩
  · intro b hb _
    rw [hlf] at hb
    obtain ⟨e, e1, e2, e3, e4⟩ := hin b hb
    rw [e2]; exact e3
  · -- weighted degree of `first`
    have hw := h.wdeg
    rw [hI.wdeg first hf (by simp)] at hw
    have : g1.wdeg first = s.g.wdeg first := by rw [hg1]
    rw [this]
    have e1 : rowSum g1 (fun _ w => w) first = (s.edges.map (·.weight)).sum := by
      rw [list_sum_range]
      unfold rowSum
      rw [hlf, List.length_map]
      refine Finset.sum_congr rfl fun i hi => ?_
      rw [hef]
      have hi' := mem_range.1 hi
      simp [List.getD_eq_getElem?_getD, hi']
    rw [e1]
    simp only [rowSum] at hw
    omega
  · -- edge count
    have hnum := h.num
    have : g1.numEdges = s.g.numEdges := by rw [hg1]
    rw [this, hgn, hlf]
    have e2 : ∑ u ∈ (range gI.n).filter (fun u => u ∉ S), g1.len u =
        ∑ u ∈ (range gI.n).filter (fun u => u ∉ S), gI.len u := by
      refine Finset.sum_congr rfl fun u hu => hlo u ?_
      rintro rfl; exact (mem_filter.1 hu).2 hfS
    have e3 : (others.map gI.len).sum = ∑ u ∈ ((range gI.n).filter (fun u => u ∈ S)).erase first, gI.len u := by
      have : ((range gI.n).filter (fun u => u ∈ S)).erase first = others.toFinset := by
        ext u
        rw [mem_erase, mem_filter, mem_range, List.mem_toFinset, ho]
        tauto
      rw [this, List.sum_toFinset _ hnd]
    have e4 : ∑ u ∈ (range gI.n).filter (fun u => u ∈ S), gI.len u =
        gI.len first + ∑ u ∈ ((range gI.n).filter (fun u => u ∈ S)).erase first, gI.len u :=
      (Finset.add_sum_erase _ _ (by rw [mem_filter, mem_range]; exact ⟨hf, hfS⟩)).symm
    have e5 : gI.numEdges = ∑ u ∈ (range gI.n).filter (fun u => u ∈ S), gI.len u +
        ∑ u ∈ (range gI.n).filter (fun u => u ∉ S), gI.len u := by
      rw [hI.num, Finset.sum_filter_add_sum_filter_not]
      simp
    rw [e2, e3]
    omega
  · intro hs b b' hb _ hb' _ heq
    rw [hlf] at hb hb'
    obtain ⟨e, e1, e2, e3, e4⟩ := hin b hb
    obtain ⟨e', e1', e2', e3', e4'⟩ := hin b' hb'
    rw [e2, e2'] at heq
    obtain ⟨k1, ⟨k2, _, k2'⟩, k3, k4, k5, k6⟩ := hI.pv first e ⟨hf, by simp, e1⟩
    have hc := hs first (gI.edge first e).target hf (by simp) k2 (by simp)
    unfold cnt rowSum at hc
    rw [← Finset.sum_filter, ← Finset.card_eq_sum_ones, Finset.card_le_one] at hc
    have hee : e = e' := hc e (by rw [mem_filter, mem_range]; exact ⟨e1, rfl⟩) e'
      (by rw [mem_filter, mem_range]; exact ⟨e1', heq.symm⟩)
    subst hee
    rw [e4] at e4'
    exact congrArg RevEdge.rev e4'
  · intro hw
    refine ⟨fun a b hab => ?_, fun b hb => hw first b (by rw [hgn]; exact hf) (by simp) hb⟩
    obtain ⟨_, b2, b3⟩ := (ho a).1 hab.1
    exact hw a b (by rw [hgn]; exact b3) (by simp) (by rw [hlo a b2]; exact hab.2.1)
  · -- map
    refine ⟨?_, ?_⟩
    · intro t t' rev ed2 hm
      obtain ⟨q1, r, q2, q3, q4⟩ := h.m1 _ _ _ _ hm
      obtain ⟨r1, r2⟩ := hef' _ _ q2
      rw [hlf, r2]
      exact ⟨q1, r1, q3, q4⟩
    · intro t hm b hb
      rw [hlf] at hb
      have : g1.edge first b ∈ s.edges := by
        rw [hef, List.getD_eq_getElem?_getD, List.getElem?_eq_getElem hb]
        exact List.getElem_mem hb
      exact h.m2 t hm _ this
  · intro u hu; rw [hg1]; exact h.wdegO u hu
  · intro hw u b hu _ hb
    by_cases huf : u = first
    · subst huf
      rw [hlf] at hb
      obtain ⟨e, e1, e2, _⟩ := hin b hb
      rw [e2]; exact hw u e hf (by simp) e1
    · rw [hlo u huf] at hb
      rw [hgn] at hu
      rw [(htw u b huf hu hb).2]
      exact hw u b hu (by simp) hb

theorem isContraction_refl {G : Graph} (h : G.WF) : IsContraction G G id := by
  refine ⟨fun u hu => hu, fun p hp => ⟨p, hp, rfl⟩, h, ?_⟩
  intro p q hp hq hpq
  symm
  refine (Finset.sum_eq_single p ?_ ?_).trans ?_
  · intro u _ hu
    exact Finset.sum_eq_zero fun v _ => if_neg (fun hh => hu hh.1)
  · intro hh; exact absurd (mem_range.2 hp) hh
  · refine (Finset.sum_eq_single q ?_ ?_).trans ?_
    · intro v _ hv; exact if_neg (fun hh => hv hh.2)
    · intro hh; exact absurd (mem_range.2 hq) hh
    · simp

theorem contractVertexSet_spec {g : MGraph} {S : List Nat} (hg : Valid g) (hS : S.Nodup) :
    (∃ φ, Contracted g (g.contractVertexSet S) S φ) ∧ (Simple g [] → Simple (g.contractVertexSet S) []) ∧
    (g.contractVertexSet S).n = g.n - ((S.filter (fun i => decide (i < g.n))).length - 1) := by
  unfold contractVertexSet
  simp only
  set vec := S.filter (fun i => decide (i < g.n)) with hvec
  have hmemv : ∀ a, a ∈ vec ↔ a ∈ S ∧ a < g.n := by intro a; rw [hvec, List.mem_filter, decide_eq_true_eq]
  have hndv : vec.Nodup := hS.filter _
  have htriv : vec.length ≤ 1 → (∃ φ, Contracted g g S φ) ∧ (Simple g [] → Simple g []) ∧ g.n = g.n - (vec.length - 1) := by
    intro hl
    refine ⟨⟨id, hg, isContraction_refl hg.wf, ?_, ?_, rfl, rfl, id, id, id⟩, fun h => h, by omega⟩
    · intro u v hu hv
      constructor
      · intro h; exact Or.inl h
      · rintro (h | ⟨h1, h2⟩)
        · exact h
        · have m1 := (hmemv u).2 ⟨h1, hu⟩
          have m2 := (hmemv v).2 ⟨h2, hv⟩
          rcases hv : vec with _ | ⟨x, _ | ⟨y, l⟩⟩
          · rw [hv] at m1; simp at m1
          · rw [hv] at m1 m2
            rw [List.mem_singleton] at m1 m2
            rw [m1, m2]
          · rw [hv] at hl; simp at hl
    · intro E hp; exact ⟨hp, fun v _ _ => rfl⟩
  rcases hmin : vec.min? with _ | first
  · exact htriv (by rw [List.min?_eq_none_iff] at hmin; rw [hmin]; simp)
  · simp only
    split
    · rename_i hl; exact htriv hl
    · rename_i hl
      obtain ⟨mf1, mf2⟩ := List.min?_eq_some_iff.1 hmin
      obtain ⟨hfS, hf⟩ := (hmemv first).1 mf1
      have ho : ∀ a, a ∈ vec.erase first ↔ a ∈ S ∧ a ≠ first ∧ a < g.n := by
        intro a
        rw [hndv.mem_erase_iff, hmemv]; tauto
      have hndo : (vec.erase first).Nodup := hndv.erase _
      obtain ⟨c1, c2, c3, c4, c5, c6, c8⟩ := (P1.loop hg hf hfS _ (le_refl _)).finish hg hf hfS ho hndo _ rfl
      set s1 := (List.range (g.len first)).foldl (cvsFirstStep S first) ⟨g, [], fun _ => none⟩ with hs1
      set g1 : MGraph := { s1.g with edge := update s1.g.edge first (fun i => s1.edges.getD i ⟨0, 0, 0, 0, 0⟩), len := update s1.g.len first s1.edges.length } with hg1
      have c7 := cvs_outer (gI := g) (g0 := g1) (S := S) (first := first) (sim := Simple g [])
        (fun a b h1 h2 h3 h4 => (c4 a b h2 h3 h4).1)
        (fun a h1 h2 => c5 a h2) (vec.erase first) hndo (fun a ha => by
          obtain ⟨a1, a2, a3⟩ := (ho a).1 ha; exact ⟨a1, a2, a3⟩) ⟨g1, s1.edges, s1.map⟩ 0 c1 c2
      simp only at c7
      set s2 := (vec.erase first).foldl (fun s n => (List.range (s.g.len n)).foldl (cvsStep S first n) s)
        (⟨g1, s1.edges, s1.map⟩ : CVS) with hs2
      set D := (vec.erase first).insertionSort (· ≥ ·) with hDdef
      have hDm : ∀ u, u ∈ D ↔ u < g.n ∧ u ∈ S ∧ u ≠ first := by
        intro u
        rw [hDdef, List.mem_insertionSort, ho]; tauto
      have hgn : g1.n = g.n := frame_n c3
      obtain ⟨f1, f2, f3, f4⟩ := c7.ce.finish (D := D) hg hgn
        (fun t ht htn f => by
          have htf : t ≠ first := fun hh => ht (by rw [hh]; exact hfS)
          unfold rowSum
          rw [c5 t htf]
          refine Finset.sum_congr rfl fun e he => ?_
          obtain ⟨w1, w2⟩ := c4 t e htf htn (mem_range.1 he)
          rw [w1, w2])
        (fun t ht htn => c6 t (fun hh => ht (by rw [hh]; exact hfS)))
        (fun u hu => by rw [hDm]; tauto)
      have hrem := Rem.start f1 f2 (c7.fr.trans c3) hfS hf hDm (fun hw => f4 (c8 hw))
      have hDs : D.Pairwise (fun a b => b < a) := by
        have h1 : D.Pairwise (· ≥ ·) := List.pairwise_insertionSort _ _
        have h2 : D.Nodup := (List.perm_insertionSort _ _).nodup_iff.2 hndo
        have h3 := List.pairwise_and_iff.2 ⟨h1, h2⟩
        refine h3.imp ?_
        intro a b ⟨h4, h5⟩
        omega
      obtain ⟨ψ, l1, l2, l3⟩ := Rem.loop D s2.g _ hrem hDs (fun d hd => by
        obtain ⟨d1, d2, d3⟩ := (hDm d).1 hd
        have := mf2 d ((hmemv d).2 ⟨d2, d1⟩)
        omega)
      refine ⟨⟨ψ, l1.contracted⟩, fun hs => l2 (f3 hs hs), ?_⟩
      rw [l3, frame_n (c7.fr.trans c3)]
      rw [hDdef, List.length_insertionSort, List.length_erase_of_mem mf1]

end VieCut.MGraph
