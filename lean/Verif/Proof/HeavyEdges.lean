import Verif.Proof.HeavyLeaf

/-!
# `removeHeavyEdges` and `reInsertVertices`
-/

namespace VieCut
open Function Finset MGraph HeavyEdges

theorem CactusOf.congrE {E E' : Nat → Prop} {P : (Nat → Bool) → Prop} {C : MGraph} {c : Nat} (h : CactusOf E P C c)
    (hE : ∀ e, E e ↔ E' e) : CactusOf E' P C c := by
  have : E = E' := funext fun e => propext (hE e)
  rw [← this]; exact h

/-- An entry of `contract`: its elements lie on one side of every cut of value `c`. -/
def Group (E : Nat → Prop) (P : (Nat → Bool) → Prop) (p : Nat × List Nat) : Prop :=
  E p.1 ∧ ∀ o ∈ p.2, E o ∧ ∀ f, P f → f p.1 = f o

theorem addPair_groups {E : Nat → Prop} {P : (Nat → Bool) → Prop} {m : List (Nat × List Nat)} {a b : Nat} (hm : ∀ p ∈ m, Group E P p)
    (ha : E a) (hb : E b) (hab : ∀ f, P f → f a = f b) : ∀ p ∈ addPair m a b, Group E P p := by
  intro p hp
  unfold addPair at hp
  split at hp
  · obtain ⟨q, hq, rfl⟩ := List.mem_map.1 hp
    obtain ⟨h1, h2⟩ := hm q hq
    split
    · rename_i hqa
      refine ⟨h1, fun o ho => ?_⟩
      rcases List.mem_append.1 ho with ho | ho
      · exact h2 o ho
      · rw [List.mem_singleton] at ho
        subst ho
        exact ⟨hb, fun f hf => by rw [← hab f hf]; exact congrArg f hqa⟩
    · exact ⟨h1, h2⟩
  · rcases List.mem_append.1 hp with hp | hp
    · exact hm p hp
    · rw [List.mem_singleton] at hp
      subst hp
      refine ⟨ha, fun o ho => ?_⟩
      rw [List.mem_singleton] at ho
      subst ho
      exact ⟨hb, hab⟩

/-- Marked elements: each lies at a leaf, different ones at different leaves. -/
structure Marks (E : Nat → Prop) (g : MGraph) (c : Nat) (l : List Nat) : Prop where
  leaf : ∀ m ∈ l, E m ∧ ∃ t, LeafAt g (g.pos m) t c
  nodup : (l.map g.pos).Nodup

theorem heavyEdge_spec {E : Nat → Prop} {g : MGraph} {c : Nat} (h : Piece E g c) {n : Nat} (hn : n < g.n) {s : Scan} {e : Nat}
    (he : e < g.len n) (hs : ∀ p ∈ s.groups, Group E (Split g E c) p) :
    (∀ p ∈ (heavyEdge c g n s e).groups, Group E (Split g E c) p) ∧
    (heavyEdge c g n s e).marks = s.marks ++ if (g.edge n e).weight = c ∧ g.len n = 1 then [(g.cont n).headD 0] else [] := by
  obtain ⟨h1, _⟩ := (valid_iff.1 h.valid).1 n e hn he
  obtain ⟨a1, a2⟩ := h.head_elem hn
  obtain ⟨b1, b2⟩ := h.head_elem h1
  have hte : (g.cont (g.edge n e).target).isEmpty = false := by
    rw [List.isEmpty_eq_false_iff]; exact h.full _ h1
  unfold heavyEdge
  simp only [hte, Bool.false_eq_true, if_false]
  set v1 := (g.cont n).headD 0
  set v2 := (g.cont (g.edge n e).target).headD 0
  have hg1 : ∀ p ∈ (if (g.edge n e).weight > c then { s with groups := addPair s.groups (min v1 v2) (max v1 v2) } else s).groups,
      Group E (Split g E c) p := by
    split
    · rename_i hw
      have key : ∀ f, Split g E c f → f v1 = f v2 := by
        rintro f ⟨X, _, x2, x3⟩
        rw [← x3 v1 a1, ← x3 v2 b1, a2, b2]
        by_contra hne
        have := W_le_cv h.valid hn h1 hne
        rw [edge_weight_W h.simp0 h.valid hn he] at this
        have hx : g.cv X = c := x2
        omega
      refine addPair_groups hs ?_ ?_ ?_
      · rcases min_choice v1 v2 with hh | hh <;> rw [hh] <;> assumption
      · rcases max_choice v1 v2 with hh | hh <;> rw [hh] <;> assumption
      · intro f hf
        rcases le_total v1 v2 with hh | hh
        · rw [min_eq_left hh, max_eq_right hh]; exact key f hf
        · rw [min_eq_right hh, max_eq_left hh]; exact (key f hf).symm
    · exact hs
  have hm1 : (if (g.edge n e).weight > c then { s with groups := addPair s.groups (min v1 v2) (max v1 v2) } else s).marks = s.marks := by
    split <;> rfl
  by_cases hc : (g.edge n e).weight = c ∧ g.len n = 1
  · rw [if_pos hc, if_pos hc]
    exact ⟨hg1, congrArg (· ++ [v1]) hm1⟩
  · rw [if_neg hc, if_neg hc]
    exact ⟨hg1, by rw [hm1, List.append_nil]⟩

theorem heavyNode_spec {E : Nat → Prop} {g : MGraph} {c : Nat} (h : Piece E g c) {n : Nat} (hn : n < g.n) {s : Scan}
    (hs : ∀ p ∈ s.groups, Group E (Split g E c) p) :
    (∀ p ∈ (heavyNode c g s n).groups, Group E (Split g E c) p) ∧
    (heavyNode c g s n).marks = s.marks ++ if (g.edge n 0).weight = c ∧ g.len n = 1 then [(g.cont n).headD 0] else [] := by
  have hne : (g.cont n).isEmpty = false := by
    rw [List.isEmpty_eq_false_iff]; exact h.full _ hn
  unfold heavyNode
  rw [hne, if_neg (by simp)]
  by_cases hl : g.len n = 1
  · rw [hl]
    show _ ∧ (heavyEdge c g n s 0).marks = _
    have := heavyEdge_spec h hn (e := 0) (by omega) hs
    rw [hl] at this
    exact this
  · rw [if_neg (fun hh => hl hh.2), List.append_nil]
    have key : ∀ k, k ≤ g.len n → (∀ p ∈ ((List.range k).foldl (heavyEdge c g n) s).groups, Group E (Split g E c) p) ∧
        ((List.range k).foldl (heavyEdge c g n) s).marks = s.marks := by
      intro k
      induction k with
      | zero => intro _; exact ⟨hs, rfl⟩
      | succ k ih =>
        intro hk
        obtain ⟨i1, i2⟩ := ih (by omega)
        rw [List.range_succ, List.foldl_append]
        obtain ⟨j1, j2⟩ := heavyEdge_spec h hn (e := k) (by omega) i1
        refine ⟨j1, ?_⟩
        simp only [List.foldl_cons, List.foldl_nil]
        rw [j2, if_neg (fun hh => hl hh.2), List.append_nil, i2]
    exact key _ (le_refl _)

theorem scan_spec {E : Nat → Prop} {g : MGraph} {c : Nat} (h : Piece E g c) :
    (∀ p ∈ (scan c g).groups, Group E (Split g E c) p) ∧ Marks E g c (scan c g).marks := by
  have key : ∀ k, k ≤ g.n → (∀ p ∈ ((List.range k).foldl (heavyNode c g) ⟨[], []⟩).groups, Group E (Split g E c) p) ∧
      Marks E g c ((List.range k).foldl (heavyNode c g) ⟨[], []⟩).marks ∧
      ∀ m ∈ ((List.range k).foldl (heavyNode c g) ⟨[], []⟩).marks, g.pos m < k := by
    intro k
    induction k with
    | zero => intro _; exact ⟨by simp, ⟨by simp, by simp⟩, by simp⟩
    | succ k ih =>
      intro hk
      obtain ⟨i1, i2, i3⟩ := ih (by omega)
      rw [List.range_succ, List.foldl_append]
      simp only [List.foldl_cons, List.foldl_nil]
      obtain ⟨j1, j2⟩ := heavyNode_spec h (n := k) (by omega) i1
      obtain ⟨a1, a2⟩ := h.head_elem (p := k) (by omega)
      refine ⟨j1, ⟨?_, ?_⟩, ?_⟩
      · intro m hm
        rw [j2, List.mem_append] at hm
        rcases hm with hm | hm
        · exact i2.leaf m hm
        · split at hm
          · rename_i hc
            rw [List.mem_singleton] at hm
            subst hm
            refine ⟨a1, (g.edge k 0).target, ?_⟩
            rw [a2]
            exact leafAt_of_len h.valid (by omega) hc.2 hc.1
          · simp at hm
      · rw [j2, List.map_append, List.nodup_append]
        refine ⟨i2.nodup, by split <;> simp, ?_⟩
        intro p hp q hq
        obtain ⟨m, hm, rfl⟩ := List.mem_map.1 hp
        obtain ⟨m', hm', rfl⟩ := List.mem_map.1 hq
        split at hm'
        · rw [List.mem_singleton] at hm'
          subst hm'
          rw [a2]
          have := i3 m hm
          omega
        · simp at hm'
      · intro m hm
        rw [j2, List.mem_append] at hm
        rcases hm with hm | hm
        · have := i3 m hm; omega
        · split at hm
          · rw [List.mem_singleton] at hm
            subst hm
            rw [a2]; omega
          · simp at hm
  obtain ⟨k1, k2, _⟩ := key g.n (le_refl _)
  exact ⟨k1, k2⟩

/-- Leaves survive a contraction that respects the cuts of value `c`. -/
theorem LeafAt.contract {g g' : MGraph} {S : List Nat} {φ : Nat → Nat} {u t c : Nat} (hg : Valid g) (hl : LeafAt g u t c)
    (hC : Contracted g g' S φ)
    (hm : ∀ X, ProperCut g.n X → g.cv X = c → ∀ u v, u < g.n → v < g.n → u ∈ S → v ∈ S → X u = X v) :
    LeafAt g' (φ u) (φ t) c ∧ ∀ v, v < g.n → φ u = φ v → u = v := by
  obtain ⟨c1, c2, c3, c4⟩ := con_facts hC.con
  have hinj : ∀ v, v < g.n → φ u = φ v → u = v := by
    intro v hv huv
    rcases (hC.ker u v hl.lt hv).1 huv with h1 | ⟨h1, h2⟩
    · exact h1
    · by_contra hne
      have := hm _ (hl.proper true) (hl.single hg true) u v hl.lt hv h1 h2
      simp at this
      exact hne this.symm
  refine ⟨⟨c1 u hl.lt, c1 t hl.ltt, fun e => hl.ne (hinj t hl.ltt e.symm).symm, ?_⟩, hinj⟩
  intro q hq
  by_cases hqu : q = φ u
  · subst hqu
    rw [if_neg (fun e => hl.ne (hinj t hl.ltt e).symm)]
    have := hC.con.wf.wt_self (φ u)
    rw [toGraph_wt _ (c1 u hl.lt)] at this
    exact this
  · have := hC.con.wt (φ u) q (by rw [toGraph_n]; exact c1 u hl.lt) (by rw [toGraph_n]; exact hq) (fun e => hqu e.symm)
    rw [toGraph_wt _ (c1 u hl.lt), toGraph_n] at this
    rw [this, Finset.sum_eq_single u]
    · rw [Finset.sum_eq_single t]
      · rw [toGraph_wt g hl.lt, hl.row t hl.ltt, if_pos rfl]
        by_cases hqt : q = φ t
        · rw [if_pos hqt, if_pos ⟨rfl, hqt.symm⟩]
        · rw [if_neg hqt, if_neg (fun hh => hqt hh.2.symm)]
      · intro y hy hyt
        refine ite_zero_of fun _ => ?_
        rw [toGraph_wt g hl.lt, hl.row y (mem_range.1 hy), if_neg hyt]
      · intro hn; exact absurd (mem_range.2 hl.ltt) hn
    · intro x hx hxu
      refine Finset.sum_eq_zero fun y hy => ?_
      rw [if_neg]
      rintro ⟨h1, _⟩
      exact hxu (hinj x (mem_range.1 hx) h1.symm).symm
    · intro hn; exact absurd (mem_range.2 hl.lt) hn

theorem Marks.contract {E : Nat → Prop} {g g' : MGraph} {S : List Nat} {φ : Nat → Nat} {c : Nat} {l : List Nat} (h : Piece E g c)
    (hl : Marks E g c l) (hC : Contracted g g' S φ) (hpos : ∀ e, E e → g'.pos e = φ (g.pos e))
    (hm : ∀ X, ProperCut g.n X → g.cv X = c → ∀ u v, u < g.n → v < g.n → u ∈ S → v ∈ S → X u = X v) : Marks E g' c l := by
  refine ⟨fun m hmm => ?_, ?_⟩
  · obtain ⟨e1, t, e2⟩ := hl.leaf m hmm
    refine ⟨e1, φ t, ?_⟩
    rw [hpos m e1]
    exact (e2.contract h.valid hC hm).1
  · have : l.map g'.pos = (l.map g.pos).map φ := by
      rw [List.map_map]
      refine List.map_congr_left fun m hmm => ?_
      exact hpos m (hl.leaf m hmm).1
    rw [this]
    refine List.Nodup.map_on ?_ hl.nodup
    intro p hp q hq hpq
    obtain ⟨m, hmm, rfl⟩ := List.mem_map.1 hp
    obtain ⟨m', hmm', rfl⟩ := List.mem_map.1 hq
    obtain ⟨e1, t, e2⟩ := hl.leaf m hmm
    exact (e2.contract h.valid hC hm).2 _ (h.held.lt _ (hl.leaf m' hmm').1) hpq

/-- The loop over `contract`. -/
theorem contractGroups_spec {E : Nat → Prop} {c : Nat} {ord : Nat → List Nat → List Nat} (hord : IsOrder ord) {l : List Nat} :
    ∀ (groups : List (Nat × List Nat)) (g : MGraph), Piece E g c → (∀ p ∈ groups, Group E (Split g E c) p) → Marks E g c l →
    Piece E (groups.foldl (contractGroup ord) g) c ∧ (∀ f, Split (groups.foldl (contractGroup ord) g) E c f ↔ Split g E c f) ∧
    Marks E (groups.foldl (contractGroup ord) g) c l := by
  intro groups
  induction groups with
  | nil => intro g h _ hm; exact ⟨h, fun _ => Iff.rfl, hm⟩
  | cons p groups ih =>
    intro g h hgr hmk
    rw [List.foldl_cons]
    have step : Piece E (contractGroup ord g p) c ∧ (∀ f, Split (contractGroup ord g p) E c f ↔ Split g E c f) ∧
        Marks E (contractGroup ord g p) c l := by
      unfold contractGroup
      dsimp only
      split
      · set S := ((p.1 :: p.2).map g.pos).dedup with hS
        have hperm := hord p.1 S
        have hnd : (ord p.1 S).Nodup := hperm.nodup_iff.2 (List.nodup_dedup _)
        obtain ⟨⟨φ, hC⟩, hsim, _⟩ := contractVertexSet_spec h.valid hnd
        have hmem : ∀ u, u ∈ ord p.1 S → ∃ e, E e ∧ g.pos e = u ∧ ∀ f, Split g E c f → f p.1 = f e := by
          intro u hu
          rw [hperm.mem_iff, hS, List.mem_dedup] at hu
          obtain ⟨e, he, rfl⟩ := List.mem_map.1 hu
          obtain ⟨g1, g2⟩ := hgr p (by simp)
          rcases List.mem_cons.1 he with rfl | he
          · exact ⟨_, g1, rfl, fun _ _ => rfl⟩
          · exact ⟨e, (g2 e he).1, rfl, (g2 e he).2⟩
        have hconst : ∀ X, ProperCut g.n X → g.cv X = c → ∀ u v, u < g.n → v < g.n → u ∈ ord p.1 S → v ∈ ord p.1 S → X u = X v := by
          intro X hX hv u v _ _ hu' hv'
          obtain ⟨a, _, rfl, a2⟩ := hmem u hu'
          obtain ⟨b, _, rfl, b2⟩ := hmem v hv'
          have hs := Piece.split_of_cut (E := E) hX hv
          exact (a2 _ hs).symm.trans (b2 _ hs)
        obtain ⟨r1, r2, r3⟩ := h.contract hC (hsim h.simp0) hconst
        exact ⟨r1, r2, hmk.contract h hC r3 hconst⟩
      · exact ⟨h, fun _ => Iff.rfl, hmk⟩
    obtain ⟨s1, s2, s3⟩ := step
    obtain ⟨t1, t2, t3⟩ := ih _ s1 (fun q hq => by
      obtain ⟨g1, g2⟩ := hgr q (by simp [hq])
      exact ⟨g1, fun o ho => ⟨(g2 o ho).1, fun f hf => (g2 o ho).2 f ((s2 f).1 hf)⟩⟩) s3
    exact ⟨t1, fun f => (t2 f).trans (s2 f), t3⟩

/-- Two leaves are not neighbours unless they are everything. -/
theorem LeafAt.not_leaf {E : Nat → Prop} {g : MGraph} {c : Nat} (h : Piece E g c) (hc : 0 < c) (hn : 2 < g.n) {u t t' : Nat}
    (hl : LeafAt g u t c) (hl' : LeafAt g t t' c) : False := by
  have htt : t' = u := by
    by_contra hne
    have e1 := hl.row t hl.ltt
    have e2 := hl'.row u hl.lt
    rw [h.valid.W_symm hl.ltt (by simp) hl.lt (by simp), e1, if_pos rfl, if_neg (fun e => hne e.symm)] at e2
    omega
  subst htt
  obtain ⟨v, hv, hvu, hvt⟩ : ∃ v, v < g.n ∧ v ≠ t' ∧ v ≠ t := by
    by_contra hno
    push Not at hno
    have e0 := hno 0 (by omega)
    have e1 := hno 1 (by omega)
    have e2 := hno 2 (by omega)
    have := hl.ne
    omega
  have hcut := hl.cut h.valid (fun v => v == t || v == t')
  have e1 : update (fun v => v == t || v == t') t' ((fun v => v == t || v == t') t) = fun v => v == t || v == t' := by
    funext x
    by_cases hx : x = t'
    · subst hx; simp
    · rw [update_of_ne hx]
  have hcut' := hl.cut h.valid (fun v => v == t)
  have hp : ProperCut g.n (fun v => v == t || v == t') := ⟨⟨t, hl.ltt, by simp⟩, ⟨v, hv, by simp [hvu, hvt]⟩⟩
  have hge := h.least _ hp
  have hsing := hl'.single h.valid true
  have e2 : update (fun v => v == t) t' ((fun v => v == t) t) = fun v => v == t || v == t' := by
    funext x
    by_cases hx : x = t'
    · subst hx; simp
    · rw [update_of_ne hx]; simp [hx]
  rw [e2, if_neg (by simp [hl.ne.symm])] at hcut'
  have e3 : g.cv (fun v => v == t) = c := by
    rw [← hsing]
    refine cutValue_congr fun x _ => ?_
    by_cases hx : x = t <;> simp [hx]
  have hge' : c ≤ g.cv (fun v => v == t || v == t') := hge
  omega

/-- The other marked leaves survive the deletion of one. -/
theorem Marks.delete {E : Nat → Prop} {g : MGraph} {c m : Nat} {l : List Nat} (h : Piece E g c) (hc : 0 < c) (hn : 2 < g.n)
    (hl : Marks E g c (m :: l)) : Marks (fun e => E e ∧ g.pos e ≠ g.pos m) (g.deleteVertex (g.pos m)) c l := by
  obtain ⟨em, t, lm⟩ := hl.leaf m (by simp)
  obtain ⟨d1, d2, d3, _⟩ := deleteVertex_spec h.valid lm.lt
  obtain ⟨_, hpos, _⟩ := h.deleteLeaf hc lm
  have hnd := hl.nodup
  rw [List.map_cons, List.nodup_cons] at hnd
  have hne : ∀ m' ∈ l, g.pos m' ≠ g.pos m := fun m' hm' e => hnd.1 (List.mem_map.2 ⟨m', hm', e⟩)
  refine ⟨fun m' hm' => ?_, ?_⟩
  · obtain ⟨em', t', lm'⟩ := hl.leaf m' (by simp [hm'])
    have htu : t' ≠ g.pos m := by
      intro e
      subst e
      exact LeafAt.not_leaf h hc hn lm' lm
    refine ⟨⟨em', hne m' hm'⟩, relab (g.pos m) (g.n - 1) t', ?_⟩
    rw [hpos m' em' (hne m' hm')]
    refine ⟨by rw [d2]; exact relab_lt lm.lt lm'.lt (hne m' hm'), by rw [d2]; exact relab_lt lm.lt lm'.ltt htu, ?_, ?_⟩
    · intro e
      exact lm'.ne ((relab_inj' lm.lt lm'.ltt htu lm'.lt (hne m' hm')).1 e)
    · intro q hq
      rw [d2] at hq
      obtain ⟨v, hv, hvu, rfl⟩ := relab_surj lm.lt hq
      rw [(d3 _ _ lm'.lt hv (hne m' hm') hvu).1, lm'.row v hv]
      by_cases hvt : v = t'
      · rw [if_pos hvt, if_pos (by rw [hvt])]
      · rw [if_neg hvt, if_neg (fun e => hvt ((relab_inj' lm.lt hv hvu lm'.ltt htu).1 e))]
  · have : l.map (g.deleteVertex (g.pos m)).pos = (l.map g.pos).map (relab (g.pos m) (g.n - 1)) := by
      rw [List.map_map]
      refine List.map_congr_left fun m' hm' => ?_
      exact hpos m' (hl.leaf m' (by simp [hm'])).1 (hne m' hm')
    rw [this]
    refine List.Nodup.map_on ?_ hnd.2
    intro p hp q hq hpq
    obtain ⟨a, ha, rfl⟩ := List.mem_map.1 hp
    obtain ⟨b, hb, rfl⟩ := List.mem_map.1 hq
    exact (relab_inj' lm.lt (h.held.lt a (hl.leaf a (by simp [ha])).1) (hne a ha) (h.held.lt b (hl.leaf b (by simp [hb])).1) (hne b hb)).1 hpq

/-- The loop over the marked vertices, and its reversal. -/
theorem takeLeaves_spec {c : Nat} (hc : 0 < c) : ∀ (l : List Nat) (g : MGraph) (E : Nat → Prop) (recs : List (Nat × List Nat)),
    Piece E g c → Marks E g c l → ∃ E' recs', (l.foldl takeLeaf (g, recs)).2 = recs ++ recs' ∧
    (∀ e, E' e → E e) ∧ Piece E' (l.foldl takeLeaf (g, recs)).1 c ∧
    ∀ C, CactusOf E' (Split (l.foldl takeLeaf (g, recs)).1 E' c) C c → CactusOf E (Split g E c) (reInsertVertices c C recs') c := by
  intro l
  induction l with
  | nil =>
    intro g E recs h _
    exact ⟨E, [], by simp, fun _ h => h, h, fun C hC => hC⟩
  | cons m l ih =>
    intro g E recs h hm
    rw [List.foldl_cons]
    by_cases hn : 2 < g.n
    · obtain ⟨em, t, lm⟩ := hm.leaf m (by simp)
      obtain ⟨l1, l2, l3⟩ := lm.edge h.valid h.simp0 h.allPos hc
      have hne : (g.cont t).isEmpty = false := by rw [List.isEmpty_eq_false_iff]; exact h.full _ lm.ltt
      have hstep : takeLeaf (g, recs) m = (g.deleteVertex (g.pos m), recs ++ [((g.cont t).headD 0, g.cont (g.pos m))]) := by
        unfold takeLeaf
        dsimp only
        rw [if_pos hn, l2, hne, if_neg (by simp)]
      rw [hstep]
      obtain ⟨p1, _, p3⟩ := h.deleteLeaf hc lm
      obtain ⟨x1, x2⟩ := h.head_elem lm.ltt
      obtain ⟨E', recs', r1, r2, r3, r4⟩ := ih _ _ (recs ++ [((g.cont t).headD 0, g.cont (g.pos m))]) p1 (hm.delete h hc hn)
      refine ⟨E', ((g.cont t).headD 0, g.cont (g.pos m)) :: recs', by rw [r1]; simp, fun e he => (r2 e he).1, r3, fun C hC => ?_⟩
      have hre : reInsertVertices c C (((g.cont t).headD 0, g.cont (g.pos m)) :: recs') =
          putLeaf c (reInsertVertices c C recs') ((g.cont t).headD 0, g.cont (g.pos m)) := by
        unfold reInsertVertices
        rw [List.reverse_cons, List.foldl_append]
        rfl
      rw [hre]
      have hA := (r4 C hC).attach (E := E) hc (L := g.cont (g.pos m)) (h.held.nodup _ lm.lt) (x := (g.cont t).headD 0)
        ⟨x1, by rw [x2]; exact lm.ne⟩ (by
          intro e
          rw [h.held.mem _ e lm.lt]
          constructor
          · intro he
            by_cases hp : g.pos e = g.pos m
            · exact Or.inr ⟨he, hp⟩
            · exact Or.inl ⟨he, hp⟩
          · rintro (hh | hh) <;> exact hh.1) (by
          intro e he
          rw [h.held.mem _ e lm.lt] at he
          exact fun hh => hh.2 he.2)
      exact hA.congr fun f => (p3 _ x1 x2 f).symm
    · have hstep : takeLeaf (g, recs) m = (g, recs) := by
        unfold takeLeaf
        dsimp only
        rw [if_neg (by omega)]
      rw [hstep]
      refine ih g E recs h ⟨fun m' hm' => hm.leaf m' (by simp [hm']), ?_⟩
      have := hm.nodup
      rw [List.map_cons, List.nodup_cons] at this
      exact this.2

/-- `removeHeavyEdges` leaves a piece, and a cactus of what is left becomes a cactus of the whole by `reInsertVertices`. -/
theorem removeHeavyEdges_spec {E : Nat → Prop} {g : MGraph} {c : Nat} (h : Piece E g c) (hc : 0 < c)
    {ordM : List (Nat × List Nat) → List (Nat × List Nat)} (hM : ∀ l, (ordM l).Perm l) {ord : Nat → List Nat → List Nat} (hord : IsOrder ord) :
    ∃ E', (∀ e, E' e → E e) ∧ Piece E' (removeHeavyEdges c ordM ord g).1 c ∧
    ∀ C, CactusOf E' (Split (removeHeavyEdges c ordM ord g).1 E' c) C c →
      CactusOf E (Split g E c) (reInsertVertices c C (removeHeavyEdges c ordM ord g).2) c := by
  obtain ⟨s1, s2⟩ := scan_spec h
  obtain ⟨g1, g2, g3⟩ := contractGroups_spec hord (ordM (scan c g).groups) g h (fun p hp => s1 p ((hM _).mem_iff.1 hp)) s2
  obtain ⟨E', recs', r1, r2, r3, r4⟩ := takeLeaves_spec hc (scan c g).marks _ E [] g1 g3
  refine ⟨E', r2, r3, fun C hC => ?_⟩
  have he : (removeHeavyEdges c ordM ord g).2 = recs' := by
    unfold removeHeavyEdges
    dsimp only
    rw [r1, List.nil_append]
  rw [he]
  exact (r4 C hC).congr g2

end VieCut
