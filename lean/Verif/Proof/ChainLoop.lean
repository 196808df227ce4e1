import Verif.Proof.ChainBuild
import Verif.Proof.CycleLayout

/-!
# The last loop of `findSTCactus` builds a chain of cycles and edges
-/

namespace VieCut
open Finset MGraph Function

namespace STCactus

/-- The vertices of an element. -/
def elem (x : Nat × Nat) : List Nat := if x.2 = 0 then [x.1] else List.range' x.1 x.2

theorem flat_append (a b : List (Nat × Nat)) : flat (a ++ b) = flat a ++ flat b := List.flatMap_append

theorem flat_cons (x : Nat × Nat) (l : List (Nat × Nat)) : flat (x :: l) = elem x ++ flat l := List.flatMap_cons

theorem lay_append (a b : List (Nat × Nat)) : (lay (a ++ b)).A = (lay a).A ++ (lay b).A ∧ (lay (a ++ b)).B = (lay a).B ++ (lay b).B ∧
    (lay (a ++ b)).ord = (lay a).ord ++ (lay b).ord := by
  refine ⟨?_, ?_, ?_⟩ <;> simp [lay]

theorem lay_count (l : List (Nat × Nat)) : (lay l).A.length + (lay l).B.length = l.length := by
  induction l with
  | nil => rfl
  | cons x l ih =>
    have h := lay_append [x] l
    rw [show x :: l = [x] ++ l from rfl, h.1, h.2.1, List.length_append, List.length_append, List.length_append, ← ih]
    by_cases hx : x.2 = 0
    · have : ¬ 0 < x.2 := by omega
      simp [lay, hx]; omega
    · have : 0 < x.2 := by omega
      simp [lay, this, hx]; omega

theorem getD_append_length {α : Type} (a b : List α) (d : α) : (a ++ b).getD a.length d = b.getD 0 d := by
  rw [List.getD_append_right _ _ _ _ (le_refl _), Nat.sub_self]

theorem lay_ord (pre : List (Nat × Nat)) (x : Nat × Nat) (post : List (Nat × Nat)) : (lay (pre ++ x :: post)).ord.getD pre.length false = decide (0 < x.2) := by
  rw [(lay_append _ _).2.2]
  have : pre.length = (lay pre).ord.length := by simp [lay]
  rw [this, getD_append_length]; rfl

theorem lay_ord_next (pre : List (Nat × Nat)) (x y : Nat × Nat) (post : List (Nat × Nat)) :
    (lay (pre ++ x :: y :: post)).ord.getD (pre.length + 1) false = decide (0 < y.2) := by
  have := lay_ord (pre ++ [x]) y post
  simpa using this

theorem lay_A (pre : List (Nat × Nat)) {x : Nat × Nat} (hx : 0 < x.2) (post : List (Nat × Nat)) :
    (lay (pre ++ x :: post)).A.getD (lay pre).A.length [] = List.range' x.1 x.2 := by
  rw [(lay_append _ _).1, getD_append_length]
  simp [lay, hx]

theorem lay_B (pre : List (Nat × Nat)) {x : Nat × Nat} (hx : x.2 = 0) (post : List (Nat × Nat)) :
    (lay (pre ++ x :: post)).B.getD (lay pre).B.length 0 = x.1 := by
  rw [(lay_append _ _).2.1, getD_append_length]
  simp [lay, hx]

theorem lay_snoc_single (pre : List (Nat × Nat)) {x : Nat × Nat} (hx : x.2 = 0) :
    (lay (pre ++ [x])).A.length = (lay pre).A.length ∧ (lay (pre ++ [x])).B.length = (lay pre).B.length + 1 := by
  rw [(lay_append _ _).1, (lay_append _ _).2.1]
  simp [lay, hx]

theorem lay_snoc_cycle (pre : List (Nat × Nat)) {x : Nat × Nat} (hx : 0 < x.2) :
    (lay (pre ++ [x])).A.length = (lay pre).A.length + 1 ∧ (lay (pre ++ [x])).B.length = (lay pre).B.length := by
  rw [(lay_append _ _).1, (lay_append _ _).2.1]
  have : ¬ x.2 = 0 := by omega
  simp [lay, hx, this]

theorem EInv.congr {Q : Nat → Prop} {st : MGraph} {vis vis' : List Nat} (h : EInv Q st vis) (hv : ∀ x, x ∈ vis ↔ x ∈ vis') : EInv Q st vis' :=
  ⟨h.valid, h.simple, h.allw, fun v hv1 hv2 => h.fresh v hv1 fun hh => hv2 ((hv v).1 hh)⟩

/-- The weights of a cactus. -/
def isWeight (c w : Nat) : Prop := w = c ∨ 2 * w = c

/-- The graph is the chain `segs` that starts at vertex 0, and vertices without edges. -/
structure BGraph (k c : Nat) (st0 : MGraph) (segs : List (List Nat × Nat)) (st : MGraph) : Prop where
  e : EInv (isWeight c) st (0 :: verts segs)
  last : st.lastNode = st.n
  size : st.contSize = st.n
  nk : k ≤ st.n
  pos : st.pos = st0.pos
  cont : ∀ p, p < k → st.cont p = st0.cont p
  conte : ∀ p, k ≤ p → p < st.n → st.cont p = []
  cv : ∀ X, st.cv X = cost c X 0 segs
  nodup : (0 :: verts segs).Nodup
  lt : ∀ v ∈ 0 :: verts segs, v < st.n
  empt : ∀ p, k ≤ p → p < st.n → p ∈ verts segs

/-- The elements `pre` were processed, `x` is next. -/
structure LInv (k c : Nat) (st0 : MGraph) (pre : List (Nat × Nat)) (x : Nat × Nat) (segs : List (List Nat × Nat)) (s : Build) : Prop extends
    BGraph k c st0 segs s.st where
  a : s.a = (lay pre).A.length
  b : s.b = (lay pre).B.length
  vis : (0 :: verts segs).filter (fun v => decide (v < k)) = flat pre ++ if x.2 = 0 then [x.1] else []
  anchor : endv 0 segs = if x.2 = 0 then x.1 else s.previous
  cyc : ∀ y ∈ segs, y.1 ≠ [] → ∃ z ∈ pre, 0 < z.2 ∧ y.1 = List.range' z.1 z.2
  all : ∀ z ∈ pre, 0 < z.2 → ∃ y ∈ segs, y.1 = List.range' z.1 z.2

variable {k c : Nat} {st0 : MGraph}

theorem verts_snoc (segs : List (List Nat × Nat)) (A : List Nat) (q : Nat) : verts (segs ++ [(A, q)]) = verts segs ++ A ++ [q] := by
  rw [verts_append, verts_cons]; simp [verts]

theorem endv_snoc (p : Nat) (segs : List (List Nat × Nat)) (A : List Nat) (q : Nat) : endv p (segs ++ [(A, q)]) = q := by
  rw [endv_append]; rfl

theorem cost_snoc (X : Nat → Bool) (p : Nat) (segs : List (List Nat × Nat)) (A : List Nat) (q : Nat) :
    cost c X p (segs ++ [(A, q)]) = cost c X p segs + segCost c X (endv p segs) A q := by
  rw [cost_append]; rfl

theorem LInv.step {pre post : List (Nat × Nat)} {x y : Nat × Nat} {segs : List (List Nat × Nat)} {s : Build}
    (hflat : flat (pre ++ x :: y :: post) = List.range k) (hev : ∀ z ∈ pre ++ x :: y :: post, 0 < z.2 → 2 * (c / 2) = c)
    (h : LInv k c st0 pre x segs s) :
    ∃ segs', LInv k c st0 (pre ++ [x]) y segs' (buildStep c (lay (pre ++ x :: y :: post)) s pre.length) := by
  have hmemk : ∀ v, v ∈ flat (pre ++ x :: y :: post) → v < k := fun v hv => by rw [hflat] at hv; exact List.mem_range.1 hv
  have hndf : (flat (pre ++ x :: y :: post)).Nodup := by rw [hflat]; exact List.nodup_range
  rw [flat_append, flat_cons, flat_cons] at hmemk hndf
  have hav : endv 0 segs ∈ 0 :: verts segs := by
    rcases endv_mem 0 segs with e | e
    · rw [e]; exact List.mem_cons_self
    · exact List.mem_cons_of_mem _ e
  have hvis : ∀ v, v < k → v ∈ 0 :: verts segs → v ∈ flat pre ++ if x.2 = 0 then [x.1] else [] := by
    intro v hv hm
    rw [← h.vis]
    exact List.mem_filter.2 ⟨hm, by simpa using hv⟩
  by_cases hx : x.2 = 0
  · have ha := h.anchor
    rw [if_pos hx] at ha
    have hex : elem x = [x.1] := if_pos hx
    have hvf := h.vis
    rw [if_pos hx] at hvf
    obtain ⟨c1, c2⟩ := lay_snoc_single pre hx
    unfold buildStep
    rw [lay_ord, if_neg (by simp [hx]), lay_ord_next, h.b, lay_B pre hx]
    by_cases hy : y.2 = 0
    · -- an edge
      have hey : elem y = [y.1] := if_pos hy
      rw [if_neg (by simp [hy])]
      have hBy : (lay (pre ++ x :: y :: post)).B.getD ((lay pre).B.length + 1) 0 = y.1 := by
        have := lay_B (pre ++ [x]) hy post
        rw [c2] at this
        simpa using this
      rw [hBy]
      have hyk : y.1 < k := hmemk _ (by rw [hey]; simp)
      have hyv : y.1 ∉ 0 :: verts segs := by
        intro hm
        have h1 := hvis _ hyk hm
        rw [if_pos hx] at h1
        rw [hex, hey] at hndf
        have h2 := (List.nodup_append.1 hndf).2.2
        rcases List.mem_append.1 h1 with h3 | h3
        · exact h2 _ h3 _ (by simp) rfl
        · have h4 := (List.nodup_append.1 hndf).2.1
          rw [List.mem_singleton.1 h3] at h4
          simp at h4
      have hxv : x.1 ∈ 0 :: verts segs := ha ▸ hav
      have hnk := h.nk
      obtain ⟨q1, q2, q3, q4⟩ := h.e.edge (w := c) hxv (h.lt _ hxv) hyv (by omega) (Or.inl rfl)
      obtain ⟨f1, f2, f3, f4, f5, f6⟩ := fr_eq q3
      refine ⟨segs ++ [([], y.1)], ⟨q1.congr ?_, ?_, ?_, ?_, ?_, ?_, ?_, ?_, ?_, ?_, ?_⟩, ?_, ?_, ?_, ?_, ?_, ?_⟩
      · intro v; rw [verts_snoc]; simp only [List.mem_cons, List.mem_append, List.append_nil, List.not_mem_nil, or_false]; tauto
      · rw [f2, f1]; exact h.last
      · rw [f3, f1]; exact h.size
      · rw [f1]; exact h.nk
      · rw [f5]; exact h.pos
      · rw [f4]; exact h.cont
      · rw [f4, f1]; exact h.conte
      · intro X
        rw [q2, h.cv, cost_snoc, ha]
        unfold segCost
        simp
      · rw [verts_snoc, List.append_nil, ← List.cons_append, List.nodup_append]
        refine ⟨h.nodup, by simp, ?_⟩
        intro a ha' b hb' hab
        rw [List.mem_singleton.1 hb'] at hab
        exact hyv (hab ▸ ha')
      · intro v hv
        rw [f1]
        rw [verts_snoc, List.append_nil, ← List.cons_append, List.mem_append] at hv
        rcases hv with hv | hv
        · exact h.lt v hv
        · rw [List.mem_singleton.1 hv]; omega
      · intro p p1 p2
        rw [f1] at p2
        rw [verts_snoc]
        simp [h.empt p p1 p2]
      · rw [c1]; exact h.a
      · rw [c2]
      · rw [verts_snoc, List.append_nil, ← List.cons_append, List.filter_append, hvf, flat_append, flat_cons, hex, if_pos hy]
        simp [flat, hyk]
      · rw [endv_snoc, if_pos hy]
      · intro z hz hz1
        rcases List.mem_append.1 hz with hz | hz
        · obtain ⟨w, w1, w2⟩ := h.cyc z hz hz1
          exact ⟨w, List.mem_append_left _ w1, w2⟩
        · rw [List.mem_singleton.1 hz] at hz1
          exact absurd rfl hz1
      · intro z hz hz1
        rcases List.mem_append.1 hz with hz | hz
        · obtain ⟨w, w1, w2⟩ := h.all z hz hz1
          exact ⟨w, List.mem_append_left _ w1, w2⟩
        · rw [List.mem_singleton.1 hz] at hz1; omega
    · -- a cycle follows
      rw [if_pos (by simp; omega)]
      refine ⟨segs, { h.toBGraph with
        a := by rw [c1]; exact h.a
        b := by rw [c2]
        vis := ?_, anchor := ?_, cyc := ?_, all := ?_ }⟩
      · rw [hvf, if_neg hy, flat_append, flat_cons, hex]; simp [flat]
      · rw [if_neg hy]; exact ha
      · intro z hz hz1
        obtain ⟨w, w1, w2⟩ := h.cyc z hz hz1
        exact ⟨w, List.mem_append_left _ w1, w2⟩
      · intro z hz hz1
        rcases List.mem_append.1 hz with hz | hz
        · exact h.all z hz hz1
        · rw [List.mem_singleton.1 hz] at hz1; omega
  · have hx' : 0 < x.2 := by omega
    have ha := h.anchor
    rw [if_neg hx] at ha
    have hex : elem x = List.range' x.1 x.2 := if_neg hx
    have hvf := h.vis
    rw [if_neg hx, List.append_nil] at hvf
    obtain ⟨c1, c2⟩ := lay_snoc_cycle pre hx'
    have hnk := h.nk
    have hAk : ∀ v ∈ List.range' x.1 x.2, v < k := fun v hv => hmemk v (by rw [hex]; simp only [List.mem_append]; exact Or.inr (Or.inl hv))
    have hpre : ∀ v, v < k → v ∈ 0 :: verts segs → v ∈ flat pre := by
      intro v hv hm
      have := hvis v hv hm
      rwa [if_neg hx, List.append_nil] at this
    have hAv : ∀ v ∈ List.range' x.1 x.2, v ∉ 0 :: verts segs := by
      intro v hv hm
      have h1 := hpre v (hAk v hv) hm
      have h2 := (List.nodup_append.1 hndf).2.2
      refine h2 _ h1 v ?_ rfl
      rw [hex]; exact List.mem_append_left _ hv
    have hne : List.range' x.1 x.2 ≠ [] := by
      intro e; have := congrArg List.length e; simp at this; omega
    have hev' : 2 * (c / 2) = c := hev x (by simp) hx'
    obtain ⟨q, hq⟩ : ∃ q, q = if (lay (pre ++ x :: y :: post)).ord.getD (pre.length + 1) false then s.st.n
        else (lay (pre ++ x :: y :: post)).B.getD s.b 0 := ⟨_, rfl⟩
    have hBy : y.2 = 0 → (lay (pre ++ x :: y :: post)).B.getD s.b 0 = y.1 := by
      intro hy
      have := lay_B (pre ++ [x]) hy post
      rw [c2, ← h.b] at this
      simpa using this
    have hyk : y.2 = 0 → y.1 < k ∧ y.1 ∉ 0 :: verts segs ∧ y.1 ∉ List.range' x.1 x.2 := by
      intro hy
      have hey : elem y = [y.1] := if_pos hy
      have h1 : y.1 < k := hmemk _ (by rw [hey]; simp)
      refine ⟨h1, fun hm => ?_, fun hm => ?_⟩
      · have h2 := hpre _ h1 hm
        have h3 := (List.nodup_append.1 hndf).2.2
        exact h3 _ h2 y.1 (by rw [hey]; simp) rfl
      · have h3 := (List.nodup_append.1 hndf).2.1
        rw [hex] at h3
        exact (List.nodup_append.1 h3).2.2 _ hm y.1 (by rw [hey]; simp) rfl
    have hpv : s.previous ∈ 0 :: verts segs := ha ▸ hav
    obtain ⟨g, g', r1, r2, r3, r4, r5, r6⟩ := makeCycle_spec (c := c) (i := pre.length) (L := lay (pre ++ x :: y :: post)) (s := s) (q := q)
      (by rw [h.a]; exact lay_A pre hx' _) h.e h.last (Or.inr hev') hpv (h.lt _ hpv) hne List.nodup_range' (fun v hv => by have := hAk v hv; omega) hAv
      h.lt hq (fun ho => by
        rw [lay_ord_next] at ho hq
        have hy : y.2 = 0 := by simpa using ho
        rw [ho, hBy hy] at hq
        simp only [Bool.false_eq_true, if_false] at hq
        obtain ⟨y1, y2, y3⟩ := hyk hy
        rw [hq]
        exact ⟨by omega, y2, y3⟩)
    unfold buildStep
    rw [lay_ord, if_pos (by simp [hx']), r1]
    obtain ⟨f1, f2, f3, f4, f5, f6⟩ := fr_eq r4
    have hmem : ∀ v, v ∈ q :: ((List.range' x.1 x.2).reverse ++ 0 :: verts segs) ↔ v ∈ 0 :: verts (segs ++ [(List.range' x.1 x.2, q)]) := by
      intro v; rw [verts_snoc]; simp only [List.mem_cons, List.mem_append, List.mem_reverse, List.not_mem_nil, or_false]; tauto
    have hcyc : ∀ z ∈ segs ++ [(List.range' x.1 x.2, q)], z.1 ≠ [] → ∃ w ∈ pre ++ [x], 0 < w.2 ∧ z.1 = List.range' w.1 w.2 := by
      intro z hz hz1
      rcases List.mem_append.1 hz with hz | hz
      · obtain ⟨w, w1, w2⟩ := h.cyc z hz hz1
        exact ⟨w, List.mem_append_left _ w1, w2⟩
      · rw [List.mem_singleton.1 hz]
        exact ⟨x, by simp, hx', rfl⟩
    have hall : ∀ z ∈ pre ++ [x], 0 < z.2 → ∃ w ∈ segs ++ [(List.range' x.1 x.2, q)], w.1 = List.range' z.1 z.2 := by
      intro z hz hz1
      rcases List.mem_append.1 hz with hz | hz
      · obtain ⟨w, w1, w2⟩ := h.all z hz hz1
        exact ⟨w, List.mem_append_left _ w1, w2⟩
      · rw [List.mem_singleton.1 hz]
        exact ⟨(List.range' x.1 x.2, q), by simp, rfl⟩
    have hcv : ∀ X, g.cv X = cost c X 0 (segs ++ [(List.range' x.1 x.2, q)]) := by
      intro X
      rw [r3, h.cv, cost_snoc, ha]
    have hnodup : q ∉ 0 :: verts segs → q ∉ List.range' x.1 x.2 → (0 :: verts (segs ++ [(List.range' x.1 x.2, q)])).Nodup := by
      intro q1 q2
      rw [verts_snoc, ← List.cons_append, ← List.cons_append, List.nodup_append, List.nodup_append]
      refine ⟨⟨h.nodup, List.nodup_range', ?_⟩, by simp, ?_⟩
      · intro a ha' b hb' hab
        exact hAv b hb' (hab ▸ ha')
      · intro a ha' b hb' hab
        rw [List.mem_singleton.1 hb'] at hab
        rw [hab] at ha'
        rcases List.mem_append.1 ha' with h' | h'
        · exact q1 h'
        · exact q2 h'
    have hAf : (List.range' x.1 x.2).filter (fun v => decide (v < k)) = List.range' x.1 x.2 :=
      List.filter_eq_self.2 fun v hv => by simpa using hAk v hv
    refine ⟨segs ++ [(List.range' x.1 x.2, q)], ?_⟩
    by_cases hy : y.2 = 0
    · obtain ⟨y1, y2, y3⟩ := hyk hy
      rw [lay_ord_next, if_neg (by simp [hy])] at hq r5
      rw [hBy hy] at hq
      subst hq
      obtain ⟨e1, e2, e3, e4, e5, e6⟩ := fr_eq (r5.trans r4)
      refine ⟨⟨r2.congr hmem, ?_, ?_, ?_, ?_, ?_, ?_, hcv, hnodup y2 y3, ?_, ?_⟩, ?_, ?_, ?_, ?_, hcyc, hall⟩
      · rw [e2, e1]; exact h.last
      · rw [e3, e1]; exact h.size
      · rw [e1]; exact h.nk
      · rw [e5]; exact h.pos
      · rw [e4]; exact h.cont
      · rw [e4, e1]; exact h.conte
      · intro v hv
        rw [e1]
        rcases List.mem_cons.1 ((hmem v).2 hv) with h' | h'
        · rw [h']; omega
        · rcases List.mem_append.1 h' with h' | h'
          · have := hAk v (List.mem_reverse.1 h'); omega
          · exact h.lt v h'
      · intro p p1 p2
        rw [e1] at p2
        rw [verts_snoc]
        simp [h.empt p p1 p2]
      · rw [c1]; dsimp only; rw [h.a]
      · rw [c2]; exact h.b
      · rw [verts_snoc, ← List.cons_append, ← List.cons_append, List.filter_append, List.filter_append, hvf, hAf, flat_append, flat_cons, hex, if_pos hy]
        simp [flat, y1]
      · rw [endv_snoc, if_pos hy]
    · rw [lay_ord_next, if_pos (by simp; omega)] at hq r5
      subst hq
      obtain ⟨a1, a2, a3, a4, a5, a6, a7, -⟩ := newEmpty_all r6 (by rw [f2, f1]; exact h.last)
      obtain ⟨e1, e2, e3, e4, e5, e6⟩ := fr_eq r5
      have hgn : g.n = s.st.n + 1 := by rw [e1, a2, f1]
      refine ⟨⟨r2.congr hmem, ?_, ?_, ?_, ?_, ?_, ?_, hcv, hnodup ?_ ?_, ?_, ?_⟩, ?_, ?_, ?_, ?_, hcyc, hall⟩
      · rw [hgn, e2, a3, f1]
      · rw [hgn, e3, a4, f3, h.size]
      · show k ≤ g.n; omega
      · rw [e5, a6, f5]; exact h.pos
      · intro p hp
        rw [e4, a5, f4, f3, h.size, update_of_ne (by omega)]
        exact h.cont p hp
      · intro p p1 p2
        rw [e4, a5, f4, f3, h.size]
        by_cases hps : p = s.st.n
        · rw [hps, update_self]
        · rw [update_of_ne hps]
          exact h.conte p p1 (by have p3 : p < g.n := p2; omega)
      · intro hm; have := h.lt _ hm; omega
      · intro hm; have := hAk _ hm; omega
      · intro v hv
        rw [hgn]
        rcases List.mem_cons.1 ((hmem v).2 hv) with h' | h'
        · omega
        · rcases List.mem_append.1 h' with h' | h'
          · have := hAk v (List.mem_reverse.1 h'); omega
          · have := h.lt v h'; omega
      · intro p p1 p2
        rw [hgn] at p2
        rw [verts_snoc]
        by_cases hps : p = s.st.n
        · rw [hps]; simp
        · simp [h.empt p p1 (by omega)]
      · rw [c1]; dsimp only; rw [h.a]
      · rw [c2]; exact h.b
      · rw [verts_snoc, ← List.cons_append, ← List.cons_append, List.filter_append, List.filter_append, hvf, hAf, flat_append, flat_cons, hex, if_neg hy]
        have : ¬ s.st.n < k := by omega
        simp [flat, this]
      · rw [endv_snoc, if_neg hy]

/-- The whole loop. -/
theorem build_chain {els : List (Nat × Nat)} (hflat : flat (els ++ [(k - 1, 0)]) = List.range k) (hhead : ∃ l, els = (0, 0) :: l) (hk : 2 ≤ k)
    (hev : ∀ z ∈ els, 0 < z.2 → 2 * (c / 2) = c)
    (h0 : BGraph k c st0 [] st0) :
    ∃ segs, BGraph k c st0 segs (((List.range ((lay (els ++ [(k - 1, 0)])).A.length + (lay (els ++ [(k - 1, 0)])).B.length - 1)).foldl
        (buildStep c (lay (els ++ [(k - 1, 0)]))) { st := st0, previous := 0, a := 0, b := 0 }).st) ∧
      (0 :: verts segs).filter (fun v => decide (v < k)) = List.range k ∧ endv 0 segs = k - 1 ∧
      (∀ y ∈ segs, y.1 ≠ [] → ∃ z ∈ els, 0 < z.2 ∧ y.1 = List.range' z.1 z.2) ∧
      ∀ z ∈ els, 0 < z.2 → ∃ y ∈ segs, y.1 = List.range' z.1 z.2 := by
  have key : ∀ (j : Nat) (pre : List (Nat × Nat)) (x : Nat × Nat) (post : List (Nat × Nat)), pre.length = j → pre ++ x :: post = els ++ [(k - 1, 0)] →
      ∃ segs, LInv k c st0 pre x segs ((List.range pre.length).foldl (buildStep c (lay (els ++ [(k - 1, 0)]))) { st := st0, previous := 0, a := 0, b := 0 }) := by
    intro j
    induction j with
    | zero =>
      intro pre x post hj he
      have : pre = [] := List.length_eq_zero_iff.1 hj
      subst this
      obtain ⟨l, rfl⟩ := hhead
      have hx : x = (0, 0) := by simpa using congrArg List.head? he
      subst hx
      refine ⟨[], { h0 with a := rfl, b := rfl, vis := ?_, anchor := rfl, cyc := by simp, all := by simp }⟩
      have : 0 < k := by omega
      simp [verts, flat, this]
    | succ j ih =>
      intro pre x post hj he
      obtain ⟨pre', w, rfl⟩ : ∃ pre' w, pre = pre' ++ [w] := by
        rcases List.eq_nil_or_concat pre with h | ⟨a, b, h⟩
        · subst h; simp at hj
        · exact ⟨a, b, by rw [h, List.concat_eq_append]⟩
      have he' : pre' ++ w :: x :: post = els ++ [(k - 1, 0)] := by rw [← he]; simp
      obtain ⟨segs, hs⟩ := ih pre' w (x :: post) (by simpa using hj) he'
      have := hs.step (post := post) (y := x) (by rw [he']; exact hflat) (fun z hz hz2 => by
        rw [he'] at hz
        rcases List.mem_append.1 hz with h | h
        · exact hev z h hz2
        · rw [List.mem_singleton.1 h] at hz2; simp at hz2)
      obtain ⟨segs', hs'⟩ := this
      rw [he'] at hs'
      refine ⟨segs', ?_⟩
      rw [List.length_append, List.length_singleton, List.range_succ, List.foldl_append]
      exact hs'
  obtain ⟨segs, hs⟩ := key els.length els (k - 1, 0) [] rfl rfl
  refine ⟨segs, ?_, ?_, hs.anchor, hs.cyc, hs.all⟩
  · rw [lay_count, List.length_append, List.length_singleton, Nat.add_sub_cancel]
    exact hs.toBGraph
  · rw [hs.vis, ← hflat, flat_append, flat_cons]
    simp [flat, elem]

end STCactus
end VieCut
