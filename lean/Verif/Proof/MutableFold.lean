import Verif.Proof.MutableFree

/-! Folding the edges of merged vertices into one surviving vertex. -/

namespace VieCut.MGraph
open Function Finset

/-- Everything except edges, degrees and the edge count. -/
def frame (g : MGraph) := (g.n, g.pos, g.posSize, g.cont, g.contSize, g.lastNode, g.partCount, g.origNodes, g.part, g.inCut)

theorem internalDelete_frame' (g : MGraph) (u e : Nat) : (g.internalDelete u e).frame = g.frame := by
  unfold internalDelete; split <;> rfl

theorem mergePair_frame (g : MGraph) (k e t r : Nat) (d : RevEdge) : (g.mergePair k e t r d).frame = g.frame := by
  unfold mergePair; rw [internalDelete_frame']; rfl

theorem redirect_frame (g : MGraph) (k : Nat) (d : RevEdge) : (g.redirect k d).frame = g.frame := rfl

theorem frame_n {g g' : MGraph} (h : g'.frame = g.frame) : g'.n = g.n := congrArg Prod.fst h

/-- Live half edges while the edges of `S` are folded into `keep`. -/
def LC (g : MGraph) (S : List Nat) (keep : Nat) (dead : Nat → Prop) (pend : Nat → Nat → Prop) (a b : Nat) : Prop :=
  (a ∉ S ∧ a < g.n ∧ b < g.len a) ∨ (a = keep ∧ b < g.len keep ∧ ¬ dead b) ∨ pend a b

/-- Loop invariant: `g0` is the state at the beginning, `pend` the half edges of members still to be folded,
`R` the number of half edges of members not yet accounted for, `dead` the slots of `keep` to be deleted later. -/
structure CI (g0 g : MGraph) (S : List Nat) (keep : Nat) (dead : Nat → Prop) (pend : Nat → Nat → Prop) (R : Nat)
    (sim : Prop) : Prop where
  fr : g.frame = g0.frame
  kS : keep ∈ S
  kn : keep < g.n
  pv : PV g (LC g S keep dead pend)
  pendS : ∀ a b, pend a b → a ∈ S ∧ a ≠ keep
  pendT : ∀ a b, pend a b → (g.edge a b).target ∉ S ∧ (g.edge a b).target = (g0.edge a b).target ∧
    (g.edge a b).weight = (g0.edge a b).weight
  keepT : ∀ b, b < g.len keep → ¬ dead b → (g.edge keep b).target ∉ S
  memlen : ∀ a, a ∈ S → a ≠ keep → g.len a = g0.len a
  rows : ∀ t, t ∉ S → t < g.n → ∀ f : Nat → Nat → Nat, (∀ a ∈ S, ∀ w, f a w = 0) → rowSum g f t = rowSum g0 f t
  rowS : ∀ t, t ∉ S → t < g.n → rowSum g (fun a w => if a ∈ S then w else 0) t =
    rowSum g0 (fun a w => if a ∈ S then w else 0) t
  wdegT : ∀ t, t ∉ S → g.wdeg t = g0.wdeg t
  wdegK : g.wdeg keep = rowSum g (fun _ w => w) keep
  num : g.numEdges = ∑ u ∈ (range g.n).filter (fun u => u ∉ S), g.len u + g.len keep + R
  uniq : sim → ∀ b b', b < g.len keep → ¬ dead b → b' < g.len keep → ¬ dead b' →
    (g.edge keep b).target = (g.edge keep b').target → b = b'
  deadlt : ∀ b, dead b → b < g.len keep
  deadE : ∀ b, dead b → (g.edge keep b).weight = (g0.edge keep b).weight
  memT : ∀ a b, a ∈ S → a ≠ keep → (g.edge a b).target = (g0.edge a b).target
  keepO : g0.len keep ≤ g.len keep ∧ ∀ b, b < g0.len keep → (g.edge keep b).target = (g0.edge keep b).target
  posP : PosW g0 [] → (∀ a b, pend a b → 0 < (g.edge a b).weight) ∧
    ∀ b, b < g.len keep → 0 < (g.edge keep b).weight

/-- No weight in row `u` is zero iff the count of zeros is zero. -/
theorem posRow_iff {g : MGraph} {u : Nat} : (∀ b, b < g.len u → 0 < (g.edge u b).weight) ↔
    rowSum g (fun _ w => if w = 0 then 1 else 0) u = 0 := by
  unfold rowSum
  rw [Finset.sum_eq_zero_iff]
  constructor
  · intro h b hb
    have := h b (mem_range.1 hb)
    dsimp only
    rw [if_neg (by omega)]
  · intro h b hb
    have := h b (mem_range.2 hb)
    by_contra h0
    dsimp only at this
    rw [if_pos (by omega)] at this
    omega

theorem CI.fold {g0 g S keep dead pend R sim} (h : CI g0 g S keep dead pend R sim) {n e : Nat} (hp : pend n e) :
    Fold g (LC g S keep dead pend) keep n e ∧ (g.edge n e).target < g.n := by
  obtain ⟨j1, j2, j3, j4, j5, j6⟩ := h.pv n e (Or.inr (Or.inr hp))
  obtain ⟨t1, t2, t3⟩ := h.pendT n e hp
  have hk : (g.edge n e).target ≠ keep := fun hh => t1 (by rw [hh]; exact h.kS)
  have hlt : (g.edge n e).target < g.n := by
    rcases j2 with h1 | h1 | h1
    · exact h1.2.1
    · exact absurd h1.1 hk
    · exact absurd (h.pendS _ _ h1).1 t1
  exact ⟨⟨h.pv, Or.inr (Or.inr hp), (h.pendS n e hp).2, hk, fun f hf => Or.inl ⟨t1, hlt, hf⟩⟩, hlt⟩

theorem sum_len_update {s : Finset Nat} {len : Nat → Nat} {t : Nat} (ht : t ∈ s) (hl : 0 < len t) :
    ∑ u ∈ s, len u = ∑ u ∈ s, update len t (len t - 1) u + 1 := by
  rw [← Finset.add_sum_erase s _ ht, ← Finset.add_sum_erase s (update len t (len t - 1)) ht, update_self]
  have : ∑ u ∈ s.erase t, update len t (len t - 1) u = ∑ u ∈ s.erase t, len u :=
    Finset.sum_congr rfl fun u hu => update_of_ne (Finset.mem_erase.1 hu).1 _ _
  rw [this]; omega

theorem CI.merge {g0 g S keep dead pend R sim} (h : CI g0 g S keep dead pend (R + 1) sim) {n e ed2 : Nat}
    (hp : pend n e) (hk : ed2 < g.len keep) (hkd : ¬ dead ed2)
    (hkt : (g.edge keep ed2).target = (g.edge n e).target) :
    CI g0 (g.mergePair keep ed2 (g.edge n e).target (g.edge keep ed2).rev (g.edge n e)) S keep dead
      (fun a b => pend a b ∧ ¬ (a = n ∧ b = e)) R sim := by
  obtain ⟨F, htn⟩ := h.fold hp
  have hL : LC g S keep dead pend keep ed2 := Or.inr (Or.inl ⟨rfl, hk, hkd⟩)
  obtain ⟨p1, p2, p3, p4, p5, _, _, p8, p9, p10, p11⟩ := mergePair_spec F hL hkt
  have hfr := mergePair_frame g keep ed2 (g.edge n e).target (g.edge keep ed2).rev (g.edge n e)
  obtain ⟨t1, t2, t3⟩ := h.pendT n e hp
  obtain ⟨nS, nk⟩ := h.pendS n e hp
  obtain ⟨j1, j2, j3, j4, j5, j6⟩ := h.pv n e F.live
  set t := (g.edge n e).target with ht
  set d := g.edge n e with hd
  set g' := g.mergePair keep ed2 t (g.edge keep ed2).rev d with hg'
  have hkt0 : keep ≠ t := fun hh => F.tk hh.symm
  have hlen0 : 0 < g.len t := lt_of_le_of_lt (Nat.zero_le _) (h.pv _ _ j2).1
  have hlk : g'.len keep = g.len keep := by rw [p2, update_of_ne hkt0]
  have hmem : ∀ a, a ∈ S → a ≠ t := fun a ha hh => t1 (by rw [← hh]; exact ha)
  refine ⟨hfr.trans h.fr, h.kS, by rw [p3]; exact h.kn, ?_, ?_, ?_, ?_, ?_, ?_, ?_, ?_, ?_, ?_, ?_, ?_, ?_, ?_, ?_, ?_⟩
  · -- partial validity
    have hiff : ∀ a b, LC g' S keep dead (fun a b => pend a b ∧ ¬ (a = n ∧ b = e)) a b ↔
        Lmerge (LC g S keep dead pend) n e t (g.len t - 1) a b := by
      intro a b
      unfold Lmerge
      by_cases hat : a = t
      · rw [if_pos hat]
        constructor
        · rintro (⟨_, _, h3⟩ | ⟨h1, _⟩ | ⟨h1, _⟩)
          · rw [p2, hat, update_self] at h3; exact h3
          · exact absurd (h1.symm.trans hat) hkt0
          · exact absurd hat (hmem a (h.pendS _ _ h1).1)
        · intro hb
          left
          refine ⟨by rw [hat]; exact t1, by rw [p3, hat]; exact htn, ?_⟩
          rw [p2, hat, update_self]; exact hb
      · rw [if_neg hat]
        unfold LC
        have hla : g'.len a = g.len a := by rw [p2, update_of_ne hat]
        rw [hla, p3, hlk]
        constructor
        · rintro (h1 | h1 | h1)
          · exact ⟨Or.inl h1, fun hh => h1.1 (by rw [hh.1]; exact nS)⟩
          · exact ⟨Or.inr (Or.inl h1), fun hh => nk (by rw [← hh.1]; exact h1.1)⟩
          · exact ⟨Or.inr (Or.inr h1.1), h1.2⟩
        · rintro ⟨h1 | h1 | h1, h2⟩
          · exact Or.inl h1
          · exact Or.inr (Or.inl h1)
          · exact Or.inr (Or.inr ⟨h1, h2⟩)
    intro a b hab
    have := p1 a b ((hiff a b).1 hab)
    rw [← hiff] at this
    exact this
  · intro a b hab; exact h.pendS a b hab.1
  · intro a b hab
    obtain ⟨a1, a2⟩ := h.pendS a b hab.1
    rw [p8 a b (hmem a a1), p9 a b (hmem a a1) (fun hh => a2 hh.1)]
    exact h.pendT a b hab.1
  · intro b hb hbd
    rw [p8 keep b hkt0]
    rw [hlk] at hb
    exact h.keepT b hb hbd
  · intro a ha hak
    rw [p2, update_of_ne (hmem a ha)]
    exact h.memlen a ha hak
  · intro u hu hun f hf
    rw [p3] at hun
    by_cases hut : u = t
    · have h1 := (p11 f).2.1
      rw [hf keep h.kS, hf keep h.kS, hf n nS] at h1
      rw [hut] at hu hun ⊢
      rw [← h.rows t hu hun f hf]
      simpa using h1
    · rw [(p11 f).2.2 u (fun hh => hu (by rw [hh]; exact h.kS)) hut]
      exact h.rows u hu hun f hf
  · intro u hu hun
    rw [p3] at hun
    by_cases hut : u = t
    · have h1 := (p11 (fun a w => if a ∈ S then w else 0)).2.1
      rw [hut] at hu hun ⊢
      rw [← h.rowS t hu hun]
      simp only [h.kS, nS, if_true] at h1
      omega
    · rw [(p11 _).2.2 u (fun hh => hu (by rw [hh]; exact h.kS)) hut]
      exact h.rowS u hu hun
  · intro u hu
    rw [p4, update_of_ne (fun hh => hu (by rw [hh]; exact h.kS))]
    exact h.wdegT u hu
  · rw [p4, update_self, h.wdegK]
    have := (p11 (fun _ w => w)).1
    omega
  · rw [p5, h.num, p3, hlk, p2]
    rw [sum_len_update (s := (range g.n).filter (fun u => u ∉ S)) (t := t)
      (by rw [mem_filter, mem_range]; exact ⟨htn, t1⟩) hlen0]
    omega
  · intro hs b b' hb hbd hb' hbd' heq
    rw [hlk] at hb hb'
    rw [p8 keep b hkt0, p8 keep b' hkt0] at heq
    exact h.uniq hs b b' hb hbd hb' hbd' heq
  · intro b hb
    rw [hlk]; exact h.deadlt b hb
  · intro b hb
    rw [← h.deadE b hb]
    exact p9 keep b hkt0 (fun hh => hkd (hh.2 ▸ hb))
  · intro a b ha hak
    rw [p8 a b (hmem a ha)]
    exact h.memT a b ha hak
  · refine ⟨by rw [hlk]; exact h.keepO.1, ?_⟩
    intro b hb
    rw [p8 keep b hkt0]
    exact h.keepO.2 b hb
  · intro hw
    obtain ⟨w1, w2⟩ := h.posP hw
    refine ⟨?_, ?_⟩
    · intro a b hab
      obtain ⟨a1, a2⟩ := h.pendS a b hab.1
      rw [p9 a b (hmem a a1) (fun hh => a2 hh.1)]
      exact w1 a b hab.1
    · have h1 := (p11 (fun _ w => if w = 0 then 1 else 0)).1
      have h2 := w2 ed2 hk
      rw [if_neg (by omega), if_neg (by omega), posRow_iff.1 w2] at h1
      exact posRow_iff.2 h1

theorem CI.redir {g0 g S keep dead pend R sim} (h : CI g0 g S keep dead pend (R + 1) sim) {n e : Nat}
    (hp : pend n e)
    (hno : sim → ∀ b, b < g.len keep → ¬ dead b → (g.edge keep b).target ≠ (g.edge n e).target) :
    CI g0 (g.redirect keep (g.edge n e)) S keep dead (fun a b => pend a b ∧ ¬ (a = n ∧ b = e)) R sim := by
  obtain ⟨F, htn⟩ := h.fold hp
  obtain ⟨p1, p2, p3, p4, p5, _, _, p8, p9, p10, p11⟩ := redirect_spec F
  have hfr := redirect_frame g keep (g.edge n e)
  obtain ⟨t1, t2, t3⟩ := h.pendT n e hp
  obtain ⟨nS, nk⟩ := h.pendS n e hp
  obtain ⟨j1, j2, j3, j4, j5, j6⟩ := h.pv n e F.live
  set t := (g.edge n e).target with ht
  set d := g.edge n e with hd
  set g' := g.redirect keep d with hg'
  have hkt0 : keep ≠ t := fun hh => F.tk hh.symm
  have hlk : g'.len keep = g.len keep + 1 := by rw [p2, update_self]
  have hmem : ∀ a, a ∈ S → a ≠ t := fun a ha hh => t1 (by rw [← hh]; exact ha)
  have hdl : ¬ dead (g.len keep) := fun hh => by have := h.deadlt _ hh; omega
  refine ⟨hfr.trans h.fr, h.kS, by rw [p3]; exact h.kn, ?_, ?_, ?_, ?_, ?_, ?_, ?_, ?_, ?_, ?_, ?_, ?_, ?_, ?_, ?_, ?_⟩
  · have hiff : ∀ a b, LC g' S keep dead (fun a b => pend a b ∧ ¬ (a = n ∧ b = e)) a b ↔
        Lredir (LC g S keep dead pend) keep n e (g.len keep) a b := by
      intro a b
      unfold Lredir LC
      rw [p3, hlk]
      constructor
      · rintro (⟨h1, h2, h3⟩ | ⟨h1, h2, h3⟩ | h1)
        · rw [p2, update_of_ne (fun hh => h1 (by rw [hh]; exact h.kS))] at h3
          exact Or.inl ⟨Or.inl ⟨h1, h2, h3⟩, fun hh => h1 (by rw [hh.1]; exact nS)⟩
        · by_cases hb : b = g.len keep
          · exact Or.inr ⟨h1, hb⟩
          · exact Or.inl ⟨Or.inr (Or.inl ⟨h1, by omega, h3⟩), fun hh => nk (by rw [← hh.1]; exact h1)⟩
        · exact Or.inl ⟨Or.inr (Or.inr h1.1), h1.2⟩
      · rintro (⟨h1 | h1 | h1, h2⟩ | ⟨h1, h2⟩)
        · left
          refine ⟨h1.1, h1.2.1, ?_⟩
          rw [p2, update_of_ne (fun hh => h1.1 (by rw [hh]; exact h.kS))]
          exact h1.2.2
        · exact Or.inr (Or.inl ⟨h1.1, by omega, h1.2.2⟩)
        · exact Or.inr (Or.inr ⟨h1, h2⟩)
        · exact Or.inr (Or.inl ⟨h1, by omega, by rw [h2]; exact hdl⟩)
    intro a b hab
    have := p1 a b ((hiff a b).1 hab)
    rw [← hiff] at this
    exact this
  · intro a b hab; exact h.pendS a b hab.1
  · intro a b hab
    obtain ⟨a1, a2⟩ := h.pendS a b hab.1
    rw [p10 a b (hmem a a1) (fun hh => a2 hh.1)]
    exact h.pendT a b hab.1
  · intro b hb hbd
    by_cases hbl : b = g.len keep
    · rw [hbl, p8]; exact t1
    · rw [p10 keep b hkt0 (fun hh => hbl hh.2)]
      exact h.keepT b (by omega) hbd
  · intro a ha hak
    rw [p2, update_of_ne hak]
    exact h.memlen a ha hak
  · intro u hu hun f hf
    rw [p3] at hun
    by_cases hut : u = t
    · have h1 := (p11 f).2.1
      rw [hf keep h.kS, hf n nS] at h1
      rw [hut] at hu hun ⊢
      rw [← h.rows t hu hun f hf]
      simpa using h1
    · rw [(p11 f).2.2 u (fun hh => hu (by rw [hh]; exact h.kS)) hut]
      exact h.rows u hu hun f hf
  · intro u hu hun
    rw [p3] at hun
    by_cases hut : u = t
    · have h1 := (p11 (fun a w => if a ∈ S then w else 0)).2.1
      rw [hut] at hu hun ⊢
      rw [← h.rowS t hu hun]
      simp only [h.kS, nS, if_true] at h1
      omega
    · rw [(p11 _).2.2 u (fun hh => hu (by rw [hh]; exact h.kS)) hut]
      exact h.rowS u hu hun
  · intro u hu
    rw [p4, update_of_ne (fun hh => hu (by rw [hh]; exact h.kS))]
    exact h.wdegT u hu
  · rw [p4, update_self, h.wdegK, (p11 (fun _ w => w)).1]
  · rw [p5, h.num, p3, hlk, p2]
    have : ∑ u ∈ (range g.n).filter (fun u => u ∉ S), update g.len keep (g.len keep + 1) u =
        ∑ u ∈ (range g.n).filter (fun u => u ∉ S), g.len u := by
      refine Finset.sum_congr rfl fun u hu => update_of_ne ?_ _ _
      rintro rfl
      exact (mem_filter.1 hu).2 h.kS
    rw [this]; omega
  · intro hs b b' hb hbd hb' hbd' heq
    rw [hlk] at hb hb'
    by_cases h1 : b = g.len keep <;> by_cases h2 : b' = g.len keep
    · omega
    · rw [h1, p8, p10 keep b' hkt0 (fun hh => h2 hh.2)] at heq
      exact absurd heq.symm (hno hs b' (by omega) hbd')
    · rw [h2, p8, p10 keep b hkt0 (fun hh => h1 hh.2)] at heq
      exact absurd heq (hno hs b (by omega) hbd)
    · rw [p10 keep b hkt0 (fun hh => h1 hh.2), p10 keep b' hkt0 (fun hh => h2 hh.2)] at heq
      exact h.uniq hs b b' (by omega) hbd (by omega) hbd' heq
  · intro b hb
    rw [hlk]; have := h.deadlt b hb; omega
  · intro b hb
    have := h.deadlt b hb
    rw [p10 keep b hkt0 (fun hh => by omega)]
    exact h.deadE b hb
  · intro a b ha hak
    rw [p10 a b (hmem a ha) (fun hh => hak hh.1)]
    exact h.memT a b ha hak
  · have := h.keepO.1
    refine ⟨by omega, ?_⟩
    intro b hb
    rw [p10 keep b hkt0 (fun hh => by omega)]
    exact h.keepO.2 b hb
  · intro hw
    obtain ⟨w1, w2⟩ := h.posP hw
    refine ⟨?_, ?_⟩
    · intro a b hab
      obtain ⟨a1, a2⟩ := h.pendS a b hab.1
      rw [p10 a b (hmem a a1) (fun hh => a2 hh.1)]
      exact w1 a b hab.1
    · have h1 := (p11 (fun _ w => if w = 0 then 1 else 0)).1
      have h2 : d.weight ≠ 0 := Nat.pos_iff_ne_zero.1 (w1 n e hp)
      rw [if_neg h2, posRow_iff.1 w2] at h1
      exact posRow_iff.2 h1

/-- An internal half edge of a member is dropped from the count. -/
theorem CI.skip {g0 g S keep dead pend R sim} (h : CI g0 g S keep dead pend (R + 1) sim) :
    CI g0 { g with numEdges := g.numEdges - 1 } S keep dead pend R sim := by
  refine ⟨h.fr, h.kS, h.kn, h.pv, h.pendS, h.pendT, h.keepT, h.memlen, h.rows, h.rowS, h.wdegT, h.wdegK, ?_,
    h.uniq, h.deadlt, h.deadE, h.memT, h.keepO, h.posP⟩
  change g.numEdges - 1 = _
  rw [h.num]; rfl

theorem CI.congr {g0 g S keep dead pend pend' R sim} (h : CI g0 g S keep dead pend R sim)
    (hp : ∀ a b, pend' a b ↔ pend a b) : CI g0 g S keep dead pend' R sim := by
  have : pend' = pend := by funext a b; exact propext (hp a b)
  rw [this]; exact h

end VieCut.MGraph
