import Verif.Proof.MutableQuot

/-! Removing the merged vertices, position maps, and the combined effect of a contraction. -/

namespace VieCut.MGraph
open Function Finset

theorem AV.of_eq {g g' : MGraph} {D : List Nat} (h : AV g D) (h1 : g'.n = g.n) (h2 : g'.len = g.len)
    (h3 : g'.edge = g.edge) (h4 : g'.wdeg = g.wdeg) (h5 : g'.numEdges = g.numEdges) : AV g' D := by
  cases g; cases g'; simp only at h1 h2 h3 h4 h5; subst h1 h2 h3 h4 h5
  exact ⟨h.pv, h.wdeg, h.num⟩

theorem W_of_eq {g g' : MGraph} (h2 : g'.len = g.len) (h3 : g'.edge = g.edge) : g'.W = g.W := by
  cases g; cases g'; simp only at h2 h3; subst h2 h3; rfl

theorem cnt_of_eq {g g' : MGraph} (h2 : g'.len = g.len) (h3 : g'.edge = g.edge) : g'.cnt = g.cnt := by
  cases g; cases g'; simp only at h2 h3; subst h2 h3; rfl

theorem Quot.of_eq {G : Graph} {g g' : MGraph} {D : List Nat} {φ} (h : Quot G g D φ) (h1 : g'.n = g.n)
    (h2 : g'.len = g.len) (h3 : g'.edge = g.edge) : Quot G g' D φ := by
  refine ⟨?_, ?_, ?_⟩
  · rw [h1]; exact h.lt
  · rw [h1]; exact h.surj
  · rw [h1, W_of_eq h2 h3]; exact h.wt

theorem Simple.of_eq {g g' : MGraph} {D : List Nat} (h : Simple g D) (h1 : g'.n = g.n) (h2 : g'.len = g.len)
    (h3 : g'.edge = g.edge) : Simple g' D := by
  unfold Simple
  rw [h1, cnt_of_eq h2 h3]; exact h

theorem PosIn.of_eq {E : Nat → Prop} {g g' : MGraph} (h : PosIn E g) (h1 : g'.n = g.n) (h2 : g'.pos = g.pos)
    (h3 : g'.cont = g.cont) : PosIn E g' := by
  cases g; cases g'; simp only at h1 h2 h3; subst h1 h2 h3
  exact ⟨h.back, h.mem, h.nodup⟩

/-- Moving the contents of `target` to `keep`. -/
theorem PosIn.absorb {E : Nat → Prop} {g : MGraph} (h : PosIn E g) {keep target : Nat} (hk : keep < g.n) (ht : target < g.n)
    (hne : keep ≠ target) : PosIn E (g.absorb keep target) ∧
      (∀ v, E v → (g.absorb keep target).pos v = if g.pos v = target then keep else g.pos v) := by
  have hp : ∀ v, E v → (g.absorb keep target).pos v = if g.pos v = target then keep else g.pos v := by
    intro v hv
    show (if v ∈ g.cont target then keep else g.pos v) = _
    by_cases hm : v ∈ g.cont target
    · rw [if_pos hm, if_pos (h.back target ht v hm).2]
    · rw [if_neg hm, if_neg]
      intro hh
      have := h.mem v hv (by rw [hh]; exact ht)
      rw [hh] at this; exact hm this
  have hc : ∀ p, (g.absorb keep target).cont p =
      if p = target then [] else if p = keep then g.cont keep ++ g.cont target else g.cont p := by
    intro p
    show update (update g.cont keep (g.cont keep ++ g.cont target)) target [] p = _
    by_cases h1 : p = target
    · subst h1; simp
    · rw [update_of_ne h1, if_neg h1]
      by_cases h2 : p = keep
      · subst h2; simp
      · rw [update_of_ne h2, if_neg h2]
  refine ⟨⟨?_, ?_, ?_⟩, hp⟩
  · intro p hpn v hv
    replace hpn : p < g.n := hpn
    rw [hc] at hv
    by_cases h1 : p = target
    · rw [if_pos h1] at hv; simp at hv
    · rw [if_neg h1] at hv
      by_cases h2 : p = keep
      · rw [if_pos h2, List.mem_append] at hv
        rcases hv with hv | hv
        · obtain ⟨b1, b2⟩ := h.back keep hk v hv
          exact ⟨b1, by rw [hp v b1, b2, if_neg hne, h2]⟩
        · obtain ⟨b1, b2⟩ := h.back target ht v hv
          exact ⟨b1, by rw [hp v b1, b2, if_pos rfl, h2]⟩
      · rw [if_neg h2] at hv
        obtain ⟨b1, b2⟩ := h.back p hpn v hv
        exact ⟨b1, by rw [hp v b1, b2, if_neg h1]⟩
  · intro v hv hvn
    replace hvn : (g.absorb keep target).pos v < g.n := hvn
    rw [hp v hv] at hvn ⊢
    rw [hc]
    by_cases h1 : g.pos v = target
    · rw [if_pos h1, if_neg hne, if_pos rfl, List.mem_append]
      right
      have := h.mem v hv (by rw [h1]; exact ht)
      rw [h1] at this; exact this
    · rw [if_neg h1] at hvn
      rw [if_neg h1, if_neg h1]
      have := h.mem v hv hvn
      by_cases h2 : g.pos v = keep
      · rw [if_pos h2, List.mem_append]; left; rw [h2] at this; exact this
      · rw [if_neg h2]; exact this
  · intro p hpn
    replace hpn : p < g.n := hpn
    rw [hc]
    by_cases h1 : p = target
    · rw [if_pos h1]; exact List.nodup_nil
    · rw [if_neg h1]
      by_cases h2 : p = keep
      · rw [if_pos h2]
        refine List.nodup_append.2 ⟨h.nodup keep hk, h.nodup target ht, ?_⟩
        intro a ha b hb hab
        subst hab
        exact hne ((h.back keep hk a ha).2.symm.trans (h.back target ht a hb).2)
      · rw [if_neg h2]; exact h.nodup p hpn

/-- `freeSlot` on the position maps, `slot` being empty. -/
theorem PosIn.freed {E : Nat → Prop} {g g' : MGraph} (h : PosIn E g) {slot : Nat} (hs : slot < g.n) (he : g.cont slot = [])
    (hn : g'.n = g.n - 1)
    (hpos : ∀ v, E v → g'.pos v = if slot < g.n - 1 ∧ v ∈ g.cont (g.n - 1) then slot else g.pos v)
    (hcont : ∀ p, p < g.n - 1 → g'.cont p = if p = slot then g.cont (g.n - 1) else g.cont p) :
    PosIn E g' ∧ ∀ v, E v → g.pos v < g.n → g'.pos v = relab slot (g.n - 1) (g.pos v) := by
  have hnot : ∀ v, E v → g.pos v ≠ slot := by
    intro v hv hh
    have := h.mem v hv (by rw [hh]; exact hs)
    rw [hh, he] at this; simp at this
  have hmem : ∀ v, E v → (v ∈ g.cont (g.n - 1) ↔ g.pos v = g.n - 1) := by
    intro v hv
    constructor
    · intro hh; exact (h.back (g.n - 1) (by omega) v hh).2
    · intro hh
      have := h.mem v hv (by rw [hh]; omega)
      rw [hh] at this; exact this
  refine ⟨⟨?_, ?_, ?_⟩, ?_⟩
  · intro p hp v hv
    rw [hn] at hp
    rw [hcont p hp] at hv
    by_cases h1 : p = slot
    · rw [if_pos h1] at hv
      obtain ⟨b1, b2⟩ := h.back (g.n - 1) (by omega) v hv
      exact ⟨b1, by rw [hpos v b1, if_pos ⟨by omega, hv⟩, h1]⟩
    · rw [if_neg h1] at hv
      obtain ⟨b1, b2⟩ := h.back p (by omega) v hv
      refine ⟨b1, ?_⟩
      rw [hpos v b1, if_neg, b2]
      rw [hmem v b1, b2]; omega
  · intro v hv hvn
    rw [hn] at hvn
    rw [hcont _ hvn]
    rw [hpos v hv] at hvn ⊢
    by_cases h1 : slot < g.n - 1 ∧ v ∈ g.cont (g.n - 1)
    · rw [if_pos h1, if_pos rfl]; exact h1.2
    · rw [if_neg h1] at hvn
      rw [if_neg h1, if_neg (hnot v hv)]
      exact h.mem v hv (by omega)
  · intro p hp
    rw [hn] at hp
    rw [hcont p hp]
    split
    · exact h.nodup _ (by omega)
    · exact h.nodup _ (by omega)
  · intro v hv hvn
    rw [hpos v hv]
    unfold relab
    by_cases h1 : g.pos v = g.n - 1
    · rw [if_pos h1]
      have : slot ≠ g.n - 1 := fun hh => hnot v hv (h1.trans hh.symm)
      rw [if_pos ⟨by omega, (hmem v hv).2 h1⟩]
    · rw [if_neg h1, if_neg]
      intro hh; exact h1 ((hmem v hv).1 hh.2)

theorem remap_frame (g : MGraph) (slot : Nat) : (g.remap slot).frame = g.frame := by
  unfold remap
  have : ∀ (l : List Nat) (g : MGraph), (l.foldl (remapStep slot) g).frame = g.frame := by
    intro l
    induction l with
    | nil => intro g; rfl
    | cons a l ih => intro g; rw [List.foldl_cons, ih]; rfl
  exact this _ _

/-- One removal: absorb, then free the slot. -/
theorem remove_one {g g' : MGraph} {D : List Nat} {slot keep : Nat} (ha : AV g (slot :: D)) (hs : slot < g.n)
    (hD : ∀ d ∈ D, d < slot) (hg' : g' = (g.absorb keep slot).freeSlot slot) :
    AV g' D ∧ Freed g g' slot D := by
  have ha' : AV (g.absorb keep slot) (slot :: D) := ha.of_eq rfl rfl rfl rfl rfl
  have hF : Freed (g.absorb keep slot) g' slot D := by
    subst hg'
    unfold freeSlot
    split
    · rename_i h1
      have ha2 : AV ((g.absorb keep slot).relocate slot ((g.absorb keep slot).n - 1)) (slot :: D) :=
        ha'.of_eq rfl rfl rfl rfl rfl
      have := freed_move ha2 h1 hD
      exact ⟨this.n, this.len, this.wdeg, this.edge, this.num⟩
    · rename_i h1
      exact freed_pop ha' (by have : (g.absorb keep slot).n = g.n := rfl; omega) (by
        have : (g.absorb keep slot).n = g.n := rfl; omega)
  exact ⟨hF.av ha' hs hD, ⟨hF.n, hF.len, hF.wdeg, hF.edge, hF.num⟩⟩

theorem remove_pos {E : Nat → Prop} {g g' : MGraph} {slot keep : Nat} (h : PosIn E g) (hk : keep < g.n) (hs : slot < g.n)
    (hne : keep ≠ slot) (hg' : g' = (g.absorb keep slot).freeSlot slot) :
    PosIn E g' ∧ ∀ v, E v → g.pos v < g.n →
      g'.pos v = relab slot (g.n - 1) (if g.pos v = slot then keep else g.pos v) := by
  obtain ⟨h1, h2⟩ := h.absorb hk hs hne
  have he : (g.absorb keep slot).cont slot = [] := by simp [MGraph.absorb]
  have hfr : g'.n = g.n - 1 ∧ g'.posSize = g.posSize ∧
      (∀ v, g'.pos v = if slot < g.n - 1 ∧ v ∈ (g.absorb keep slot).cont (g.n - 1) then slot else
        (g.absorb keep slot).pos v) ∧
      (∀ p, p < g.n - 1 → g'.cont p = if p = slot then (g.absorb keep slot).cont (g.n - 1) else
        (g.absorb keep slot).cont p) := by
    subst hg'
    unfold freeSlot
    have e0 : (g.absorb keep slot).n = g.n := rfl
    rw [e0]
    split
    · rename_i hlt
      have hf := remap_frame (((g.absorb keep slot).relocate slot (g.n - 1)).moveLast slot).popVertex slot
      unfold frame at hf
      simp only [Prod.mk.injEq] at hf
      obtain ⟨f1, f2, f3, f4, _⟩ := hf
      refine ⟨f1, f3, ?_, ?_⟩
      · intro v
        rw [f2]
        show (if v ∈ (g.absorb keep slot).cont (g.n - 1) then slot else (g.absorb keep slot).pos v) = _
        simp [hlt]
      · intro p _
        rw [f4]
        show update (g.absorb keep slot).cont slot ((g.absorb keep slot).cont slot ++ _) p = _
        rw [he, List.nil_append]
        by_cases hp : p = slot
        · subst hp; simp
        · rw [update_of_ne hp, if_neg hp]
    · rename_i hlt
      refine ⟨rfl, rfl, ?_, ?_⟩
      · intro v; rw [if_neg (fun hh => hlt hh.1)]; rfl
      · intro p hp; rw [if_neg (by omega)]; rfl
  obtain ⟨f1, f2, f3, f4⟩ := hfr
  obtain ⟨k1, k2⟩ := h1.freed hs he f1 (fun v _ => f3 v) f4
  refine ⟨k1, ?_⟩
  intro v hv hvn
  rw [k2 v hv (by rw [h2 v hv]; split <;> assumption), h2 v hv]
  rfl

/-- The effect of merging the vertices in `S` on the whole object; `φ` maps old to new vertex ids. -/
structure Contracted (g g' : MGraph) (S : List Nat) (φ : Nat → Nat) : Prop where
  valid : Valid g'
  con : IsContraction g.toGraph g'.toGraph φ
  ker : ∀ u v, u < g.n → v < g.n → (φ u = φ v ↔ u = v ∨ (u ∈ S ∧ v ∈ S))
  posE : ∀ E, PosIn E g → PosIn E g' ∧ ∀ v, E v → g.pos v < g.n → g'.pos v = φ (g.pos v)
  posSize : g'.posSize = g.posSize
  orig : g'.origNodes = g.origNodes
  posw : PosW g [] → PosW g' []
  last : g.lastNode = g.n → g'.lastNode = g'.n
  csize : g.n ≤ g.contSize → g'.n ≤ g'.contSize

theorem Contracted.pos {g g' : MGraph} {S : List Nat} {φ : Nat → Nat} (h : Contracted g g' S φ) (hp : PosInv g) :
    PosInv g' ∧ ∀ v, v < g.posSize → g.pos v < g.n → g'.pos v = φ (g.pos v) := by
  unfold PosInv
  rw [h.posSize]
  exact h.posE _ hp

/-- State during the removal loop. -/
structure Rem (gI g : MGraph) (D : List Nat) (S : List Nat) (keep : Nat) (φ : Nat → Nat) : Prop where
  av : AV g D
  quot : Quot gI.toGraph g D φ
  kn : keep < g.n
  kD : keep ∉ D
  dn : ∀ d ∈ D, d < g.n
  ker : ∀ u v, u < gI.n → v < gI.n → (φ u = φ v ↔ u = v ∨ (u ∈ S ∧ v ∈ S))
  pos : ∀ E, PosIn E gI → PosIn E g ∧ ∀ v, E v → gI.pos v < gI.n →
    (g.pos v ∈ D ∧ φ (gI.pos v) = keep) ∨ (g.pos v = φ (gI.pos v))
  posSize : g.posSize = gI.posSize
  orig : g.origNodes = gI.origNodes
  posw : PosW gI [] → PosW g D
  last : gI.lastNode = gI.n → g.lastNode = g.n
  csize : gI.n ≤ gI.contSize → g.n ≤ g.contSize

theorem freeSlot_misc (g : MGraph) (slot : Nat) : (g.freeSlot slot).origNodes = g.origNodes ∧
    (g.freeSlot slot).posSize = g.posSize ∧ (g.freeSlot slot).lastNode = g.lastNode ∧
    (g.freeSlot slot).partCount = g.partCount ∧ (g.freeSlot slot).contSize = g.contSize - 1 := by
  unfold freeSlot
  split
  · have hf := remap_frame ((g.relocate slot (g.n - 1)).moveLast slot).popVertex slot
    unfold frame at hf
    simp only [Prod.mk.injEq] at hf
    obtain ⟨f1, f2, f3, f4, f5, f6, f7, f8, _⟩ := hf
    exact ⟨f8, f3, f6, f7, f5⟩
  · exact ⟨rfl, rfl, rfl, rfl, rfl⟩

theorem Rem.step' {gI g g' : MGraph} {D S : List Nat} {slot keep : Nat} {φ : Nat → Nat}
    (h : Rem gI g (slot :: D) S keep φ) (hD : ∀ d ∈ D, d < slot) (k1 : AV g' D) (k2 : Freed g g' slot D)
    (hpos : ∀ E, PosIn E g → PosIn E g' ∧ ∀ v, E v → g.pos v < g.n →
      g'.pos v = relab slot (g.n - 1) (if g.pos v = slot then keep else g.pos v))
    (m1 : g'.origNodes = g.origNodes) (m2 : g'.posSize = g.posSize) (m3 : g'.lastNode = g.lastNode - 1)
    (m4 : g'.contSize = g.contSize - 1) :
    Rem gI g' D S (relab slot (g.n - 1) keep) (fun u => relab slot (g.n - 1) (φ u)) ∧
      (Simple g (slot :: D) → Simple g' D) ∧ g'.n = g.n - 1 := by
  have hs : slot < g.n := h.dn slot (by simp)
  obtain ⟨r1, r2, _⟩ := relab_spec hs hD h.kn h.kD
  refine ⟨⟨k1, h.quot.freed k2 h.av hs hD, by rw [k2.n]; exact r1, r2, ?_, ?_, ?_, ?_, ?_, ?_, ?_, ?_⟩, ?_, k2.n⟩
  · intro d hd; rw [k2.n]; have := hD d hd; omega
  · intro u v hu hv
    obtain ⟨a1, a2⟩ := h.quot.lt u (by rw [toGraph_n]; exact hu)
    obtain ⟨b1, b2⟩ := h.quot.lt v (by rw [toGraph_n]; exact hv)
    rw [relab_inj hs hD a1 a2 b1 b2]
    exact h.ker u v hu hv
  · intro E hp
    obtain ⟨p1, p2⟩ := h.pos E hp
    obtain ⟨q1, q2⟩ := hpos E p1
    refine ⟨q1, ?_⟩
    intro v hv hvn
    obtain ⟨a1, a2⟩ := h.quot.lt (gI.pos v) (by rw [toGraph_n]; exact hvn)
    rcases p2 v hv hvn with ⟨c1, c2⟩ | c1
    · have hlt := h.dn _ c1
      rw [q2 v hv hlt, c2]
      by_cases h1 : g.pos v = slot
      · right; rw [if_pos h1]
      · left
        rw [if_neg h1]
        have hmD : g.pos v ∈ D := by
          rcases List.mem_cons.1 c1 with h2 | h2
          · exact absurd h2 h1
          · exact h2
        have : g.pos v < slot := hD _ hmD
        have e1 : relab slot (g.n - 1) (g.pos v) = g.pos v := by unfold relab; rw [if_neg (by omega)]
        rw [e1]
        exact ⟨hmD, rfl⟩
    · right
      rw [q2 v hv (by rw [c1]; exact a1), if_neg, c1]
      intro hh
      exact a2 (by rw [← c1, hh]; simp)
  · rw [m2]; exact h.posSize
  · rw [m1]; exact h.orig
  · intro hw u b hu huD hb
    have hw' := h.posw hw
    rw [k2.n] at hu
    rw [k2.len u hu huD] at hb
    rw [k2.edge u hu huD b hb]
    refine hw' _ b ?_ ?_ hb
    · split <;> omega
    · split
      · intro hh
        rcases List.mem_cons.1 hh with h2 | h2
        · omega
        · have := hD _ h2; omega
      · intro hh
        rcases List.mem_cons.1 hh with h2 | h2
        · contradiction
        · exact huD h2
  · intro hl; rw [m3, h.last hl, k2.n]
  · intro hl; have := h.csize hl; rw [m4, k2.n]; omega
  · intro hsim; exact hsim.freed k2 h.av hs hD

theorem Rem.step {gI g g' : MGraph} {D S : List Nat} {slot keep : Nat} {φ : Nat → Nat}
    (h : Rem gI g (slot :: D) S keep φ) (hD : ∀ d ∈ D, d < slot) (hg' : g' = cvsRemove keep g slot) :
    Rem gI g' D S (relab slot (g.n - 1) keep) (fun u => relab slot (g.n - 1) (φ u)) ∧
      (Simple g (slot :: D) → Simple g' D) ∧ g'.n = g.n - 1 := by
  have hs : slot < g.n := h.dn slot (by simp)
  have hks : keep ≠ slot := fun hh => h.kD (by simp [hh])
  obtain ⟨k1, k2⟩ := remove_one h.av hs hD (g' := (g.absorb keep slot).freeSlot slot) rfl
  obtain ⟨m1, m2, m3, _, m5⟩ := freeSlot_misc (g.absorb keep slot) slot
  subst hg'
  refine h.step' hD (k1.of_eq rfl rfl rfl rfl rfl) ⟨k2.n, k2.len, k2.wdeg, k2.edge, k2.num⟩ (fun E p1 => ?_) m1 m2 ?_ m5
  · obtain ⟨q1, q2⟩ := remove_pos p1 h.kn hs hks (g' := (g.absorb keep slot).freeSlot slot) rfl
    exact ⟨q1.of_eq rfl rfl rfl, q2⟩
  · show ((g.absorb keep slot).freeSlot slot).lastNode - 1 = g.lastNode - 1
    rw [m3]; rfl

theorem Rem.contracted {gI g : MGraph} {S : List Nat} {keep : Nat} {φ : Nat → Nat} (h : Rem gI g [] S keep φ) :
    Contracted gI g S φ := by
  refine ⟨h.av, h.quot.isContraction h.av, h.ker, ?_, h.posSize, h.orig, h.posw, h.last, h.csize⟩
  intro E hp
  obtain ⟨p1, p2⟩ := h.pos E hp
  refine ⟨p1, ?_⟩
  intro v hv hvn
  rcases p2 v hv hvn with ⟨c1, _⟩ | c1
  · simp at c1
  · exact c1

/-- Entering the removal loop from the folding phase. -/
theorem Rem.start {gI g : MGraph} {D S : List Nat} {keep : Nat} (ha : AV g D)
    (hq : Quot gI.toGraph g D (collapse S keep)) (hfr : g.frame = gI.frame) (hkS : keep ∈ S) (hkn : keep < gI.n)
    (hD : ∀ u, u ∈ D ↔ u < gI.n ∧ u ∈ S ∧ u ≠ keep) (hw : PosW gI [] → PosW g D) : Rem gI g D S keep (collapse S keep) := by
  unfold frame at hfr
  simp only [Prod.mk.injEq] at hfr
  obtain ⟨f1, f2, f3, f4, f5, f6, f7, f8, _⟩ := hfr
  refine ⟨ha, hq, by rw [f1]; exact hkn, fun hh => ((hD keep).1 hh).2.2 rfl, ?_, ?_, ?_, f3, f8, hw, by rw [f6, f1]; exact id,
    by rw [f5, f1]; exact id⟩
  · intro d hd; rw [f1]; exact ((hD d).1 hd).1
  · intro u v _ _
    unfold collapse
    constructor
    · intro h
      split at h <;> split at h
      · rename_i h1 h2; exact Or.inr ⟨h1, h2⟩
      · rename_i h1 h2; exact absurd (by rw [← h]; exact hkS) h2
      · rename_i h1 h2; exact absurd (by rw [h]; exact hkS) h1
      · exact Or.inl h
    · rintro (rfl | ⟨h1, h2⟩)
      · rfl
      · rw [if_pos h1, if_pos h2]
  · intro E hp
    refine ⟨hp.of_eq f1 f2 f4, ?_⟩
    intro v hv hvn
    rw [f2]
    unfold collapse
    by_cases h1 : gI.pos v ∈ S
    · rw [if_pos h1]
      by_cases h2 : gI.pos v = keep
      · exact Or.inr h2
      · exact Or.inl ⟨(hD _).2 ⟨hvn, h1, h2⟩, rfl⟩
    · rw [if_neg h1]; exact Or.inr rfl

/-- The removal loop of `contractVertexSet`. -/
theorem Rem.loop {gI : MGraph} {S : List Nat} {keep : Nat} : ∀ (D : List Nat) (g : MGraph) (φ : Nat → Nat),
    Rem gI g D S keep φ → D.Pairwise (fun a b => b < a) → (∀ d ∈ D, keep < d) →
    ∃ ψ, Rem gI (D.foldl (cvsRemove keep) g) [] S keep ψ ∧
      (Simple g D → Simple (D.foldl (cvsRemove keep) g) []) ∧ (D.foldl (cvsRemove keep) g).n = g.n - D.length := by
  intro D
  induction D with
  | nil => intro g φ h _ _; exact ⟨φ, h, fun h => h, rfl⟩
  | cons slot D ih =>
    intro g φ h hp hk
    rw [List.pairwise_cons] at hp
    obtain ⟨k1, k2, k3⟩ := h.step hp.1 rfl
    have hkr : relab slot (g.n - 1) keep = keep := by
      have h1 := hk slot (by simp)
      have h2 := h.dn slot (by simp)
      unfold relab; rw [if_neg (by omega)]
    rw [hkr] at k1
    obtain ⟨ψ, i1, i2, i3⟩ := ih _ _ k1 hp.2 (fun d hd => hk d (by simp [hd]))
    refine ⟨ψ, i1, fun hs => i2 (k2 hs), ?_⟩
    rw [List.foldl_cons, i3]
    have : (cvsRemove keep g slot).n = g.n - 1 := k3
    rw [this, List.length_cons]; omega

end VieCut.MGraph
