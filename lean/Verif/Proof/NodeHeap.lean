import Verif.Model.NodeHeap
import Verif.Proof.BucketPQ

namespace VieCut

theorem swapFn_apply (f : Nat → Nat) (i j x : Nat) :
    swapFn f i j x = if x = j then f i else if x = i then f j else f x := by
  unfold swapFn
  by_cases h1 : x = j
  · subst h1; simp
  · by_cases h2 : x = i
    · subst h2; simp [h1]
    · simp [h1, h2]

namespace NH

/-- Cross references between heap, element array and index are consistent and hold the map `m`. -/
structure Cons (N : Nat) (s : NH) (m : Nat → Option Nat) : Prop where
  dom : ∀ v k, m v = some k → v < N
  es : s.es = s.hs
  H : ∀ i, i < s.hs → s.helem i < s.hs ∧ s.eidx (s.helem i) = i ∧
    m (s.enode (s.helem i)) = some (s.hkey i) ∧ s.index (s.enode (s.helem i)) = some (s.helem i)
  E : ∀ e, e < s.hs → s.eidx e < s.hs ∧ s.helem (s.eidx e) = e
  M : ∀ v k, m v = some k → ∃ e, e < s.hs ∧ s.index v = some e ∧ s.enode e = v
  A : ∀ v, m v = none → s.index v = none
  cnt : s.hs = mcard N m

/-- Heap order. -/
def Ord (s : NH) : Prop := ∀ i, 0 < i → i < s.hs → s.hkey i ≤ s.hkey ((i - 1) / 2)

theorem Cons.key {N : Nat} {s : NH} {m : Nat → Option Nat} (h : Cons N s m) {v k : Nat} (hv : m v = some k) :
    ∃ e, e < s.hs ∧ s.index v = some e ∧ s.enode e = v ∧ s.eidx e < s.hs ∧ s.helem (s.eidx e) = e ∧
      s.hkey (s.eidx e) = k := by
  obtain ⟨e, h1, h2, h3⟩ := h.M v k hv
  obtain ⟨h4, h5⟩ := h.E e h1
  obtain ⟨_, _, h6, _⟩ := h.H _ h4
  rw [h5, h3, hv] at h6
  exact ⟨e, h1, h2, h3, h4, h5, by simpa using h6.symm⟩

theorem Cons.enode_m {N : Nat} {s : NH} {m : Nat → Option Nat} (h : Cons N s m) {e : Nat} (he : e < s.hs) :
    m (s.enode e) = some (s.hkey (s.eidx e)) ∧ s.index (s.enode e) = some e := by
  obtain ⟨h4, h5⟩ := h.E e he
  obtain ⟨_, _, h6, h7⟩ := h.H _ h4
  rw [h5] at h6 h7
  exact ⟨h6, h7⟩

theorem Cons.swap {N : Nat} {s : NH} {m : Nat → Option Nat} (h : Cons N s m) {a b : Nat} (ha : a < s.hs)
    (hb : b < s.hs) (hab : a ≠ b) : Cons N (s.swapHeap a b) m := by
  have hne : s.helem a ≠ s.helem b := by
    intro hc
    have h1 := (h.H a ha).2.1
    rw [hc, (h.H b hb).2.1] at h1
    exact hab h1.symm
  have hhelem : ∀ i, (s.swapHeap a b).helem i = if i = b then s.helem a else if i = a then s.helem b else s.helem i :=
    fun i => swapFn_apply _ _ _ _
  have hhkey : ∀ i, (s.swapHeap a b).hkey i = if i = b then s.hkey a else if i = a then s.hkey b else s.hkey i :=
    fun i => swapFn_apply _ _ _ _
  have heidx : ∀ e, (s.swapHeap a b).eidx e
      = if e = s.helem a then b else if e = s.helem b then a else s.eidx e := by
    intro e
    simp only [swapHeap]
    rw [swapFn_apply, swapFn_apply]
    simp only [if_true, if_neg hab]
    simp only [Function.update_apply]
  have hhs : (s.swapHeap a b).hs = s.hs := rfl
  have hen : (s.swapHeap a b).enode = s.enode := rfl
  have hix : (s.swapHeap a b).index = s.index := rfl
  refine ⟨h.dom, h.es, ?_, ?_, h.M, h.A, h.cnt⟩
  · intro i hi
    rw [hhs] at hi
    rw [hhs, hen, hix, hhelem, hhkey]
    by_cases h1 : i = b
    · obtain ⟨x1, x2, x3, x4⟩ := h.H a ha
      simp only [if_pos h1]
      exact ⟨x1, by rw [heidx, if_pos rfl, h1], x3, x4⟩
    · by_cases h2 : i = a
      · obtain ⟨x1, x2, x3, x4⟩ := h.H b hb
        simp only [if_neg h1, if_pos h2]
        exact ⟨x1, by rw [heidx, if_neg hne.symm, if_pos rfl, h2], x3, x4⟩
      · obtain ⟨x1, x2, x3, x4⟩ := h.H i hi
        simp only [if_neg h1, if_neg h2]
        refine ⟨x1, ?_, x3, x4⟩
        rw [heidx, if_neg, if_neg, x2]
        · intro hc; rw [hc, (h.H b hb).2.1] at x2; exact h1 x2.symm
        · intro hc; rw [hc, (h.H a ha).2.1] at x2; exact h2 x2.symm
  · intro e he
    rw [hhs] at he ⊢
    rw [heidx]
    obtain ⟨y1, y2⟩ := h.E e he
    by_cases h1 : e = s.helem a
    · rw [if_pos h1]; exact ⟨hb, by rw [hhelem, if_pos rfl, h1]⟩
    · by_cases h2 : e = s.helem b
      · rw [if_neg h1, if_pos h2]; exact ⟨ha, by rw [hhelem, if_neg hab, if_pos rfl, h2]⟩
      · rw [if_neg h1, if_neg h2]
        refine ⟨y1, ?_⟩
        rw [hhelem, if_neg, if_neg, y2]
        · intro hc; rw [hc] at y2; exact h1 y2.symm
        · intro hc; rw [hc] at y2; exact h2 y2.symm

theorem siftUp_spec {N : Nat} {m : Nat → Option Nat} (f : Nat) : ∀ (s : NH) (pos : Nat), pos ≤ f → pos < s.hs →
    Cons N s m →
    (∀ i, 0 < i → i < s.hs → i ≠ pos → s.hkey i ≤ s.hkey ((i - 1) / 2)) →
    (∀ i, 0 < i → i < s.hs → (i - 1) / 2 = pos → 0 < pos → s.hkey i ≤ s.hkey ((pos - 1) / 2)) →
    Cons N (siftUp f s pos) m ∧ Ord (siftUp f s pos) ∧ (siftUp f s pos).hs = s.hs := by
  induction f with
  | zero =>
    intro s pos hp hlt hc h1 h2
    refine ⟨hc, ?_, rfl⟩
    intro i hi0 hi
    exact h1 i hi0 hi (by omega)
  | succ f ih =>
    intro s pos hp hlt hc h1 h2
    unfold siftUp
    by_cases h0 : pos > 0
    · rw [if_pos h0]
      simp only
      by_cases hlt' : s.hkey ((pos - 1) / 2) < s.hkey pos
      · rw [if_pos hlt']
        have hpl : (pos - 1) / 2 < pos := by omega
        have hk : ∀ i, (s.swapHeap pos ((pos - 1) / 2)).hkey i
            = if i = (pos - 1) / 2 then s.hkey pos else if i = pos then s.hkey ((pos - 1) / 2) else s.hkey i :=
          fun i => swapFn_apply _ _ _ _
        have hhs : (s.swapHeap pos ((pos - 1) / 2)).hs = s.hs := rfl
        have := ih (s.swapHeap pos ((pos - 1) / 2)) ((pos - 1) / 2) (by omega) (by rw [hhs]; omega)
          (hc.swap hlt (by omega) (by omega))
          (by
            intro i hi0 hi hne
            rw [hhs] at hi
            rw [hk, hk, if_neg hne]
            by_cases hip : i = pos
            · rw [if_pos hip, hip, if_pos rfl]; omega
            · rw [if_neg hip]
              by_cases hpar : (i - 1) / 2 = (pos - 1) / 2
              · rw [if_pos hpar]
                have := h1 i hi0 hi hip
                rw [hpar] at this
                omega
              · rw [if_neg hpar]
                by_cases hpar2 : (i - 1) / 2 = pos
                · rw [if_pos hpar2]; exact h2 i hi0 hi hpar2 h0
                · rw [if_neg hpar2]; exact h1 i hi0 hi hip)
          (by
            intro i hi0 hi hpar hpos
            rw [hhs] at hi
            rw [hk, hk]
            have e1 : ((pos - 1) / 2 - 1) / 2 ≠ (pos - 1) / 2 := by omega
            have e2 : ((pos - 1) / 2 - 1) / 2 ≠ pos := by omega
            have e3 : i ≠ (pos - 1) / 2 := by omega
            rw [if_neg e1, if_neg e2, if_neg e3]
            have hpp := h1 ((pos - 1) / 2) hpos (by omega) (by omega)
            by_cases hip : i = pos
            · rw [if_pos hip]; exact hpp
            · rw [if_neg hip]
              have := h1 i hi0 hi hip
              rw [hpar] at this
              omega)
        rw [hhs] at this
        exact this
      · rw [if_neg hlt']
        refine ⟨hc, ?_, rfl⟩
        intro i hi0 hi
        by_cases hip : i = pos
        · rw [hip]; omega
        · exact h1 i hi0 hi hip
    · rw [if_neg h0]
      refine ⟨hc, ?_, rfl⟩
      intro i hi0 hi
      exact h1 i hi0 hi (by omega)

theorem siftDown_spec {N : Nat} {m : Nat → Option Nat} (f : Nat) : ∀ (s : NH) (pos : Nat), s.hs ≤ pos + f →
    pos < s.hs → Cons N s m →
    (∀ i, 0 < i → i < s.hs → (i - 1) / 2 ≠ pos → s.hkey i ≤ s.hkey ((i - 1) / 2)) →
    (∀ i, 0 < i → i < s.hs → (i - 1) / 2 = pos → 0 < pos → s.hkey i ≤ s.hkey ((pos - 1) / 2)) →
    Cons N (siftDown f s pos) m ∧ Ord (siftDown f s pos) ∧ (siftDown f s pos).hs = s.hs := by
  induction f with
  | zero => intro s pos hp hlt; omega
  | succ f ih =>
    intro s pos hp hlt hc h1 h2
    -- the common step: swap with child `sp` that is at least as large as `pos` and its sibling
    have step : ∀ sp, (sp - 1) / 2 = pos → 0 < sp → sp < s.hs → s.hkey pos ≤ s.hkey sp →
        (∀ i, 0 < i → i < s.hs → (i - 1) / 2 = pos → s.hkey i ≤ s.hkey sp) →
        Cons N (siftDown f (s.swapHeap pos sp) sp) m ∧ Ord (siftDown f (s.swapHeap pos sp) sp) ∧
          (siftDown f (s.swapHeap pos sp) sp).hs = s.hs := by
      intro sp hpar hsp0 hsp hge hsib
      have hhs : (s.swapHeap pos sp).hs = s.hs := rfl
      have hk : ∀ i, (s.swapHeap pos sp).hkey i
          = if i = sp then s.hkey pos else if i = pos then s.hkey sp else s.hkey i :=
        fun i => swapFn_apply _ _ _ _
      have := ih (s.swapHeap pos sp) sp (by rw [hhs]; omega) (by rw [hhs]; exact hsp)
        (hc.swap hlt hsp (by omega))
        (by
          intro i hi0 hi hne
          rw [hhs] at hi
          rw [hk, hk, if_neg hne]
          by_cases hisp : i = sp
          · rw [if_pos hisp, hisp, hpar, if_pos rfl]; exact hge
          · rw [if_neg hisp]
            by_cases hip : i = pos
            · rw [if_pos hip, if_neg (by omega), hip]
              exact h2 sp hsp0 hsp hpar (by omega)
            · rw [if_neg hip]
              by_cases hipar : (i - 1) / 2 = pos
              · rw [if_pos hipar]; exact hsib i hi0 hi hipar
              · rw [if_neg hipar]; exact h1 i hi0 hi hipar)
        (by
          intro i hi0 hi hipar _
          rw [hhs] at hi
          rw [hk, hk, hpar, if_neg (by omega), if_neg (by omega), if_neg (by omega), if_pos rfl]
          have := h1 i hi0 hi (by omega)
          rw [hipar] at this; exact this)
      rw [hhs] at this
      exact this
    have done : (∀ i, 0 < i → i < s.hs → (i - 1) / 2 = pos → s.hkey i ≤ s.hkey pos) → Ord s := by
      intro h i hi0 hi
      by_cases hip : (i - 1) / 2 = pos
      · rw [hip]; exact h i hi0 hi hip
      · exact h1 i hi0 hi hip
    unfold siftDown
    simp only
    by_cases hr : 2 * pos + 2 < s.hs
    · rw [if_pos hr]
      by_cases hd : s.hkey (2 * pos + 1) < s.hkey pos ∧ s.hkey (2 * pos + 2) < s.hkey pos
      · rw [if_pos hd]
        refine ⟨hc, done ?_, rfl⟩
        intro i hi0 hi hip
        have : i = 2 * pos + 1 ∨ i = 2 * pos + 2 := by omega
        rcases this with rfl | rfl <;> omega
      · rw [if_neg hd]
        by_cases hlr : s.hkey (2 * pos + 1) > s.hkey (2 * pos + 2)
        · rw [if_pos hlr]
          refine step (2 * pos + 1) (by omega) (by omega) (by omega) (by omega) ?_
          intro i hi0 hi hip
          have : i = 2 * pos + 1 ∨ i = 2 * pos + 2 := by omega
          rcases this with rfl | rfl <;> omega
        · rw [if_neg hlr]
          refine step (2 * pos + 2) (by omega) (by omega) (by omega) (by omega) ?_
          intro i hi0 hi hip
          have : i = 2 * pos + 1 ∨ i = 2 * pos + 2 := by omega
          rcases this with rfl | rfl <;> omega
    · rw [if_neg hr]
      by_cases hl : 2 * pos + 1 < s.hs
      · rw [if_pos hl]
        by_cases hd : s.hkey pos < s.hkey (2 * pos + 1)
        · rw [if_pos hd]
          refine step (2 * pos + 1) (by omega) (by omega) (by omega) (by omega) ?_
          intro i hi0 hi hip
          have : i = 2 * pos + 1 := by omega
          rw [this]
        · rw [if_neg hd]
          refine ⟨hc, done ?_, rfl⟩
          intro i hi0 hi hip
          have : i = 2 * pos + 1 := by omega
          rw [this]; omega
      · rw [if_neg hl]
        refine ⟨hc, done ?_, rfl⟩
        intro i hi0 hi hip
        omega

/-- If both children are strictly smaller, `siftDown` does nothing. -/
theorem siftDown_id (f : Nat) (s : NH) (pos : Nat)
    (h : ∀ i, 0 < i → i < s.hs → (i - 1) / 2 = pos → s.hkey i < s.hkey pos) : siftDown f s pos = s := by
  cases f with
  | zero => rfl
  | succ f =>
    unfold siftDown
    simp only
    by_cases hr : 2 * pos + 2 < s.hs
    · rw [if_pos hr, if_pos]
      exact ⟨h _ (by omega) (by omega) (by omega), h _ (by omega) (by omega) (by omega)⟩
    · rw [if_neg hr]
      by_cases hl : 2 * pos + 1 < s.hs
      · rw [if_pos hl, if_neg]
        have := h (2 * pos + 1) (by omega) (by omega) (by omega)
        omega
      · rw [if_neg hl]

/-- `siftUp` at a position that respects its parent does nothing. -/
theorem siftUp_id (f : Nat) (s : NH) (pos : Nat) (h : 0 < pos → s.hkey pos ≤ s.hkey ((pos - 1) / 2)) :
    siftUp f s pos = s := by
  cases f with
  | zero => rfl
  | succ f =>
    unfold siftUp
    by_cases h0 : pos > 0
    · rw [if_pos h0]
      simp only
      rw [if_neg]
      have := h h0; omega
    · rw [if_neg h0]

/-- The queue state holds the map. -/
def Rel (N : Nat) (s : NH) (m : Nat → Option Nat) : Prop := Cons N s m ∧ Ord s

theorem root_max {s : NH} (h : Ord s) (i : Nat) (hi : i < s.hs) : s.hkey i ≤ s.hkey 0 := by
  induction i using Nat.strong_induction_on with
  | _ i ih =>
    by_cases h0 : i = 0
    · rw [h0]
    · have h1 := h i (by omega) hi
      have h2 := ih ((i - 1) / 2) (by omega) (by omega)
      omega

theorem rel_insert {N : Nat} {s : NH} {m : Nat → Option Nat} (h : Rel N s m) {v k : Nat} (hv : v < N)
    (hm : m v = none) : Rel N (s.insert v k) (Function.update m v (some k)) := by
  obtain ⟨hc, ho⟩ := h
  unfold insert
  rw [hc.A v hm]
  simp only
  have hev : ∀ e, e < s.hs → s.enode e ≠ v := by
    rintro e he rfl
    have := (hc.enode_m he).1
    rw [hm] at this; simp at this
  set t : NH := { s with
        es := s.es + 1, enode := Function.update s.enode s.es v,
        ekey := Function.update s.ekey s.es k, eidx := Function.update s.eidx s.es s.hs,
        hs := s.hs + 1, hkey := Function.update s.hkey s.hs k, helem := Function.update s.helem s.hs s.es,
        index := Function.update s.index v (some s.es) } with ht
  have hes := hc.es
  have hct : Cons N t (Function.update m v (some k)) := by
    refine ⟨?_, ?_, ?_, ?_, ?_, ?_, ?_⟩
    · intro u k' hu
      by_cases huv : u = v
      · rw [huv]; exact hv
      · rw [Function.update_of_ne huv] at hu; exact hc.dom u k' hu
    · simp [ht, hes]
    · intro i hi
      simp only [ht] at hi ⊢
      by_cases his : i = s.hs
      · subst his
        simp only [Function.update_self]
        exact ⟨by omega, trivial, trivial, trivial⟩
      · have hi' : i < s.hs := by omega
        obtain ⟨x1, x2, x3, x4⟩ := hc.H i hi'
        have e1 : s.helem i ≠ s.es := by omega
        rw [Function.update_of_ne his, Function.update_of_ne e1, Function.update_of_ne e1,
          Function.update_of_ne (hev _ x1), Function.update_of_ne (hev _ x1), Function.update_of_ne his]
        exact ⟨by omega, x2, x3, x4⟩
    · intro e he
      simp only [ht] at he ⊢
      by_cases hee : e = s.es
      · rw [hee, Function.update_self, Function.update_self]; exact ⟨by omega, rfl⟩
      · obtain ⟨y1, y2⟩ := hc.E e (by omega)
        rw [Function.update_of_ne hee, Function.update_of_ne (by omega)]
        exact ⟨by omega, y2⟩
    · intro u k' hu
      simp only [ht]
      by_cases huv : u = v
      · rw [huv]
        exact ⟨s.es, by omega, by rw [Function.update_self], by rw [Function.update_self]⟩
      · rw [Function.update_of_ne huv] at hu
        obtain ⟨e, z1, z2, z3⟩ := hc.M u k' hu
        exact ⟨e, by omega, by rw [Function.update_of_ne huv, z2], by rw [Function.update_of_ne (by omega), z3]⟩
    · intro u hu
      simp only [ht]
      have huv : u ≠ v := by rintro rfl; rw [Function.update_self] at hu; simp at hu
      rw [Function.update_of_ne huv] at hu ⊢
      exact hc.A u hu
    · rw [mcard_insert hv hm]; simp [ht, hc.cnt]
  have hts : t.hs = s.hs + 1 := rfl
  have := siftUp_spec (N := N) (m := Function.update m v (some k)) s.hs t s.hs (le_refl _) (by omega) hct
    (by
      intro i hi0 hi hne
      have e1 : t.hkey i = s.hkey i := Function.update_of_ne hne _ _
      have e2 : t.hkey ((i - 1) / 2) = s.hkey ((i - 1) / 2) := Function.update_of_ne (by omega) _ _
      rw [e1, e2]
      exact ho i hi0 (by omega))
    (by intro i hi0 hi hp _; omega)
  exact ⟨this.1, this.2.1⟩

/-- Effect of removing element `ei` at heap position `h` and closing both holes with the last entries. -/
structure Removed (s t : NH) (v ei h : Nat) : Prop where
  hs : t.hs = s.hs - 1
  es : t.es = s.hs - 1
  hkey : ∀ i, i < s.hs - 1 → t.hkey i = s.hkey (if i = h then s.hs - 1 else i)
  helem : ∀ i, i < s.hs - 1 → t.helem i =
    if s.helem (if i = h then s.hs - 1 else i) = s.hs - 1 then ei else s.helem (if i = h then s.hs - 1 else i)
  enode : ∀ e, e < s.hs - 1 → t.enode e = s.enode (if e = ei then s.hs - 1 else e)
  eidx : ∀ e, e < s.hs - 1 → t.eidx e =
    if s.eidx (if e = ei then s.hs - 1 else e) = s.hs - 1 then h else s.eidx (if e = ei then s.hs - 1 else e)
  index_self : t.index v = none
  index : ∀ u e, u ≠ v → s.index u = some e → t.index u = some (if e = s.hs - 1 then ei else e)
  index_none : ∀ u, s.index u = none → t.index u = none

theorem Removed.cons {N : Nat} {s t : NH} {m : Nat → Option Nat} (hc : Cons N s m) {v k ei : Nat}
    (hm : m v = some k) (hei : s.index v = some ei) (heil : ei < s.hs) (hev : s.enode ei = v)
    (R : Removed s t v ei (s.eidx ei)) : Cons N t (Function.update m v none) := by
  have hcard := mcard_erase (hc.dom v k hm) hm
  obtain ⟨hh, hhe⟩ := hc.E ei heil
  generalize hgh : s.eidx ei = h at *
  have hpos : 0 < s.hs := by omega
  have enode_ne : ∀ e, e < s.hs → e ≠ ei → s.enode e ≠ v := by
    intro e he hne hc'
    have := (hc.enode_m he).2
    rw [hc', hei] at this
    simp at this; exact hne this.symm
  have helem_ne : ∀ i, i < s.hs → i ≠ h → s.helem i ≠ ei := by
    intro i hi hne hc'
    have := (hc.H i hi).2.1
    rw [hc', hgh] at this; exact hne this.symm
  refine ⟨?_, by rw [R.es, R.hs], ?_, ?_, ?_, ?_, ?_⟩
  · intro u k' hu
    by_cases huv : u = v
    · rw [huv, Function.update_self] at hu; simp at hu
    · rw [Function.update_of_ne huv] at hu; exact hc.dom u k' hu
  · intro i hi
    rw [R.hs] at hi
    -- old position
    obtain ⟨i', hi'eq⟩ : ∃ i', i' = if i = h then s.hs - 1 else i := ⟨_, rfl⟩
    have hi'lt : i' < s.hs := by rw [hi'eq]; split <;> omega
    have hi'ne : i' ≠ h := by rw [hi'eq]; split <;> omega
    obtain ⟨x1, x2, x3, x4⟩ := hc.H i' hi'lt
    have hne := helem_ne i' hi'lt hi'ne
    rw [R.helem i hi, R.hkey i hi, ← hi'eq, R.hs]
    have hren : (if s.helem i' = s.hs - 1 then ei else s.helem i') < s.hs - 1 := by
      split <;> omega
    have hsrc : (if (if s.helem i' = s.hs - 1 then ei else s.helem i') = ei then s.hs - 1
        else (if s.helem i' = s.hs - 1 then ei else s.helem i')) = s.helem i' := by
      by_cases hl : s.helem i' = s.hs - 1
      · simp [hl]
      · simp [hl, hne]
    refine ⟨hren, ?_, ?_, ?_⟩
    · rw [R.eidx _ hren, hsrc, x2, hi'eq]
      by_cases hih : i = h
      · rw [if_pos hih, if_pos rfl, hih]
      · rw [if_neg hih, if_neg (by omega)]
    · rw [R.enode _ hren, hsrc, Function.update_of_ne (enode_ne _ x1 hne), x3]
    · rw [R.enode _ hren, hsrc, R.index _ _ (enode_ne _ x1 hne) x4]
  · intro e he
    rw [R.hs] at he
    obtain ⟨e', he'eq⟩ : ∃ e', e' = if e = ei then s.hs - 1 else e := ⟨_, rfl⟩
    have he'lt : e' < s.hs := by rw [he'eq]; split <;> omega
    have he'ne : e' ≠ ei := by rw [he'eq]; split <;> omega
    obtain ⟨y1, y2⟩ := hc.E e' he'lt
    have hne : s.eidx e' ≠ h := by
      intro hc'
      rw [hc', hhe] at y2; exact he'ne y2.symm
    rw [R.eidx e he, ← he'eq, R.hs]
    have hren : (if s.eidx e' = s.hs - 1 then h else s.eidx e') < s.hs - 1 := by
      split <;> omega
    have hsrc : (if (if s.eidx e' = s.hs - 1 then h else s.eidx e') = h then s.hs - 1
        else (if s.eidx e' = s.hs - 1 then h else s.eidx e')) = s.eidx e' := by
      by_cases hl : s.eidx e' = s.hs - 1
      · simp [hl]
      · simp [hl, hne]
    refine ⟨hren, ?_⟩
    rw [R.helem _ hren, hsrc, y2, he'eq]
    by_cases hee : e = ei
    · rw [if_pos hee, if_pos rfl, hee]
    · rw [if_neg hee, if_neg (by omega)]
  · intro u k' hu
    have huv : u ≠ v := by rintro rfl; rw [Function.update_self] at hu; simp at hu
    rw [Function.update_of_ne huv] at hu
    obtain ⟨e, z1, z2, z3⟩ := hc.M u k' hu
    have hne : e ≠ ei := by rintro rfl; rw [hev] at z3; exact huv z3.symm
    rw [R.hs]
    have hlt : (if e = s.hs - 1 then ei else e) < s.hs - 1 := by split <;> omega
    refine ⟨if e = s.hs - 1 then ei else e, hlt, R.index u e huv z2, ?_⟩
    rw [R.enode _ hlt]
    by_cases hl : e = s.hs - 1
    · simp [hl] at z3 ⊢; exact z3
    · simp [hl, hne, z3]
  · intro u hu
    by_cases huv : u = v
    · rw [huv]; exact R.index_self
    · rw [Function.update_of_ne huv] at hu
      exact R.index_none u (hc.A u hu)
  · rw [R.hs, hcard.1, hc.cnt]

theorem unlinkNode_removed {N : Nat} {s : NH} {m : Nat → Option Nat} (hc : Cons N s m) {v ei : Nat}
    (hei : s.index v = some ei) (heil : ei < s.hs) :
    Removed s (s.unlinkNode v) v ei (s.eidx ei) := by
  obtain ⟨hh, hhe⟩ := hc.E ei heil
  have hes := hc.es
  obtain ⟨L, hL⟩ : ∃ L, L = s.hs - 1 := ⟨_, rfl⟩
  have hLlt : L < s.hs := by omega
  obtain ⟨x1, x2, x3, x4⟩ := hc.H L hLlt
  obtain ⟨y1, y2⟩ := hc.E L hLlt
  have hidx : (s.index v).getD 0 = ei := by rw [hei]; rfl
  unfold unlinkNode
  simp only [hidx, hes, ← hL]
  generalize hgh : s.eidx ei = h at *
  have hLL : s.helem L = L ↔ s.eidx L = L := by
    constructor
    · intro hx; rw [hx] at x2; exact x2
    · intro hx; rw [hx] at y2; exact y2
  have eidx_inj : ∀ e, e < s.hs → e ≠ s.helem L → s.eidx e ≠ L := by
    intro e he hne hx
    have := (hc.E e he).2
    rw [hx] at this; exact hne this.symm
  have helem_inj : ∀ i, i < s.hs → i ≠ s.eidx L → s.helem i ≠ L := by
    intro i hi hne hx
    have := (hc.H i hi).2.1
    rw [hx] at this; exact hne this.symm
  -- position vector after the first write
  have heidx1 : ∀ e, e < s.hs → Function.update s.eidx (swapFn s.helem h L h) h e
      = if s.eidx e = L then h else s.eidx e := by
    intro e he
    rw [swapFn_apply, Function.update_apply]
    by_cases hhl : h = L
    · rw [if_pos hhl, hhe]
      by_cases hee : e = ei
      · rw [if_pos hee, hee, hgh, if_pos hhl]
      · rw [if_neg hee]
        split
        · rename_i hx
          have := (hc.E e he).2
          rw [hx, ← hhl, hhe] at this
          exact absurd this.symm hee
        · rfl
    · rw [if_neg hhl, if_pos rfl]
      by_cases hee : e = s.helem L
      · rw [if_pos hee, hee, x2, if_pos rfl]
      · rw [if_neg hee, if_neg (eidx_inj e he hee)]
  by_cases heL : ei = L
  · rw [if_neg (by simpa using heL)]
    have hmap : ∀ x, x < s.hs - 1 → (if x = ei then L else x) = x := by
      intro x hx; rw [if_neg (by omega)]
    refine ⟨by simp [hL], by simp [hL], ?_, ?_, ?_, ?_, ?_, ?_, ?_⟩
    · intro i hi
      simp only
      rw [swapFn_apply, if_neg (by omega), ← hL]
      split <;> rfl
    · intro i hi
      simp only
      rw [swapFn_apply, if_neg (by omega), ← hL]
      have : (if i = h then s.helem L else s.helem i) = s.helem (if i = h then L else i) := by
        split <;> rfl
      rw [this]
      by_cases hx : s.helem (if i = h then L else i) = L
      · rw [if_pos hx, hx, heL]
      · rw [if_neg hx]
    · intro e he
      simp only
      rw [← hL, hmap e he]
    · intro e he
      simp only
      rw [← hL, hmap e he]
      exact heidx1 e (by omega)
    · simp
    · intro u e huv hu
      simp only
      rw [Function.update_of_ne huv, hu, ← hL]
      by_cases hx : e = L
      · rw [if_pos hx, hx, heL]
      · rw [if_neg hx]
    · intro u hu
      simp only
      by_cases huv : u = v
      · rw [huv, Function.update_self]
      · rw [Function.update_of_ne huv, hu]
  · rw [if_pos (by simpa using heL)]
    have hx2 : swapFn (Function.update s.eidx (swapFn s.helem h L h) h) ei L ei = if s.eidx L = L then h else s.eidx L := by
      rw [swapFn_apply, if_neg heL, if_pos rfl, heidx1 L hLlt]
    have hen : swapFn s.enode ei L ei = s.enode L := by
      rw [swapFn_apply, if_neg heL, if_pos rfl]
    have hLv : s.enode L ≠ v := by
      intro hx
      have := (hc.enode_m hLlt).2
      rw [hx, hei] at this
      simp at this; exact heL this
    have hLidx := (hc.enode_m hLlt).2
    refine ⟨by simp [hL], by simp [hL], ?_, ?_, ?_, ?_, ?_, ?_, ?_⟩
    · intro i hi
      simp only
      rw [swapFn_apply, if_neg (by omega), ← hL]
      split <;> rfl
    · intro i hi
      simp only
      rw [hx2, ← hL, Function.update_apply, swapFn_apply, if_neg (show ¬ i = L by omega)]
      have e0 : (if i = h then s.helem L else s.helem i) = s.helem (if i = h then L else i) := by
        split <;> rfl
      rw [e0]
      have hLh : s.eidx L ≠ h := by
        intro hx
        rw [hx, hhe] at y2; exact heL y2
      have : (i = if s.eidx L = L then h else s.eidx L) ↔ s.helem (if i = h then L else i) = L := by
        by_cases hih : i = h
        · rw [if_pos hih, hih, hLL]
          by_cases hx : s.eidx L = L
          · simp [hx]
          · rw [if_neg hx]
            exact ⟨fun hc' => absurd hc'.symm hLh, fun hc' => absurd hc' hx⟩
        · rw [if_neg hih]
          by_cases hx : s.eidx L = L
          · rw [if_pos hx]
            refine ⟨fun hc' => absurd hc' hih, fun hc' => ?_⟩
            have := (hc.H i (by omega)).2.1
            rw [hc', hx] at this
            omega
          · rw [if_neg hx]
            constructor
            · intro hc'; rw [hc', y2]
            · intro hc'
              by_contra hne
              exact helem_inj i (by omega) hne hc'
      by_cases hx : s.helem (if i = h then L else i) = L
      · rw [if_pos (this.2 hx), if_pos hx]
      · rw [if_neg (fun hc' => hx (this.1 hc')), if_neg hx]
    · intro e he
      simp only
      rw [swapFn_apply, if_neg (by omega), ← hL]
      split <;> rfl
    · intro e he
      simp only
      rw [swapFn_apply, if_neg (by omega), ← hL]
      by_cases hee : e = ei
      · rw [if_pos hee, if_pos hee, heidx1 L hLlt]
      · rw [if_neg hee, if_neg hee, heidx1 e (by omega)]
    · simp only
      rw [hen, Function.update_of_ne (Ne.symm hLv), Function.update_self]
    · intro u e huv hu
      simp only
      rw [hen, ← hL]
      by_cases hx : u = s.enode L
      · rw [hx, Function.update_self]
        rw [hx, hLidx] at hu
        simp at hu
        rw [if_pos hu.symm]
      · rw [Function.update_of_ne hx, Function.update_of_ne huv, hu, if_neg]
        rintro rfl
        have hmu : ∃ k', m u = some k' := by
          cases hmu : m u with
          | none => rw [hc.A u hmu] at hu; simp at hu
          | some k' => exact ⟨k', rfl⟩
        obtain ⟨k', hmu⟩ := hmu
        obtain ⟨e', z1, z2, z3⟩ := hc.M u k' hmu
        rw [hu] at z2
        simp at z2
        exact hx (by rw [← z3, ← z2])
    · intro u hu
      simp only
      rw [hen]
      have hne : u ≠ s.enode L := by rintro rfl; rw [hLidx] at hu; simp at hu
      rw [Function.update_of_ne hne]
      by_cases huv : u = v
      · rw [huv, Function.update_self]
      · rw [Function.update_of_ne huv, hu]

theorem Removed.congr {s t t' : NH} {v ei h : Nat} (R : Removed s t v ei h) (h1 : t'.hs = t.hs)
    (h2 : t'.es = t.es) (h3 : ∀ i, i < s.hs - 1 → t'.hkey i = t.hkey i)
    (h4 : ∀ i, i < s.hs - 1 → t'.helem i = t.helem i) (h5 : ∀ i, i < s.hs - 1 → t'.enode i = t.enode i)
    (h6 : ∀ i, i < s.hs - 1 → t'.eidx i = t.eidx i) (h7 : t'.index = t.index) : Removed s t' v ei h :=
  ⟨by rw [h1, R.hs], by rw [h2, R.es], fun i hi => by rw [h3 i hi, R.hkey i hi],
    fun i hi => by rw [h4 i hi, R.helem i hi], fun i hi => by rw [h5 i hi, R.enode i hi],
    fun i hi => by rw [h6 i hi, R.eidx i hi], by rw [h7, R.index_self],
    fun u e hu he => by rw [h7, R.index u e hu he], fun u hu => by rw [h7, R.index_none u hu]⟩

theorem unlinkMax_removed {N : Nat} {s : NH} {m : Nat → Option Nat} (hc : Cons N s m) (hpos : 0 < s.hs) :
    s.unlinkMax.1 = s.enode (s.helem 0) ∧
    Removed s s.unlinkMax.2 (s.enode (s.helem 0)) (s.helem 0) 0 := by
  obtain ⟨x1, x2, x3, x4⟩ := hc.H 0 hpos
  have hR := unlinkNode_removed hc x4 x1
  rw [x2] at hR
  have hes := hc.es
  have hidx : (s.index (s.enode (s.helem 0))).getD 0 = s.helem 0 := by rw [x4]; rfl
  have hsw : swapFn s.helem 0 (s.hs - 1) 0 = s.helem (s.hs - 1) := by
    rw [swapFn_apply]
    by_cases h0 : 0 = s.hs - 1
    · rw [if_pos h0, ← h0]
    · rw [if_neg h0, if_pos rfl]
  constructor
  · unfold unlinkMax; simp only; split <;> rfl
  · by_cases heL : s.helem 0 = s.hs - 1
    · refine hR.congr ?_ ?_ ?_ ?_ ?_ ?_ ?_
      all_goals
        unfold unlinkMax unlinkNode
        simp only [hidx, hes, x2]
        rw [if_neg (by simpa using heL), if_neg (by simpa using heL)]
      · intro i hi
        simp only
        rw [swapFn_apply, if_neg (show ¬ i = s.hs - 1 by omega), Function.update_apply]
      · intro i hi
        simp only
        rw [swapFn_apply, if_neg (show ¬ i = s.hs - 1 by omega), Function.update_apply]
      · intro i hi; rfl
      · intro i hi
        simp only
        rw [hsw, Function.update_self]
    · have h0L : ¬ 0 = s.hs - 1 := by
        intro hx
        omega
      refine hR.congr ?_ ?_ ?_ ?_ ?_ ?_ ?_
      all_goals
        unfold unlinkMax unlinkNode
        simp only [hidx, hes, x2]
        rw [if_pos (by simpa using heL), if_pos (by simpa using heL)]
      · intro i hi
        simp only
        rw [swapFn_apply, if_neg (show ¬ i = s.hs - 1 by omega), Function.update_apply]
      · intro i hi
        simp only
        rw [hsw, Function.update_self (a := 0), Function.update_self]
        rw [swapFn_apply (Function.update s.eidx (s.helem (s.hs - 1)) 0), if_neg heL, if_pos rfl]
        rw [Function.update_apply, Function.update_apply, Function.update_apply, Function.update_apply]
        rw [swapFn_apply, if_neg (show ¬ i = s.hs - 1 by omega)]
      · intro i hi
        simp only
        rw [swapFn_apply, if_neg (show ¬ i = s.hs - 1 by omega), Function.update_apply]
      · intro i hi
        simp only
        rw [hsw, Function.update_self (a := 0)]
        rw [swapFn_apply, if_neg (show ¬ i = s.hs - 1 by omega), Function.update_apply]
      · simp only
        rw [Function.update_self, swapFn_apply, if_neg heL, if_pos rfl]

/-- Heap order after removal, except around the closed hole `h`. -/
theorem Removed.ord {s t : NH} {v ei h : Nat} (R : Removed s t v ei h) (ho : Ord s) (hh : h < t.hs) :
    (∀ i, 0 < i → i < t.hs → i ≠ h → (i - 1) / 2 ≠ h → t.hkey i ≤ t.hkey ((i - 1) / 2)) ∧
    (∀ i, 0 < i → i < t.hs → (i - 1) / 2 = h → 0 < h → t.hkey i ≤ t.hkey ((h - 1) / 2)) := by
  have hs := R.hs
  constructor
  · intro i hi0 hi h1 h2
    rw [R.hkey i (by omega), R.hkey _ (by omega), if_neg h1, if_neg h2]
    exact ho i hi0 (by omega)
  · intro i hi0 hi h1 h2
    rw [R.hkey i (by omega), R.hkey _ (by omega), if_neg (by omega), if_neg (by omega)]
    have e1 := ho i hi0 (by omega)
    have e2 := ho h h2 (by omega)
    rw [h1] at e1; omega

theorem rel_deleteMax {N : Nat} {s : NH} {m : Nat → Option Nat} (h : Rel N s m) (hpos : 0 < s.hs) :
    s.deleteMax.1 = s.enode (s.helem 0) ∧ IsMax m (s.enode (s.helem 0)) (s.hkey 0) ∧
    Rel N s.deleteMax.2 (Function.update m s.deleteMax.1 none) := by
  obtain ⟨hc, ho⟩ := h
  obtain ⟨x1, x2, x3, x4⟩ := hc.H 0 hpos
  obtain ⟨hn, R⟩ := unlinkMax_removed hc hpos
  unfold deleteMax
  rw [if_pos hpos]
  rcases hu : s.unlinkMax with ⟨node, t⟩
  rw [hu] at hn R
  simp only at hn R ⊢
  have hct := Removed.cons hc x3 x4 x1 rfl (by rw [x2]; exact R)
  · refine ⟨hn, ⟨x3, ?_⟩, ?_⟩
    · intro u k' hu
      obtain ⟨e, _, _, _, z4, _, z6⟩ := hc.key hu
      rw [← z6]; exact root_max ho _ z4
    · rw [hn]
      by_cases h1 : t.hs > 1
      · rw [if_pos h1]
        obtain ⟨o1, o2⟩ := R.ord ho (by omega)
        have := siftDown_spec t.hs t 0 (by omega) (by omega) hct
          (by intro i hi0 hi hne; exact o1 i hi0 hi (by omega) hne)
          (by intro i _ _ _ hx; omega)
        exact ⟨this.1, this.2.1⟩
      · rw [if_neg h1]
        exact ⟨hct, by intro i hi0 hi; omega⟩

theorem rel_deleteNode {N : Nat} {s : NH} {m : Nat → Option Nat} (h : Rel N s m) {v k : Nat}
    (hm : m v = some k) : Rel N (s.deleteNode v) (Function.update m v none) := by
  obtain ⟨hc, ho⟩ := h
  obtain ⟨ei, z1, z2, z3, z4, z5, z6⟩ := hc.key hm
  have R := unlinkNode_removed hc z2 z1
  have hct := R.cons hc hm z2 z1 z3
  unfold deleteNode
  have hidx : (s.index v).getD 0 = ei := by rw [z2]; rfl
  simp only [hidx]
  generalize s.unlinkNode v = t at *
  generalize s.eidx ei = h at *
  by_cases hcond : t.hs > 1 ∧ h < t.hs
  · rw [if_pos hcond]
    obtain ⟨o1, o2⟩ := R.ord ho hcond.2
    by_cases hup : 0 < h ∧ t.hkey ((h - 1) / 2) < t.hkey h
    · have hid : siftDown t.hs t h = t := by
        apply siftDown_id
        intro i hi0 hi hp
        have := o2 i hi0 hi hp hup.1
        omega
      rw [hid]
      have := siftUp_spec h t h (le_refl _) hcond.2 hct
        (by
          intro i hi0 hi hne
          by_cases hp : (i - 1) / 2 = h
          · have := o2 i hi0 hi hp hup.1
            rw [hp]; omega
          · exact o1 i hi0 hi hne hp)
        o2
      exact ⟨this.1, this.2.1⟩
    · have hle : 0 < h → t.hkey h ≤ t.hkey ((h - 1) / 2) := by
        intro h0; by_contra hc'; exact hup ⟨h0, by omega⟩
      have := siftDown_spec t.hs t h (by omega) hcond.2 hct
        (by
          intro i hi0 hi hne
          by_cases hih : i = h
          · rw [hih]; exact hle (by omega)
          · exact o1 i hi0 hi hih hne)
        o2
      rw [siftUp_id]
      · exact ⟨this.1, this.2.1⟩
      · intro h0
        exact this.2.1 h h0 (by rw [this.2.2]; exact hcond.2)
  · rw [if_neg hcond]
    refine ⟨hct, ?_⟩
    intro i hi0 hi
    have hs := R.hs
    have hhge : ¬ h < t.hs := by
      intro hx
      exact hcond ⟨by omega, hx⟩
    rw [R.hkey i (by omega), R.hkey _ (by omega), if_neg (by omega), if_neg (by omega)]
    exact ho i hi0 (by omega)

theorem setKey_cons {N : Nat} {s : NH} {m : Nat → Option Nat} (hc : Cons N s m) {v k k0 : Nat}
    (hm : m v = some k0) : Cons N (s.setKey v k) (Function.update m v (some k)) := by
  obtain ⟨ei, z1, z2, z3, z4, z5, z6⟩ := hc.key hm
  have hidx : (s.index v).getD 0 = ei := by rw [z2]; rfl
  unfold setKey
  simp only [hidx]
  refine ⟨?_, hc.es, ?_, hc.E, ?_, ?_, ?_⟩
  · intro u k' hu
    by_cases huv : u = v
    · rw [huv]; exact hc.dom v k0 hm
    · rw [Function.update_of_ne huv] at hu; exact hc.dom u k' hu
  · intro i hi
    simp only at hi ⊢
    obtain ⟨x1, x2, x3, x4⟩ := hc.H i hi
    refine ⟨x1, x2, ?_, x4⟩
    by_cases hih : i = s.eidx ei
    · rw [hih, z5, z3, Function.update_self, Function.update_self]
    · have hne : s.enode (s.helem i) ≠ v := by
        intro hx
        rw [hx, z2] at x4
        simp at x4
        rw [← x4] at x2
        exact hih x2.symm
      rw [Function.update_of_ne hne, Function.update_of_ne hih, x3]
  · intro u k' hu
    by_cases huv : u = v
    · rw [huv]; exact ⟨ei, z1, z2, z3⟩
    · rw [Function.update_of_ne huv] at hu; exact hc.M u k' hu
  · intro u hu
    have huv : u ≠ v := by rintro rfl; rw [Function.update_self] at hu; simp at hu
    rw [Function.update_of_ne huv] at hu
    exact hc.A u hu
  · rw [mcard_update hm]; exact hc.cnt

theorem rel_increaseKey {N : Nat} {s : NH} {m : Nat → Option Nat} (h : Rel N s m) {v k k0 : Nat}
    (hm : m v = some k0) (hk : k0 ≤ k) : Rel N (s.increaseKey v k) (Function.update m v (some k)) := by
  obtain ⟨hc, ho⟩ := h
  obtain ⟨ei, z1, z2, z3, z4, z5, z6⟩ := hc.key hm
  have hidx : (s.index v).getD 0 = ei := by rw [z2]; rfl
  have hct := setKey_cons hc (k := k) hm
  unfold increaseKey
  rw [hidx]
  have hkey : ∀ i, (s.setKey v k).hkey i = if i = s.eidx ei then k else s.hkey i := by
    intro i; unfold setKey; simp only [hidx]; rw [Function.update_apply]
  have hhs : (s.setKey v k).hs = s.hs := rfl
  generalize s.setKey v k = t at *
  generalize s.eidx ei = h at *
  have := siftUp_spec s.hs t h (by omega) (by omega) hct
    (by
      intro i hi0 hi hne
      rw [hkey, hkey, if_neg hne]
      have := ho i hi0 (by omega)
      split
      · rename_i hp; rw [hp] at this; omega
      · exact this)
    (by
      intro i hi0 hi hp h0
      rw [hkey, hkey, if_neg (by omega), if_neg (by omega)]
      have e1 := ho i hi0 (by omega)
      have e2 := ho h h0 (by omega)
      rw [hp] at e1; omega)
  exact ⟨this.1, this.2.1⟩

theorem rel_decreaseKey {N : Nat} {s : NH} {m : Nat → Option Nat} (h : Rel N s m) {v k k0 : Nat}
    (hm : m v = some k0) (hk : k ≤ k0) : Rel N (s.decreaseKey v k) (Function.update m v (some k)) := by
  obtain ⟨hc, ho⟩ := h
  obtain ⟨ei, z1, z2, z3, z4, z5, z6⟩ := hc.key hm
  have hidx : (s.index v).getD 0 = ei := by rw [z2]; rfl
  have hct := setKey_cons hc (k := k) hm
  unfold decreaseKey
  rw [hidx]
  have hkey : ∀ i, (s.setKey v k).hkey i = if i = s.eidx ei then k else s.hkey i := by
    intro i; unfold setKey; simp only [hidx]; rw [Function.update_apply]
  have hhs : (s.setKey v k).hs = s.hs := rfl
  generalize s.setKey v k = t at *
  generalize s.eidx ei = h at *
  have := siftDown_spec s.hs t h (by omega) (by omega) hct
    (by
      intro i hi0 hi hne
      rw [hkey, hkey, if_neg hne]
      have := ho i hi0 (by omega)
      split
      · rename_i hp
        have e : s.hkey i = k0 := by rw [hp, z6]
        omega
      · exact this)
    (by
      intro i hi0 hi hp h0
      rw [hkey, hkey, if_neg (by omega), if_neg (by omega)]
      have e1 := ho i hi0 (by omega)
      have e2 := ho h h0 (by omega)
      rw [hp] at e1; omega)
  exact ⟨this.1, this.2.1⟩

theorem getKey_eq {N : Nat} {s : NH} {m : Nat → Option Nat} (hc : Cons N s m) {v k : Nat} (hm : m v = some k) :
    s.getKey v = k := by
  obtain ⟨ei, z1, z2, z3, z4, z5, z6⟩ := hc.key hm
  unfold getKey
  rw [z2]; exact z6

theorem rel_changeKey {N : Nat} {s : NH} {m : Nat → Option Nat} (h : Rel N s m) {v k k0 : Nat}
    (hm : m v = some k0) : Rel N (s.changeKey v k) (Function.update m v (some k)) := by
  have hg := getKey_eq h.1 hm
  unfold changeKey
  rw [hg]
  by_cases h1 : k0 > k
  · rw [if_pos h1]; exact rel_decreaseKey h hm (by omega)
  · rw [if_neg h1]
    by_cases h2 : k0 < k
    · rw [if_pos h2]; exact rel_increaseKey h hm (by omega)
    · rw [if_neg h2]
      have : k = k0 := by omega
      rw [this, ← hm, Function.update_eq_self]
      exact h

theorem sim (N K : Nat) : PQSim cls N K (Rel N) where
  init := by
    refine ⟨⟨by simp, rfl, ?_, ?_, by simp, by intro v _; rfl, ?_⟩, ?_⟩
    · intro i hi; exact absurd hi (by simp [cls, new])
    · intro i hi; exact absurd hi (by simp [cls, new])
    · have : mcard N (fun _ => none) = 0 := (mcard_eq_zero (by simp)).2 (by simp)
      rw [this]; rfl
    · intro i _ hi; exact absurd hi (by simp [cls, new])
  insert s m v k h hv _ hm := rel_insert h hv hm
  increaseKey s m v k k0 h hm hle _ := rel_increaseKey h hm hle
  decreaseKey s m v k k0 h hm hle := rel_decreaseKey h hm hle
  changeKey s m v k k0 h hm _ := rel_changeKey h hm
  deleteNode s m v k0 h hm := rel_deleteNode h hm
  deleteMax s m v k0 h hm := by
    obtain ⟨ei, z1, _⟩ := h.1.key hm
    exact (rel_deleteMax h (by omega)).2.2
  agrees s m h := by
    refine ⟨h.1.dom, h.1.cnt, ?_, ?_, fun v k hv => getKey_eq h.1 hv, ?_, ?_⟩
    · have : (cls.empty s = true) ↔ s.hs = 0 := by simp [cls]
      rw [this, h.1.cnt]
      exact mcard_eq_zero h.1.dom
    · intro v
      have : (cls.contains s v = true) ↔ s.index v ≠ none := by simp [cls]
      rw [this]
      cases hv : m v with
      | none => simp [h.1.A v hv]
      | some k => obtain ⟨e, _, z2, _⟩ := h.1.M v k hv; simp [z2]
    · rintro ⟨v, k, hv⟩
      obtain ⟨ei, z1, _⟩ := h.1.key hv
      exact (rel_deleteMax h (by omega)).2.1
    · rintro ⟨v, k, hv⟩
      obtain ⟨ei, z1, _⟩ := h.1.key hv
      obtain ⟨h1, h2, _⟩ := rel_deleteMax h (by omega)
      exact ⟨_, by simp only [cls]; rw [h1]; exact h2⟩

end NH
end VieCut
