import Verif.Model.BucketPQ
import Mathlib.Data.Finset.Card
import Mathlib.Tactic.Linarith

namespace VieCut
open Finset

/-- Number of elements held by `m`. -/
def mcard (N : Nat) (m : Nat → Option Nat) : Nat := ((range N).filter (fun v => m v ≠ none)).card

theorem mcard_insert {N : Nat} {m : Nat → Option Nat} {v k : Nat} (hv : v < N) (hm : m v = none) :
    mcard N (Function.update m v (some k)) = mcard N m + 1 := by
  unfold mcard
  have : (range N).filter (fun u => Function.update m v (some k) u ≠ none)
      = insert v ((range N).filter (fun u => m u ≠ none)) := by
    ext u
    simp only [mem_filter, mem_range, mem_insert]
    by_cases h : u = v
    · subst h; simp [hv]
    · simp [h]
  rw [this, card_insert_of_notMem]
  simp [hm]

theorem mcard_update {N : Nat} {m : Nat → Option Nat} {v k k0 : Nat} (hm : m v = some k0) :
    mcard N (Function.update m v (some k)) = mcard N m := by
  unfold mcard
  congr 1
  ext u
  simp only [mem_filter, mem_range]
  by_cases h : u = v
  · subst h; simp [hm]
  · simp [h]

theorem mcard_erase {N : Nat} {m : Nat → Option Nat} {v k : Nat} (hv : v < N) (hm : m v = some k) :
    mcard N (Function.update m v none) = mcard N m - 1 ∧ 0 < mcard N m := by
  unfold mcard
  have : (range N).filter (fun u => Function.update m v none u ≠ none)
      = ((range N).filter (fun u => m u ≠ none)).erase v := by
    ext u
    simp only [mem_filter, mem_range, mem_erase]
    by_cases h : u = v
    · subst h; simp
    · simp [h]
  have hmem : v ∈ (range N).filter (fun u => m u ≠ none) := by simp [hv, hm]
  rw [this, card_erase_of_mem hmem]
  exact ⟨rfl, card_pos.2 ⟨v, hmem⟩⟩

theorem mcard_eq_zero {N : Nat} {m : Nat → Option Nat} (hd : ∀ v k, m v = some k → v < N) :
    mcard N m = 0 ↔ ∀ v, m v = none := by
  unfold mcard
  rw [card_eq_zero, filter_eq_empty_iff]
  constructor
  · intro h v
    cases hm : m v with
    | none => rfl
    | some k => exact absurd (h (mem_range.2 (hd v k hm))) (by simp [hm])
  · intro h v _
    simp [h v]

/-- The invariant of all bucket queues.  `off` is the bucket offset (0 for the LIFO queues). -/
structure BInv (N span : Nat) (m : Nat → Option Nat) (elements maxIdx : Nat) (index : Nat → Option Nat × Nat)
    (buckets : Nat → List Nat) (off : Nat → Nat) : Prop where
  dom : ∀ v k, m v = some k → v < N ∧ k ≤ span
  mem : ∀ a i v, (buckets a)[i]? = some v →
    ∃ k, m v = some k ∧ a = k + span ∧ index v = (some (i + off a), k)
  has : ∀ v k, m v = some k → ∃ i : Nat, (buckets (k + span))[i]? = some v
  absent : ∀ v, m v = none → (index v).1 = none
  cnt : elements = mcard N m
  high : ∀ a, maxIdx < a → buckets a = []
  top : elements ≠ 0 → buckets maxIdx ≠ []
  zero : elements = 0 → maxIdx = 0

theorem lowerMax_spec (b : Nat → List Nat) (i : Nat) :
    lowerMax b i ≤ i ∧ (∀ a, lowerMax b i < a → a < i → b a = []) ∧
    ((∃ a, a < i ∧ b a ≠ []) → b (lowerMax b i) ≠ []) := by
  induction i with
  | zero => simp [lowerMax]
  | succ i ih =>
    unfold lowerMax
    by_cases h : (b i).length > 0
    · rw [if_pos h]
      refine ⟨by omega, fun a h1 h2 => by omega, fun _ hc => ?_⟩
      rw [hc] at h; simp at h
    · rw [if_neg h]
      have hbi : b i = [] := by
        cases hb : b i with
        | nil => rfl
        | cons x l => rw [hb] at h; simp at h
      refine ⟨by omega, ?_, ?_⟩
      · intro a h1 h2
        by_cases ha : a = i
        · rw [ha, hbi]
        · exact ih.2.1 a h1 (by omega)
      · rintro ⟨a, h1, h2⟩
        refine ih.2.2 ⟨a, ?_, h2⟩
        have : a ≠ i := by rintro rfl; exact h2 hbi
        omega

namespace BInv
variable {N span : Nat} {m : Nat → Option Nat} {elements maxIdx : Nat} {index : Nat → Option Nat × Nat}
  {buckets : Nat → List Nat} {off : Nat → Nat}

theorem idx (h : BInv N span m elements maxIdx index buckets off) {v k : Nat} (hm : m v = some k) :
    ∃ i, index v = (some (i + off (k + span)), k) ∧ (buckets (k + span))[i]? = some v := by
  obtain ⟨i, hi⟩ := h.has v k hm
  obtain ⟨k', hk', _, hx⟩ := h.mem _ _ _ hi
  rw [hm] at hk'
  cases hk'
  exact ⟨i, hx, hi⟩

theorem inj (h : BInv N span m elements maxIdx index buckets off) {a i j v : Nat}
    (hi : (buckets a)[i]? = some v) (hj : (buckets a)[j]? = some v) : i = j := by
  obtain ⟨_, _, _, h1⟩ := h.mem _ _ _ hi
  obtain ⟨_, _, _, h2⟩ := h.mem _ _ _ hj
  rw [h1] at h2
  simp at h2
  omega

/-- The first non-empty bucket holds the maximum keys. -/
theorem max (h : BInv N span m elements maxIdx index buckets off) {i v : Nat}
    (hi : (buckets maxIdx)[i]? = some v) : IsMax m v (maxIdx - span) ∧ span ≤ maxIdx := by
  obtain ⟨k, hk, ha, _⟩ := h.mem _ _ _ hi
  refine ⟨⟨by rw [hk, ha]; congr 1; omega, ?_⟩, by omega⟩
  intro u k' hu
  obtain ⟨j, hj⟩ := h.has u k' hu
  by_contra hc
  have := h.high (k' + span) (by omega)
  rw [this] at hj; simp at hj

theorem agrees_empty (h : BInv N span m elements maxIdx index buckets off) :
    elements = 0 ↔ ∀ v, m v = none := by
  rw [h.cnt]
  exact mcard_eq_zero (fun v k hv => (h.dom v k hv).1)

/-- Appending a new element. -/
theorem push (h : BInv N span m elements maxIdx index buckets off) {v k : Nat} (hv : v < N) (hk : k ≤ span)
    (hm : m v = none) :
    BInv N span (Function.update m v (some k)) (elements + 1)
      (if k + span > maxIdx then k + span else maxIdx)
      (Function.update index v (some ((buckets (k + span) ++ [v]).length + off (k + span) - 1), k))
      (Function.update buckets (k + span) (buckets (k + span) ++ [v])) off := by
  have hnot : ∀ a i u : Nat, (buckets a)[i]? = some u → u ≠ v := by
    rintro a i u hu rfl
    obtain ⟨_, hx, _⟩ := h.mem _ _ _ hu
    rw [hm] at hx; simp at hx
  refine ⟨?_, ?_, ?_, ?_, ?_, ?_, ?_, ?_⟩
  · intro u k' hu
    by_cases huv : u = v
    · subst huv; rw [Function.update_self] at hu; cases hu; exact ⟨hv, hk⟩
    · rw [Function.update_of_ne huv] at hu; exact h.dom u k' hu
  · intro a i u hu
    by_cases ha : a = k + span
    · subst ha
      rw [Function.update_self] at hu
      rw [List.getElem?_append] at hu
      split at hu
      · have huv := hnot _ _ _ hu
        obtain ⟨k', h1, h2, h3⟩ := h.mem _ _ _ hu
        exact ⟨k', by rw [Function.update_of_ne huv, h1], h2, by rw [Function.update_of_ne huv, h3]⟩
      · rename_i hlt
        rw [List.getElem?_singleton] at hu
        split at hu
        · cases hu
          refine ⟨k, by rw [Function.update_self], rfl, ?_⟩
          rw [Function.update_self]
          simp only [List.length_append, List.length_singleton]
          congr 2
          omega
        · simp at hu
    · rw [Function.update_of_ne ha] at hu
      have huv := hnot _ _ _ hu
      obtain ⟨k', h1, h2, h3⟩ := h.mem _ _ _ hu
      exact ⟨k', by rw [Function.update_of_ne huv, h1], h2, by rw [Function.update_of_ne huv, h3]⟩
  · intro u k' hu
    by_cases huv : u = v
    · subst huv
      rw [Function.update_self] at hu
      cases hu
      exact ⟨(buckets (k + span)).length, by rw [Function.update_self]; simp⟩
    · rw [Function.update_of_ne huv] at hu
      obtain ⟨i, hi⟩ := h.has u k' hu
      refine ⟨i, ?_⟩
      by_cases ha : k' + span = k + span
      · rw [ha] at hi ⊢
        rw [Function.update_self, List.getElem?_append_left]
        · exact hi
        · exact (List.getElem?_eq_some_iff.1 hi).1
      · rw [Function.update_of_ne ha]; exact hi
  · intro u hu
    have huv : u ≠ v := by rintro rfl; rw [Function.update_self] at hu; simp at hu
    rw [Function.update_of_ne huv] at hu ⊢
    exact h.absent u hu
  · rw [mcard_insert hv hm, h.cnt]
  · intro a ha
    have h1 : a ≠ k + span := by split at ha <;> omega
    rw [Function.update_of_ne h1]
    exact h.high a (by split at ha <;> omega)
  · intro _
    split
    · rw [Function.update_self]; simp
    · by_cases he : maxIdx = k + span
      · rw [he, Function.update_self]; simp
      · rw [Function.update_of_ne he]
        by_cases h0 : elements = 0
        · have := h.zero h0; omega
        · exact h.top h0
  · intro h0; omega

/-- Removing an element from its bucket: `b'`, `off'`, `index'` describe the bucket afterwards. -/
theorem remove (h : BInv N span m elements maxIdx index buckets off) {v k : Nat} (hm : m v = some k)
    {b' : List Nat} {off' : Nat} {index' : Nat → Option Nat × Nat} {maxIdx' : Nat}
    (hb1 : ∀ (i u : Nat), b'[i]? = some u → u ≠ v ∧ m u = some k ∧ index' u = (some (i + off'), k))
    (hb2 : ∀ u, u ≠ v → m u = some k → ∃ i : Nat, b'[i]? = some u)
    (hi1 : ∀ u, u ≠ v → m u ≠ some k → index' u = index u)
    (hi2 : (index' v).1 = none)
    (hmax : maxIdx' = if b' = [] ∧ k + span = maxIdx
      then lowerMax (Function.update buckets (k + span) b') maxIdx else maxIdx) :
    BInv N span (Function.update m v none) (elements - 1) maxIdx' index'
      (Function.update buckets (k + span) b') (Function.update off (k + span) off') := by
  have hcard := mcard_erase (h.dom v k hm).1 hm
  have hne : elements ≠ 0 := by rw [h.cnt]; omega
  have hother : ∀ a i u : Nat, a ≠ k + span → (buckets a)[i]? = some u → u ≠ v ∧ m u ≠ some k := by
    intro a i u ha hu
    obtain ⟨k', h1, h2, _⟩ := h.mem _ _ _ hu
    refine ⟨?_, ?_⟩
    · rintro rfl; rw [hm] at h1; cases h1; exact ha h2
    · intro hc; rw [hc] at h1; cases h1; exact ha h2
  have hkm : k + span ≤ maxIdx := by
    by_contra hc
    obtain ⟨i, hi⟩ := h.has v k hm
    rw [h.high _ (by omega)] at hi; simp at hi
  have hmap : ∀ u k', Function.update m v none u = some k' → u ≠ v ∧ m u = some k' := by
    intro u k' hu
    by_cases huv : u = v
    · subst huv; rw [Function.update_self] at hu; simp at hu
    · rw [Function.update_of_ne huv] at hu; exact ⟨huv, hu⟩
  have hhas : ∀ u k', Function.update m v none u = some k' →
      ∃ i : Nat, (Function.update buckets (k + span) b' (k' + span))[i]? = some u := by
    intro u k' hu
    obtain ⟨huv, hu⟩ := hmap u k' hu
    by_cases hk : k' = k
    · subst hk; rw [Function.update_self]; exact hb2 u huv hu
    · rw [Function.update_of_ne (by omega)]; exact h.has u k' hu
  obtain ⟨l1, l2, l3⟩ := lowerMax_spec (Function.update buckets (k + span) b') maxIdx
  have hhigh : ∀ a, maxIdx' < a → Function.update buckets (k + span) b' a = [] := by
    intro a ha
    by_cases hc : b' = [] ∧ k + span = maxIdx
    · rw [if_pos hc] at hmax
      by_cases h1 : a < maxIdx
      · exact l2 a (by omega) h1
      · by_cases h2 : a = maxIdx
        · rw [h2, ← hc.2, Function.update_self]; exact hc.1
        · rw [Function.update_of_ne (by omega)]; exact h.high a (by omega)
    · rw [if_neg hc] at hmax
      rw [Function.update_of_ne (by omega)]; exact h.high a (by omega)
  have hcnt : elements - 1 = mcard N (Function.update m v none) := by rw [hcard.1, h.cnt]
  refine ⟨?_, ?_, hhas, ?_, hcnt, hhigh, ?_, ?_⟩
  · intro u k' hu
    exact h.dom u k' (hmap u k' hu).2
  · intro a i u hu
    by_cases ha : a = k + span
    · subst ha
      rw [Function.update_self] at hu ⊢
      obtain ⟨h1, h2, h3⟩ := hb1 i u hu
      exact ⟨k, by rw [Function.update_of_ne h1, h2], rfl, h3⟩
    · rw [Function.update_of_ne ha] at hu ⊢
      obtain ⟨h1, h2⟩ := hother a i u ha hu
      obtain ⟨k', h3, h4, h5⟩ := h.mem _ _ _ hu
      exact ⟨k', by rw [Function.update_of_ne h1, h3], h4, by rw [hi1 u h1 h2, h5]⟩
  · intro u hu
    by_cases huv : u = v
    · subst huv; exact hi2
    · rw [Function.update_of_ne huv] at hu
      rw [hi1 u huv (by rw [hu]; simp)]; exact h.absent u hu
  · intro hne'
    rw [hcnt] at hne'
    have : ∃ u k', Function.update m v none u = some k' := by
      by_contra hc
      push Not at hc
      apply hne'
      rw [mcard_eq_zero (fun u k' hu => (h.dom u k' (hmap u k' hu).2).1)]
      intro u
      cases hu : Function.update m v none u with
      | none => rfl
      | some k' => exact absurd hu (hc u k')
    obtain ⟨u, k', hu⟩ := this
    obtain ⟨i, hi⟩ := hhas u k' hu
    have hbu : Function.update buckets (k + span) b' (k' + span) ≠ [] := by
      intro hc; rw [hc] at hi; simp at hi
    by_cases hc : b' = [] ∧ k + span = maxIdx
    · rw [if_pos hc] at hmax
      rw [hmax]
      refine l3 ⟨k' + span, ?_, hbu⟩
      by_contra hlt
      by_cases he : k' + span = k + span
      · rw [he, Function.update_self] at hbu; exact hbu hc.1
      · rw [Function.update_of_ne he] at hbu
        exact hbu (h.high _ (by omega))
    · rw [if_neg hc] at hmax
      rw [hmax]
      by_cases he : maxIdx = k + span
      · rw [he, Function.update_self]; intro hx; exact hc ⟨hx, he.symm⟩
      · rw [Function.update_of_ne he]; exact h.top hne
  · intro h0
    rw [hcnt, mcard_eq_zero (fun u k' hu => (h.dom u k' (hmap u k' hu).2).1)] at h0
    have hb' : b' = [] := by
      by_contra hc
      obtain ⟨x, hx⟩ := List.exists_mem_of_ne_nil _ hc
      obtain ⟨i, hi⟩ := List.mem_iff_getElem?.1 hx
      obtain ⟨h1, h2, _⟩ := hb1 i x hi
      have := h0 x
      rw [Function.update_of_ne h1, h2] at this; simp at this
    have hall : ∀ a, Function.update buckets (k + span) b' a = [] := by
      intro a
      by_cases ha : a = k + span
      · rw [ha, Function.update_self]; exact hb'
      · rw [Function.update_of_ne ha]
        by_contra hc
        obtain ⟨x, hx⟩ := List.exists_mem_of_ne_nil _ hc
        obtain ⟨i, hi⟩ := List.mem_iff_getElem?.1 hx
        obtain ⟨k', h1, h2, _⟩ := h.mem _ _ _ hi
        have hxv := (hother a i x ha hi).1
        have := h0 x
        rw [Function.update_of_ne hxv, h1] at this; simp at this
    have hmx : k + span = maxIdx := by
      by_contra hc
      have := h.top hne
      apply this
      have h2 := hall maxIdx
      rwa [Function.update_of_ne (by omega)] at h2
    rw [if_pos ⟨hb', hmx⟩] at hmax
    rw [hmax]
    have hz : ∀ i, lowerMax (Function.update buckets (k + span) b') i = 0 := by
      intro i
      induction i with
      | zero => rfl
      | succ i ih => unfold lowerMax; rw [hall i]; simpa using ih
    exact hz _

theorem init : BInv N span (fun _ => none) 0 0 (fun _ => (none, 0)) (fun _ => []) off := by
  refine ⟨by simp, by simp, by simp, by simp, ?_, by simp, by simp, by simp⟩
  symm
  rw [mcard_eq_zero (by simp)]; simp

end BInv

/-! ## LIFO queues -/

namespace BQ

/-- The queue state `s` of capacity `(N, span)` holds the map `m`. -/
def Rel (N span : Nat) (s : BQ) (m : Nat → Option Nat) : Prop :=
  s.span = span ∧ BInv N span m s.elements s.maxIdx s.index s.buckets (fun _ => 0)

theorem addr_eq {span k : Nat} (hs : 2 * span < 2 ^ 32) (hk : k ≤ span) : bqAddr span k = k + span := by
  unfold bqAddr; rw [Nat.mod_eq_of_lt (by omega)]

theorem rel_insert {N span : Nat} (hs : 2 * span < 2 ^ 32) {s : BQ} {m : Nat → Option Nat} (h : Rel N span s m)
    {v k : Nat} (hv : v < N) (hk : k ≤ span) (hm : m v = none) :
    Rel N span (s.insert v k) (Function.update m v (some k)) := by
  obtain ⟨h1, h2⟩ := h
  have := h2.push hv hk hm
  unfold insert
  simp only
  rw [h1, addr_eq hs hk]
  exact ⟨rfl, by simpa using this⟩

theorem upd_zero (a : Nat) : Function.update (fun _ : Nat => 0) a 0 = (fun _ => 0) := by
  funext x; by_cases h : x = a
  · subst h; simp
  · simp [h]

theorem rel_deleteNode {N span : Nat} (hs : 2 * span < 2 ^ 32) (hash : Bool) {s : BQ} {m : Nat → Option Nat}
    (h : Rel N span s m) {v k : Nat} (hm : m v = some k) :
    Rel N span (s.deleteNode hash v) (Function.update m v none) := by
  obtain ⟨h1, h2⟩ := h
  obtain ⟨i, hi, hbi⟩ := h2.idx hm
  have hkd := (h2.dom v k hm).2
  have her : ∀ e, (erased hash e).1 = none := by intro e; unfold erased; split <;> rfl
  unfold deleteNode
  simp only [hi, Nat.add_zero, Option.getD_some, h1, addr_eq hs hkd]
  obtain ⟨hilt, hbi'⟩ := List.getElem?_eq_some_iff.1 hbi
  by_cases hlen : (s.buckets (k + span)).length > 1
  · rw [if_pos hlen]
    refine ⟨rfl, ?_⟩
    simp only
    generalize hb : s.buckets (k + span) = b at *
    have hback : b[b.length - 1]? = some (b.getLastD 0) := by
      cases b with
      | nil => simp at hlen
      | cons x l => simp [List.getLastD_eq_getLast?, List.getLast?_eq_getElem?]
    generalize b.getLastD 0 = back at *
    have hmemB : ∀ j u : Nat, b[j]? = some u → m u = some k ∧ s.index u = (some j, k) := by
      intro j u hu
      rw [← hb] at hu
      obtain ⟨k', h3, h4, h5⟩ := h2.mem _ _ _ hu
      have : k' = k := by omega
      subst this
      exact ⟨h3, by simpa using h5⟩
    have hget : ∀ j u : Nat, (((b.set i back).set (b.length - 1) (b.getD i 0)).dropLast)[j]? = some u →
        j < b.length - 1 ∧ ((j = i ∧ u = back) ∨ (j ≠ i ∧ b[j]? = some u)) := by
      intro j u hu
      rw [List.getElem?_dropLast] at hu
      simp only [List.length_set] at hu
      split at hu
      · rename_i hj
        refine ⟨hj, ?_⟩
        rw [List.getElem?_set_ne (by omega)] at hu
        by_cases hji : j = i
        · left
          subst hji
          rw [List.getElem?_set_self (by omega)] at hu
          exact ⟨rfl, by simpa using hu.symm⟩
        · right
          rw [List.getElem?_set_ne (Ne.symm hji)] at hu
          exact ⟨hji, hu⟩
      · simp at hu
    have hinj : ∀ j u : Nat, b[j]? = some u → b[i]? = some u → j = i := by
      intro j u hu hv
      have e1 := (hmemB j u hu).2
      have e2 := (hmemB i u hv).2
      rw [e1] at e2; simpa using e2
    have hbackidx := hmemB _ _ hback
    have key := h2.remove (v := v) (k := k) hm
      (b' := ((b.set i back).set (b.length - 1) (b.getD i 0)).dropLast) (off' := 0)
      (index' := Function.update (Function.update s.index back (some i, (s.index back).2)) v
        (erased hash (Function.update s.index back (some i, (s.index back).2) v))) (maxIdx' := s.maxIdx)
      (by
        intro j u hu
        obtain ⟨hj, hc | hc⟩ := hget j u hu
        · obtain ⟨hji, rfl⟩ := hc
          have huv : u ≠ v := by
            rintro rfl
            have := hinj _ _ hback hbi
            omega
          refine ⟨huv, hbackidx.1, ?_⟩
          rw [Function.update_of_ne huv, Function.update_self, hbackidx.2, hji, Nat.add_zero]
        · obtain ⟨hji, hbj⟩ := hc
          have huv : u ≠ v := by
            rintro rfl
            exact hji (hinj _ _ hbj hbi)
          have hub : u ≠ back := by
            rintro rfl
            have e1 := (hmemB j u hbj).2
            have e2 := hbackidx.2
            rw [e1] at e2
            simp at e2
            omega
          refine ⟨huv, (hmemB _ _ hbj).1, ?_⟩
          rw [Function.update_of_ne huv, Function.update_of_ne hub]
          simpa using (hmemB _ _ hbj).2)
      (by
        intro u huv hu
        obtain ⟨j, hj, hbj⟩ := h2.idx hu
        rw [hb] at hbj
        have hjlt := (List.getElem?_eq_some_iff.1 hbj).1
        have hji : j ≠ i := by
          rintro rfl
          rw [hbi] at hbj
          simp at hbj
          exact huv hbj.symm
        by_cases hjl : j = b.length - 1
        · -- `u` was the back element and now sits at position `i`
          refine ⟨i, ?_⟩
          have hub : back = u := by
            rw [hjl, hback] at hbj; simpa using hbj
          rw [List.getElem?_dropLast]
          simp only [List.length_set]
          have hil : i < b.length - 1 := by omega
          rw [if_pos hil, List.getElem?_set_ne (by omega), List.getElem?_set_self hilt, hub]
        · refine ⟨j, ?_⟩
          rw [List.getElem?_dropLast]
          simp only [List.length_set]
          rw [if_pos (by omega), List.getElem?_set_ne (by omega), List.getElem?_set_ne (Ne.symm hji), hbj])
      (by
        intro u huv hu
        have hub : u ≠ back := by rintro rfl; exact hu hbackidx.1
        rw [Function.update_of_ne huv, Function.update_of_ne hub])
      (by rw [Function.update_self]; exact her _)
      (by
        have : ((b.set i back).set (b.length - 1) (b.getD i 0)).dropLast ≠ [] := by
          intro hc
          have := congrArg List.length hc
          simp at this
          omega
        rw [if_neg (fun hc => this hc.1)])
    rw [upd_zero] at key
    exact key
  · rw [if_neg hlen]
    refine ⟨rfl, ?_⟩
    simp only
    have hi0 : i = 0 := by omega
    have hb : s.buckets (k + span) = [v] := by
      have hl : (s.buckets (k + span)).length = 1 := by omega
      obtain ⟨x, hx⟩ := List.length_eq_one_iff.1 hl
      rw [hx] at hbi ⊢
      rw [hi0] at hbi
      simpa using hbi
    rw [hb]
    have key := h2.remove (v := v) (k := k) hm (b' := []) (off' := 0)
      (index' := Function.update s.index v (erased hash (s.index v)))
      (maxIdx' := if k + span = s.maxIdx then
        lowerMax (Function.update s.buckets (k + span) []) s.maxIdx else s.maxIdx)
      (by simp)
      (by
        intro u huv hu
        obtain ⟨j, hj, hbj⟩ := h2.idx hu
        rw [hb] at hbj
        rw [List.getElem?_singleton] at hbj
        split at hbj
        · cases hbj; exact absurd rfl huv
        · simp at hbj)
      (by intro u huv _; rw [Function.update_of_ne huv])
      (by rw [Function.update_self]; exact her _)
      (by simp)
    rw [upd_zero] at key
    rw [hi] at key
    simpa using key

theorem rel_deleteMax {N span : Nat} (hash : Bool) {s : BQ} {m : Nat → Option Nat}
    (h : Rel N span s m) (hne : s.elements ≠ 0) :
    IsMax m (s.deleteMax hash).1 (s.maxIdx - span) ∧
    (s.deleteMax hash).1 = (s.buckets s.maxIdx).getLastD 0 ∧
    Rel N span (s.deleteMax hash).2 (Function.update m (s.deleteMax hash).1 none) := by
  obtain ⟨h1, h2⟩ := h
  have her : ∀ e, (erased hash e).1 = none := by intro e; unfold erased; split <;> rfl
  have htop := h2.top hne
  unfold deleteMax
  simp only
  have hlast : (s.buckets s.maxIdx)[(s.buckets s.maxIdx).length - 1]?
      = some ((s.buckets s.maxIdx).getLastD 0) := by
    cases hb : s.buckets s.maxIdx with
    | nil => exact absurd hb htop
    | cons x l => simp [List.getLastD_eq_getLast?, List.getLast?_eq_getElem?]
  generalize hv : (s.buckets s.maxIdx).getLastD 0 = v at *
  obtain ⟨hmx, hsp⟩ := h2.max hlast
  refine ⟨hmx, trivial, h1, ?_⟩
  obtain ⟨k, hk, ha, hix⟩ := h2.mem _ _ _ hlast
  have hpos : 0 < (s.buckets s.maxIdx).length := List.length_pos_of_ne_nil htop
  have key := h2.remove (v := v) (k := k) hk (b' := (s.buckets s.maxIdx).dropLast) (off' := 0)
    (index' := Function.update s.index v (erased hash (s.index v)))
    (maxIdx' := if (s.buckets s.maxIdx).dropLast.length = 0 then
        lowerMax (Function.update s.buckets s.maxIdx (s.buckets s.maxIdx).dropLast) s.maxIdx else s.maxIdx)
    (by
      intro j u hu
      rw [List.getElem?_dropLast] at hu
      split at hu
      · rename_i hj
        obtain ⟨k', h3, h4, h5⟩ := h2.mem _ _ _ hu
        have : k' = k := by omega
        subst this
        have huv : u ≠ v := by
          rintro rfl
          have := h2.inj hu hlast
          omega
        exact ⟨huv, h3, by rw [Function.update_of_ne huv, h5]⟩
      · simp at hu)
    (by
      intro u huv hu
      obtain ⟨j, hj, hbj⟩ := h2.idx hu
      rw [← ha] at hbj
      refine ⟨j, ?_⟩
      rw [List.getElem?_dropLast, if_pos, hbj]
      have := (List.getElem?_eq_some_iff.1 hbj).1
      have hjne : j ≠ (s.buckets s.maxIdx).length - 1 := by
        rintro rfl
        rw [hlast] at hbj
        simp at hbj
        exact huv hbj.symm
      omega)
    (by intro u huv _; rw [Function.update_of_ne huv])
    (by rw [Function.update_self]; exact her _)
    (by rw [← ha]; simp only [List.length_eq_zero_iff, and_true])
  rw [upd_zero, ← ha] at key
  exact key

end BQ

/-! ## FIFO queue -/

namespace FQ

/-- The queue state `s` of capacity `(N, span)` holds the map `m`. -/
def Rel (N span : Nat) (s : FQ) (m : Nat → Option Nat) : Prop :=
  s.span = span ∧ BInv N span m s.elements s.maxIdx s.index s.buckets s.offset

theorem rel_insert {N span : Nat} (hs : 2 * span < 2 ^ 32) {s : FQ} {m : Nat → Option Nat} (h : Rel N span s m)
    {v k : Nat} (hv : v < N) (hk : k ≤ span) (hm : m v = none) :
    Rel N span (s.insert v k) (Function.update m v (some k)) := by
  obtain ⟨h1, h2⟩ := h
  have := h2.push hv hk hm
  unfold insert
  simp only
  rw [h1, BQ.addr_eq hs hk]
  exact ⟨rfl, this⟩

theorem rel_deleteNode {N span : Nat} (hs : 2 * span < 2 ^ 32) {s : FQ} {m : Nat → Option Nat}
    (h : Rel N span s m) {v k : Nat} (hm : m v = some k) :
    Rel N span (s.deleteNode v) (Function.update m v none) := by
  obtain ⟨h1, h2⟩ := h
  obtain ⟨i, hi, hbi⟩ := h2.idx hm
  have hkd := (h2.dom v k hm).2
  unfold deleteNode
  simp only [hi, Option.getD_some, h1, BQ.addr_eq hs hkd, Nat.add_sub_cancel]
  obtain ⟨hilt, hbi'⟩ := List.getElem?_eq_some_iff.1 hbi
  by_cases hlen : (s.buckets (k + span)).length > 1
  · rw [if_pos hlen]
    refine ⟨rfl, ?_⟩
    simp only
    generalize hb : s.buckets (k + span) = b at *
    have hfront : b[0]? = some (b.headD 0) := by
      cases b with
      | nil => simp at hlen
      | cons x l => simp
    generalize b.headD 0 = front at *
    have hmemB : ∀ j u : Nat, b[j]? = some u →
        m u = some k ∧ s.index u = (some (j + s.offset (k + span)), k) := by
      intro j u hu
      rw [← hb] at hu
      obtain ⟨k', h3, h4, h5⟩ := h2.mem _ _ _ hu
      have : k' = k := by omega
      subst this
      exact ⟨h3, h5⟩
    have hget : ∀ j u : Nat, (((b.set i front).set 0 (b.getD i 0)).tail)[j]? = some u →
        ((j + 1 = i ∧ u = front) ∨ (j + 1 ≠ i ∧ b[j + 1]? = some u)) := by
      intro j u hu
      rw [List.getElem?_tail, List.getElem?_set_ne (by omega)] at hu
      by_cases hji : j + 1 = i
      · left
        rw [hji, List.getElem?_set_self (by omega)] at hu
        exact ⟨hji, by simpa using hu.symm⟩
      · right
        rw [List.getElem?_set_ne (Ne.symm hji)] at hu
        exact ⟨hji, hu⟩
    have hinj : ∀ j j' u : Nat, b[j]? = some u → b[j']? = some u → j = j' := by
      intro j j' u hu hv
      have e1 := (hmemB j u hu).2
      have e2 := (hmemB j' u hv).2
      rw [e1] at e2
      simp at e2
      exact e2
    have hfi := hmemB _ _ hfront
    exact h2.remove (v := v) (k := k) hm
      (b' := ((b.set i front).set 0 (b.getD i 0)).tail) (off' := s.offset (k + span) + 1)
      (index' := Function.update (Function.update s.index front (some (i + s.offset (k + span)), (s.index front).2)) v
        (none, (Function.update s.index front (some (i + s.offset (k + span)), (s.index front).2) v).2))
      (maxIdx' := s.maxIdx)
      (by
        intro j u hu
        rcases hget j u hu with hc | hc
        · obtain ⟨hji, rfl⟩ := hc
          have huv : u ≠ v := by
            rintro rfl
            have := hinj _ _ _ hfront hbi
            omega
          refine ⟨huv, hfi.1, ?_⟩
          rw [Function.update_of_ne huv, Function.update_self, hfi.2, ← hji]
          simp only
          congr 2; omega
        · obtain ⟨hji, hbj⟩ := hc
          have huv : u ≠ v := by
            rintro rfl
            exact hji (hinj _ _ _ hbj hbi)
          have hub : u ≠ front := by
            rintro rfl
            have := hinj _ _ _ hbj hfront
            omega
          refine ⟨huv, (hmemB _ _ hbj).1, ?_⟩
          rw [Function.update_of_ne huv, Function.update_of_ne hub, (hmemB _ _ hbj).2]
          congr 2; omega)
      (by
        intro u huv hu
        obtain ⟨j, hj, hbj⟩ := h2.idx hu
        rw [hb] at hbj
        have hji : j ≠ i := by
          rintro rfl
          rw [hbi] at hbj
          simp at hbj
          exact huv hbj.symm
        by_cases hj0 : j = 0
        · have hub : front = u := by
            rw [hj0, hfront] at hbj; simpa using hbj
          refine ⟨i - 1, ?_⟩
          rw [List.getElem?_tail, List.getElem?_set_ne (by omega)]
          have : i - 1 + 1 = i := by omega
          rw [this, List.getElem?_set_self hilt, hub]
        · refine ⟨j - 1, ?_⟩
          have : j - 1 + 1 = j := by omega
          rw [List.getElem?_tail, this, List.getElem?_set_ne (by omega), List.getElem?_set_ne (Ne.symm hji), hbj])
      (by
        intro u huv hu
        have hub : u ≠ front := by rintro rfl; exact hu hfi.1
        rw [Function.update_of_ne huv, Function.update_of_ne hub])
      (by rw [Function.update_self])
      (by
        have : ((b.set i front).set 0 (b.getD i 0)).tail ≠ [] := by
          intro hc
          have := congrArg List.length hc
          simp at this
          omega
        rw [if_neg (fun hc => this hc.1)])
  · rw [if_neg hlen]
    refine ⟨rfl, ?_⟩
    simp only
    have hi0 : i = 0 := by omega
    have hb : s.buckets (k + span) = [v] := by
      have hl : (s.buckets (k + span)).length = 1 := by omega
      obtain ⟨x, hx⟩ := List.length_eq_one_iff.1 hl
      rw [hx] at hbi ⊢
      rw [hi0] at hbi
      simpa using hbi
    rw [hb]
    exact h2.remove (v := v) (k := k) hm (b' := []) (off' := s.offset (k + span) + 1)
      (index' := Function.update s.index v (none, k))
      (maxIdx' := if k + span = s.maxIdx then
        lowerMax (Function.update s.buckets (k + span) []) s.maxIdx else s.maxIdx)
      (by simp)
      (by
        intro u huv hu
        obtain ⟨j, hj, hbj⟩ := h2.idx hu
        rw [hb] at hbj
        rw [List.getElem?_singleton] at hbj
        split at hbj
        · cases hbj; exact absurd rfl huv
        · simp at hbj)
      (by intro u huv _; rw [Function.update_of_ne huv])
      (by rw [Function.update_self])
      (by simp)

theorem rel_deleteMax {N span : Nat} {s : FQ} {m : Nat → Option Nat}
    (h : Rel N span s m) (hne : s.elements ≠ 0) :
    IsMax m s.deleteMax.1 (s.maxIdx - span) ∧
    s.deleteMax.1 = (s.buckets s.maxIdx).headD 0 ∧
    Rel N span s.deleteMax.2 (Function.update m s.deleteMax.1 none) := by
  obtain ⟨h1, h2⟩ := h
  have htop := h2.top hne
  unfold deleteMax
  simp only
  have hfirst : (s.buckets s.maxIdx)[0]? = some ((s.buckets s.maxIdx).headD 0) := by
    cases hb : s.buckets s.maxIdx with
    | nil => exact absurd hb htop
    | cons x l => simp
  generalize hv : (s.buckets s.maxIdx).headD 0 = v at *
  obtain ⟨hmx, hsp⟩ := h2.max hfirst
  refine ⟨hmx, trivial, h1, ?_⟩
  obtain ⟨k, hk, ha, hix⟩ := h2.mem _ _ _ hfirst
  have hpos : 0 < (s.buckets s.maxIdx).length := List.length_pos_of_ne_nil htop
  have key := h2.remove (v := v) (k := k) hk (b' := (s.buckets s.maxIdx).tail)
    (off' := s.offset s.maxIdx + 1)
    (index' := Function.update s.index v (none, (s.index v).2))
    (maxIdx' := if (s.buckets s.maxIdx).tail.length = 0 then
        lowerMax (Function.update s.buckets s.maxIdx (s.buckets s.maxIdx).tail) s.maxIdx else s.maxIdx)
    (by
      intro j u hu
      rw [List.getElem?_tail] at hu
      obtain ⟨k', h3, h4, h5⟩ := h2.mem _ _ _ hu
      have : k' = k := by omega
      subst this
      have huv : u ≠ v := by
        rintro rfl
        have := h2.inj hu hfirst
        omega
      refine ⟨huv, h3, ?_⟩
      rw [Function.update_of_ne huv, h5]
      congr 2; omega)
    (by
      intro u huv hu
      obtain ⟨j, hj, hbj⟩ := h2.idx hu
      rw [← ha] at hbj
      have hjne : j ≠ 0 := by
        rintro rfl
        rw [hfirst] at hbj
        simp at hbj
        exact huv hbj.symm
      refine ⟨j - 1, ?_⟩
      have : j - 1 + 1 = j := by omega
      rw [List.getElem?_tail, this, hbj])
    (by intro u huv _; rw [Function.update_of_ne huv])
    (by rw [Function.update_self])
    (by rw [← ha]; simp only [List.length_eq_zero_iff, and_true])
  rw [← ha] at key
  exact key

end FQ

/-! ## From step lemmas to histories -/

/-- The proof obligations for one queue class. -/
structure PQSim (P : PQClass) (N K : Nat) (Rel : P.σ → (Nat → Option Nat) → Prop) : Prop where
  init : Rel P.init (fun _ => none)
  insert : ∀ s m v k, Rel s m → v < N → k ≤ K → m v = none →
    Rel (P.insert s v k) (Function.update m v (some k))
  increaseKey : ∀ s m v k k0, Rel s m → m v = some k0 → k0 ≤ k → k ≤ K →
    Rel (P.increaseKey s v k) (Function.update m v (some k))
  decreaseKey : ∀ s m v k k0, Rel s m → m v = some k0 → k ≤ k0 →
    Rel (P.decreaseKey s v k) (Function.update m v (some k))
  changeKey : ∀ s m v k k0, Rel s m → m v = some k0 → k ≤ K →
    Rel (P.changeKey s v k) (Function.update m v (some k))
  deleteNode : ∀ s m v k0, Rel s m → m v = some k0 →
    Rel (P.deleteNode s v) (Function.update m v none)
  deleteMax : ∀ s m v k0, Rel s m → m v = some k0 →
    Rel (P.deleteMax s).2 (Function.update m (P.deleteMax s).1 none)
  agrees : ∀ s m, Rel s m → Agrees P N s m

theorem PQSim.history {P : PQClass} {N K : Nat} {Rel : P.σ → (Nat → Option Nat) → Prop} (S : PQSim P N K Rel)
    {s : P.σ} {m : Nat → Option Nat} (h : History P N K s m) : Rel s m := by
  induction h with
  | init => exact S.init
  | insert v k _ h1 h2 h3 ih => exact S.insert _ _ v k ih h1 h2 h3
  | increaseKey v k k0 _ h1 h2 h3 ih => exact S.increaseKey _ _ v k k0 ih h1 h2 h3
  | decreaseKey v k k0 _ h1 h2 ih => exact S.decreaseKey _ _ v k k0 ih h1 h2
  | changeKey v k k0 _ h1 h2 ih => exact S.changeKey _ _ v k k0 ih h1 h2
  | deleteNode v k0 _ h1 ih => exact S.deleteNode _ _ v k0 ih h1
  | deleteMax v k0 _ h1 ih => exact S.deleteMax _ _ v k0 ih h1

/-- The part of the interface used by CAPFOREST. -/
def PQSim.lawful {P : PQClass} {N K : Nat} {Rel : P.σ → (Nat → Option Nat) → Prop} (S : PQSim P N K Rel) :
    PQ.Lawful P.toPQ N K where
  Rel := Rel
  init := S.init
  empty_iff s m h := (S.agrees s m h).empty
  insert s m v k h hv hk hm := S.insert s m v k h hv hk hm
  increaseKey s m v k k0 h _ hk hm hle := S.increaseKey s m v k k0 h hm hle hk
  deleteMax s m h he := by
    have ha := S.agrees s m h
    have hex : ∃ v k, m v = some k := by
      by_contra hc
      push Not at hc
      have : P.empty s = true := ha.empty.2 (fun v => by
        cases hv : m v with
        | none => rfl
        | some k => exact absurd hv (hc v k))
      rw [this] at he; simp at he
    obtain ⟨k, hk1, hk2⟩ := ha.deleteMax hex
    obtain ⟨v, k0, hv⟩ := hex
    exact ⟨k, hk1, hk2, S.deleteMax s m v k0 h hv⟩

theorem BQ.rel_changeKey {N span : Nat} (hs : 2 * span < 2 ^ 32) (hash : Bool) {s : BQ} {m : Nat → Option Nat}
    (h : Rel N span s m) {v k k0 : Nat} (hm : m v = some k0) (hk : k ≤ span) :
    Rel N span (s.changeKey hash v k) (Function.update m v (some k)) := by
  have h1 := rel_deleteNode hs hash h hm
  have := rel_insert hs h1 (h.2.dom v k0 hm).1 hk (Function.update_self ..)
  rwa [Function.update_idem] at this

theorem FQ.rel_changeKey {N span : Nat} (hs : 2 * span < 2 ^ 32) {s : FQ} {m : Nat → Option Nat}
    (h : Rel N span s m) {v k k0 : Nat} (hm : m v = some k0) (hk : k ≤ span) :
    Rel N span (s.changeKey v k) (Function.update m v (some k)) := by
  have h1 := rel_deleteNode hs h hm
  have := rel_insert hs h1 (h.2.dom v k0 hm).1 hk (Function.update_self ..)
  rwa [Function.update_idem] at this

theorem BInv.ne_zero {N span : Nat} {m : Nat → Option Nat} {elements maxIdx : Nat}
    {index : Nat → Option Nat × Nat} {buckets : Nat → List Nat} {off : Nat → Nat}
    (h : BInv N span m elements maxIdx index buckets off) {v k : Nat} (hv : m v = some k) : elements ≠ 0 := by
  intro h0
  rw [h.agrees_empty.1 h0 v] at hv; simp at hv

theorem BInv.contains {N span : Nat} {m : Nat → Option Nat} {elements maxIdx : Nat}
    {index : Nat → Option Nat × Nat} {buckets : Nat → List Nat} {off : Nat → Nat}
    (h : BInv N span m elements maxIdx index buckets off) (v : Nat) :
    ((index v).1 != none) = true ↔ ∃ k, m v = some k := by
  cases hv : m v with
  | none => simp [h.absent v hv]
  | some k =>
    obtain ⟨i, hi, _⟩ := h.idx hv
    simp [hi]

theorem BQ.sim {N span : Nat} (hs : 2 * span < 2 ^ 32) (hash : Bool) :
    PQSim (BQ.cls hash span) N span (BQ.Rel N span) where
  init := ⟨rfl, BInv.init⟩
  insert s m v k h hv hk hm := rel_insert hs h hv hk hm
  increaseKey s m v k k0 h hm _ hk := rel_changeKey hs hash h hm hk
  decreaseKey s m v k k0 h hm hle :=
    rel_changeKey hs hash h hm (le_trans hle (h.2.dom v k0 hm).2)
  changeKey s m v k k0 h hm hk := rel_changeKey hs hash h hm hk
  deleteNode s m v k0 h hm := rel_deleteNode hs hash h hm
  deleteMax s m v k0 h hm := (rel_deleteMax hash h (h.2.ne_zero hm)).2.2
  agrees s m h := by
    refine ⟨fun v k hv => (h.2.dom v k hv).1, h.2.cnt, ?_, h.2.contains, ?_, ?_, ?_⟩
    · simp only [BQ.cls, beq_iff_eq]; exact h.2.agrees_empty
    · intro v k hv
      obtain ⟨i, hi, _⟩ := h.2.idx hv
      simp only [BQ.cls, hi]
    · rintro ⟨v, k, hv⟩
      obtain ⟨h1, h2, _⟩ := rel_deleteMax hash h (h.2.ne_zero hv)
      simp only [BQ.cls]
      rw [h2] at h1
      rw [h.1]; exact h1
    · rintro ⟨v, k, hv⟩
      exact ⟨_, (rel_deleteMax hash h (h.2.ne_zero hv)).1⟩

theorem FQ.sim {N span : Nat} (hs : 2 * span < 2 ^ 32) :
    PQSim (FQ.cls span) N span (FQ.Rel N span) where
  init := ⟨rfl, BInv.init⟩
  insert s m v k h hv hk hm := rel_insert hs h hv hk hm
  increaseKey s m v k k0 h hm _ hk := rel_changeKey hs h hm hk
  decreaseKey s m v k k0 h hm hle :=
    rel_changeKey hs h hm (le_trans hle (h.2.dom v k0 hm).2)
  changeKey s m v k k0 h hm hk := rel_changeKey hs h hm hk
  deleteNode s m v k0 h hm := rel_deleteNode hs h hm
  deleteMax s m v k0 h hm := (rel_deleteMax h (h.2.ne_zero hm)).2.2
  agrees s m h := by
    refine ⟨fun v k hv => (h.2.dom v k hv).1, h.2.cnt, ?_, h.2.contains, ?_, ?_, ?_⟩
    · simp only [FQ.cls, beq_iff_eq]; exact h.2.agrees_empty
    · intro v k hv
      obtain ⟨i, hi, _⟩ := h.2.idx hv
      simp only [FQ.cls, hi]
    · rintro ⟨v, k, hv⟩
      obtain ⟨h1, h2, _⟩ := rel_deleteMax h (h.2.ne_zero hv)
      simp only [FQ.cls]
      rw [h2] at h1
      rw [h.1]; exact h1
    · rintro ⟨v, k, hv⟩
      exact ⟨_, (rel_deleteMax h (h.2.ne_zero hv)).1⟩

end VieCut
