import Verif.Spec.WorkQueue
import Mathlib.Algebra.BigOperators.Fin
import Mathlib.Algebra.BigOperators.Group.Finset.Basic
import Mathlib.Algebra.Order.BigOperators.Group.Finset
import Mathlib.Data.List.Count

/-! # Invariant of the work queue -/

namespace VieCut
open Function Finset

namespace WQ

/-- The queue whose mutex a thread holds. -/
def holdsPop : PC → Option Nat
  | .aHave _ q | .aLockS _ q | .aSet _ q | .aWeight _ q | .aFlag _ q | .aUnlock q => some q
  | .bSize _ q | .bTest _ q | .bLock _ q | .bHave _ q | .bRead _ q | .bPush _ q _ | .bSet _ q _ | .bWeight _ q | .bUnlock1 _ q
  | .bUnlock2 _ q _ | .bAdd _ q | .bUnlock q => some q
  | .pTest i _ | .pLockS i | .pHave i | .pWeight i | .pFlag i | .pTake i | .pNull i _ | .pUnlockS i _ | .eUnlockS i | .eUnlock i
  | .pSize i _ | .pUnlock i _ => some i
  | .rTest i _ | .rSize i _ | .rUnlock i => some i
  | _ => none

/-- Whether a thread holds the mutex of the slot. -/
def holdsSend : PC → Bool
  | .aSet .. | .aWeight .. | .aFlag .. | .aUnlock .. | .aUnlockS => true
  | .bHave .. | .bRead .. | .bPush .. | .bSet .. | .bWeight .. | .bUnlock1 .. | .bUnlock2 _ _ false => true
  | .pHave .. | .pWeight .. | .pFlag .. | .pTake .. | .pNull .. | .pUnlockS .. | .eUnlockS .. => true
  | _ => false

/-- Problems that only the thread knows. -/
def held : PC → List Prob
  | .aLock p _ | .aHave p _ | .aLockS p _ | .aSet p _ => [p]
  | .bSize p _ | .bTest p _ | .bLock p _ | .bHave p _ | .bRead p _ | .bPush p _ _ | .bSet p _ _ | .bUnlock2 p _ false
  | .bAdd p _ => [p]
  | .pUnlockS _ c | .pSize _ c | .pUnlock _ c => c.toList
  | _ => []

/-- Problems that are stored twice. -/
def dup : PC → List Prob
  | .bSet _ _ m => m.toList
  | _ => []

/-- Difference between the counter and the length of the queue. -/
def adj : PC → Nat
  | .bTest .. | .bLock .. | .bHave .. | .bRead .. | .bPush .. | .bUnlock2 _ _ false | .bAdd .. => 1
  | .pSize .. | .rSize .. => 1
  | _ => 0

/-- The slot as seen by the owner of its mutex. -/
def slotOK (send : Option Prob) (hv : Bool) : PC → Prop
  | .aWeight .. | .aFlag .. => hv = false ∧ send.isSome
  | .bRead .. | .bWeight .. | .pWeight .. | .pFlag .. => hv = true ∧ send.isSome
  | .bPush _ _ m | .bSet _ _ m => hv = true ∧ send = m ∧ m.isSome
  | .pTake .. => hv = false ∧ send.isSome
  | .pNull _ c => hv = false ∧ send = c ∧ c.isSome
  | .pUnlockS _ c => hv = false ∧ send = none ∧ c.isSome
  | _ => hv = send.isSome

/-- A thread that is about to return a problem has one. -/
def curOK : PC → Prop
  | .pSize _ c | .pUnlock _ c => c.isSome
  | _ => True

/-- Queue index of the current call. -/
def idx : PC → Option Nat
  | .aLock _ q => some q
  | .pLock i _ => some i
  | .rLock i _ => some i
  | p => holdsPop p

/-! ### Locks -/

def PopL (popM : Nat → Option Nat) (pc : Nat → PC) : Prop := ∀ i t, popM i = some t ↔ holdsPop (pc t) = some i

def SendL (sendM : Option Nat) (pc : Nat → PC) : Prop := ∀ t, sendM = some t ↔ holdsSend (pc t) = true

variable {popM : Nat → Option Nat} {sendM : Option Nat} {pc : Nat → PC} {t i : Nat} {p' : PC}

theorem PopL.same (h : PopL popM pc) (hh : holdsPop p' = holdsPop (pc t)) : PopL popM (update pc t p') := by
  intro j t'
  by_cases ht : t' = t
  · subst ht; rw [update_self, hh]; exact h j t'
  · rw [update_of_ne ht]; exact h j t'

theorem PopL.lock (h : PopL popM pc) (h0 : popM i = none) (h1 : holdsPop (pc t) = none) (h2 : holdsPop p' = some i) :
    PopL (update popM i (some t)) (update pc t p') := by
  intro j t'
  by_cases ht : t' = t
  · subst ht
    rw [update_self, h2]
    by_cases hj : j = i
    · subst hj; simp
    · rw [update_of_ne hj, h j t', h1]
      simp only [Option.some.injEq]
      constructor
      · intro hh; cases hh
      · intro hh; exact absurd hh.symm hj
  · rw [update_of_ne ht, ← h j t']
    by_cases hj : j = i
    · subst hj
      rw [update_self, h0]
      simp only [Option.some.injEq]
      constructor
      · intro hh; exact absurd hh.symm ht
      · intro hh; cases hh
    · rw [update_of_ne hj]

theorem PopL.unlock (h : PopL popM pc) (h1 : holdsPop (pc t) = some i) (h2 : holdsPop p' = none) :
    PopL (update popM i none) (update pc t p') := by
  intro j t'
  by_cases ht : t' = t
  · subst ht
    rw [update_self, h2]
    by_cases hj : j = i
    · subst hj; simp
    · rw [update_of_ne hj, h j t', h1]
      simp only [Option.some.injEq]
      constructor
      · intro hh; exact absurd hh.symm hj
      · intro hh; cases hh
  · rw [update_of_ne ht, ← h j t']
    by_cases hj : j = i
    · subst hj
      rw [update_self, (h j t).2 h1]
      simp only [Option.some.injEq]
      constructor
      · intro hh; cases hh
      · intro hh; exact absurd hh.symm ht
    · rw [update_of_ne hj]

theorem SendL.same (h : SendL sendM pc) (hh : holdsSend p' = holdsSend (pc t)) : SendL sendM (update pc t p') := by
  intro t'
  by_cases ht : t' = t
  · subst ht; rw [update_self, hh]; exact h t'
  · rw [update_of_ne ht]; exact h t'

theorem SendL.lock (h : SendL none pc) (h2 : holdsSend p' = true) : SendL (some t) (update pc t p') := by
  intro t'
  by_cases ht : t' = t
  · subst ht; rw [update_self, h2]; simp
  · rw [update_of_ne ht, ← h t']
    simp only [Option.some.injEq]
    constructor
    · intro hh; exact absurd hh.symm ht
    · intro hh; cases hh

theorem SendL.unlock (h : SendL sendM pc) (h1 : sendM = some t ∨ sendM = none) (h2 : holdsSend p' = false) :
    SendL none (update pc t p') := by
  intro t'
  by_cases ht : t' = t
  · subst ht; rw [update_self, h2]; simp
  · rw [update_of_ne ht, ← h t']
    rcases h1 with h1 | h1 <;> rw [h1]
    simp only [Option.some.injEq]
    constructor
    · intro hh; cases hh
    · intro hh; exact absurd hh.symm ht

/-! ### The slot -/

def Slot (sendM : Option Nat) (pc : Nat → PC) (send : Option Prob) (hv : Bool) : Prop :=
  (sendM = none → hv = send.isSome) ∧ ∀ t, sendM = some t → slotOK send hv (pc t)

variable {send send' : Option Prob} {hv hv' : Bool}

theorem Slot.other (h : Slot sendM pc send hv) (hL : SendL sendM pc) (h1 : holdsSend (pc t) = false) :
    Slot sendM (update pc t p') send hv := by
  refine ⟨h.1, fun t' ht' => ?_⟩
  by_cases ht : t' = t
  · subst ht; rw [(hL t').1 ht'] at h1; cases h1
  · rw [update_of_ne ht]; exact h.2 t' ht'

theorem Slot.own (hL : SendL sendM pc) (h1 : holdsSend (pc t) = true) (h2 : slotOK send' hv' p') :
    Slot sendM (update pc t p') send' hv' := by
  have hs := (hL t).2 h1
  refine ⟨fun h0 => (by rw [h0] at hs; cases hs), fun t' ht' => ?_⟩
  rw [hs] at ht'
  cases ht'
  rw [update_self]; exact h2

theorem Slot.lock (h2 : slotOK send' hv' p') : Slot (some t) (update pc t p') send' hv' := by
  refine ⟨fun h0 => (by cases h0), fun t' ht' => ?_⟩
  cases ht'
  rw [update_self]; exact h2

theorem Slot.unlock (h2 : hv' = send'.isSome) : Slot none (update pc t p') send' hv' :=
  ⟨fun _ => h2, fun _ h => by cases h⟩

theorem Slot.at (h : Slot sendM pc send hv) (hL : SendL sendM pc) (h1 : holdsSend (pc t) = true) : slotOK send hv (pc t) :=
  h.2 t ((hL t).2 h1)

/-! ### Sizes -/

def Sz (popM : Nat → Option Nat) (pc : Nat → PC) (size : Nat → Nat) (pq : Nat → List Prob) : Prop :=
  ∀ i, size i = (pq i).length + (match popM i with | some t => adj (pc t) | none => 0)

variable {size : Nat → Nat} {pq : Nat → List Prob}

theorem Sz.own (h : Sz popM pc size pq) (hP : PopL popM pc) (h1 : holdsPop (pc t) = some i) {z : Nat} {l : List Prob}
    (h2 : z = l.length + adj p') : Sz popM (update pc t p') (update size i z) (update pq i l) := by
  intro j
  have ho := (hP i t).2 h1
  by_cases hj : j = i
  · subst hj
    rw [update_self, update_self, ho]
    show z = l.length + adj (update pc t p' t)
    rw [update_self]; exact h2
  · rw [update_of_ne hj, update_of_ne hj, h j]
    cases hp : popM j with
    | none => rfl
    | some t' =>
      have : t' ≠ t := by
        rintro rfl
        rw [(hP j t').1 hp] at h1
        exact hj (Option.some.inj h1)
      show _ + adj (pc t') = _ + adj (update pc t p' t')
      rw [update_of_ne this]

theorem Sz.at (h : Sz popM pc size pq) (hP : PopL popM pc) (h1 : holdsPop (pc t) = some i) :
    size i = (pq i).length + adj (pc t) := by
  have := h i
  rw [(hP i t).2 h1] at this
  exact this

theorem Sz.own0 (h : Sz popM pc size pq) (hP : PopL popM pc) (h1 : holdsPop (pc t) = some i) (h2 : adj p' = adj (pc t)) :
    Sz popM (update pc t p') size pq := by
  have := h.own (p' := p') hP h1 (z := size i) (l := pq i) (by rw [h2]; exact h.at hP h1)
  rwa [update_eq_self, update_eq_self] at this

theorem Sz.ownSize (h : Sz popM pc size pq) (hP : PopL popM pc) (h1 : holdsPop (pc t) = some i) {z : Nat}
    (h2 : z = (pq i).length + adj p') : Sz popM (update pc t p') (update size i z) pq := by
  have := h.own (p' := p') hP h1 (z := z) (l := pq i) h2
  rwa [update_eq_self] at this

theorem Sz.ownPq (h : Sz popM pc size pq) (hP : PopL popM pc) (h1 : holdsPop (pc t) = some i) {l : List Prob}
    (h2 : (pq i).length + adj (pc t) = l.length + adj p') : Sz popM (update pc t p') size (update pq i l) := by
  have := h.own (p' := p') hP h1 (z := size i) (l := l) (by rw [h.at hP h1]; exact h2)
  rwa [update_eq_self] at this

theorem Sz.free (h : Sz popM pc size pq) (hP : PopL popM pc) (h1 : holdsPop (pc t) = none) :
    Sz popM (update pc t p') size pq := by
  intro j
  rw [h j]
  cases hp : popM j with
  | none => rfl
  | some t' =>
    have : t' ≠ t := by
      rintro rfl
      rw [(hP j t').1 hp] at h1
      cases h1
    show _ + adj (pc t') = _ + adj (update pc t p' t')
    rw [update_of_ne this]

theorem Sz.lock (h : Sz popM pc size pq) (hP : PopL popM pc) (h0 : popM i = none) (h1 : holdsPop (pc t) = none) (h2 : adj p' = 0) :
    Sz (update popM i (some t)) (update pc t p') size pq := by
  intro j
  by_cases hj : j = i
  · subst hj
    rw [h j, h0, update_self]
    show _ + 0 = _ + adj (update pc t p' t)
    rw [update_self, h2]
  · rw [update_of_ne hj]
    exact h.free hP h1 j

theorem Sz.unlock (h : Sz popM pc size pq) (hP : PopL popM pc) (h1 : holdsPop (pc t) = some i) (h2 : adj (pc t) = 0) :
    Sz (update popM i none) (update pc t p') size pq := by
  intro j
  by_cases hj : j = i
  · subst hj
    rw [h.at hP h1, h2, update_self]
  · rw [update_of_ne hj, h j]
    cases hp : popM j with
    | none => rfl
    | some t' =>
      have : t' ≠ t := by
        rintro rfl
        rw [(hP j t').1 hp] at h1
        exact hj (Option.some.inj h1)
      show _ + adj (pc t') = _ + adj (update pc t p' t')
      rw [update_of_ne this]

/-! ### Conservation -/

def Cnt (n : Nat) (x : Prob) (pc : Nat → PC) (pq : Nat → List Prob) (send : Option Prob) (added pulled : List Prob)
    (disc : List (Prob × Nat)) : Prop :=
  added.count x + ∑ t ∈ range n, (dup (pc t)).count x =
    ∑ i ∈ range n, (pq i).count x + send.toList.count x + ∑ t ∈ range n, (held (pc t)).count x + pulled.count x +
      (disc.map Prod.fst).count x

theorem sum_update {α : Type} (n : Nat) (g : Nat → α) (f : α → Nat) {i : Nat} (hi : i < n) (v : α) :
    (∑ j ∈ range n, f (update g i v j)) + f (g i) = (∑ j ∈ range n, f (g j)) + f v := by
  have hm : i ∈ range n := mem_range.2 hi
  rw [← Finset.add_sum_erase _ _ hm, ← Finset.add_sum_erase (range n) (fun j => f (g j)) hm, update_self]
  have : ∑ j ∈ (range n).erase i, f (update g i v j) = ∑ j ∈ (range n).erase i, f (g j) :=
    Finset.sum_congr rfl fun j hj => by rw [update_of_ne (Finset.ne_of_mem_erase hj)]
  rw [this]
  omega

theorem count_cons' (x a : Prob) (l : List Prob) : (a :: l).count x = [a].count x + l.count x := by
  rw [← List.singleton_append, List.count_append]

theorem Cnt.step {n : Nat} {x : Prob} {added pulled added' pulled' : List Prob} {disc disc' : List (Prob × Nat)}
    (h : Cnt n x pc pq send added pulled disc) (ht : t < n) (hi : i < n) {l' : List Prob}
    (hloc : added'.count x + (dup p').count x + ((pq i).count x + send.toList.count x + (held (pc t)).count x + pulled.count x +
        (disc.map Prod.fst).count x) =
      added.count x + (dup (pc t)).count x + (l'.count x + send'.toList.count x + (held p').count x + pulled'.count x +
        (disc'.map Prod.fst).count x)) :
    Cnt n x (update pc t p') (update pq i l') send' added' pulled' disc' := by
  unfold Cnt at *
  have h1 := sum_update n pc (fun p => (dup p).count x) ht p'
  have h2 := sum_update n pc (fun p => (held p).count x) ht p'
  have h3 := sum_update n pq (fun l => l.count x) hi l'
  omega

theorem Cnt.step0 {n : Nat} {x : Prob} {added pulled added' pulled' : List Prob} {disc disc' : List (Prob × Nat)}
    (h : Cnt n x pc pq send added pulled disc) (ht : t < n)
    (hloc : added'.count x + (dup p').count x + (send.toList.count x + (held (pc t)).count x + pulled.count x +
        (disc.map Prod.fst).count x) =
      added.count x + (dup (pc t)).count x + (send'.toList.count x + (held p').count x + pulled'.count x +
        (disc'.map Prod.fst).count x)) :
    Cnt n x (update pc t p') pq send' added' pulled' disc' := by
  have := h.step (p' := p') (l' := pq t) (send' := send') (added' := added') (pulled' := pulled') (disc' := disc') ht ht (by omega)
  rwa [update_eq_self] at this

theorem Cnt.pcOnly {n : Nat} {x : Prob} {added pulled : List Prob} {disc : List (Prob × Nat)}
    (h : Cnt n x pc pq send added pulled disc) (ht : t < n) (h1 : held p' = held (pc t)) (h2 : dup p' = dup (pc t)) :
    Cnt n x (update pc t p') pq send added pulled disc :=
  h.step0 ht (by rw [h1, h2])

theorem count_eraseIdx (x : Prob) (l : List Prob) (k : Nat) (hk : k < l.length) :
    (l.eraseIdx k).count x + [l[k]].count x = l.count x := by
  have h1 := (List.getElem_cons_eraseIdx_perm hk).count_eq x
  have h2 := count_cons' x l[k] (l.eraseIdx k)
  omega

/-! ### The invariant -/

structure Inv (n : Nat) (s : St) : Prop where
  pop : PopL s.popM s.pc
  sen : SendL s.sendM s.pc
  slot : Slot s.sendM s.pc s.send s.have_
  sz : Sz s.popM s.pc s.size s.pq
  cur : ∀ t, curOK (s.pc t)
  cnt : ∀ x, Cnt n x s.pc s.pq s.send s.added s.pulled s.discarded
  disc : ∀ e ∈ s.discarded, e.2 ≤ e.1.lower
  idx : ∀ t i, idx (s.pc t) = some i → i < n
  thr : ∀ t, n ≤ t → s.pc t = .idle
  prog : Proper n s.prog
  run : s.exited = false

theorem Inv.start {n : Nat} {prog : Nat → List Op} (h : Proper n prog) : Inv n (start prog) := by
  refine ⟨fun i t => by simp [WQ.start, holdsPop], fun t => by simp [WQ.start, holdsSend], ⟨fun _ => rfl, fun t ht => by cases ht⟩,
    fun i => by simp [WQ.start], fun t => trivial, fun x => ?_, by simp [WQ.start], fun t i hi => by simp [WQ.start, WQ.idx, holdsPop] at hi,
    fun _ _ => rfl, h, rfl⟩
  simp [Cnt, WQ.start, dup, held]

theorem cur_update (h : ∀ t, curOK (pc t)) (hp : curOK p') : ∀ t', curOK (update pc t p' t') := by
  intro t'
  by_cases ht : t' = t
  · subst ht; rw [update_self]; exact hp
  · rw [update_of_ne ht]; exact h t'

theorem idx_update {n : Nat} (h : ∀ t i, idx (pc t) = some i → i < n) (hp : ∀ i, idx p' = some i → i < n) :
    ∀ t' i, idx (update pc t p' t') = some i → i < n := by
  intro t'
  by_cases ht : t' = t
  · subst ht; rw [update_self]; exact hp
  · rw [update_of_ne ht]; exact h t'

theorem thr_update {n : Nat} (h : ∀ t, n ≤ t → pc t = .idle) (ht : t < n) : ∀ t', n ≤ t' → update pc t p' t' = .idle := by
  intro t' h'
  rw [update_of_ne (by omega)]; exact h t' h'

theorem Inv.keep {n : Nat} {s : St} (h : Inv n s) (ht : t < n) {p' : PC} {pq' : Nat → List Prob} {size' : Nat → Nat}
    {send' : Option Prob} {hv' : Bool} {weight' : Nat} {pulled' : List Prob} {disc' : List (Prob × Nat)}
    (h1 : holdsPop p' = holdsPop (s.pc t)) (h2 : holdsSend p' = holdsSend (s.pc t))
    (hslot : Slot s.sendM (update s.pc t p') send' hv') (hsz : Sz s.popM (update s.pc t p') size' pq') (hcur : curOK p')
    (hcnt : ∀ x, Cnt n x (update s.pc t p') pq' send' s.added pulled' disc') (hdisc : ∀ e ∈ disc', e.2 ≤ e.1.lower)
    (hidx : WQ.idx p' = WQ.idx (s.pc t)) :
    Inv n (St.goto { s with pq := pq', size := size', send := send', have_ := hv', weight := weight', pulled := pulled',
                            discarded := disc' } t p') :=
  ⟨h.pop.same h1, h.sen.same h2, hslot, hsz, cur_update h.cur hcur, hcnt, hdisc,
    idx_update h.idx fun i hi => h.idx t i (by rw [← hidx]; exact hi), thr_update h.thr ht, h.prog, h.run⟩

theorem Inv.lockPop {n : Nat} {s : St} (h : Inv n s) (ht : t < n) {i : Nat} {p' : PC} (h1 : holdsPop (s.pc t) = none)
    (h2 : holdsPop p' = some i) (h3 : holdsSend (s.pc t) = false) (h4 : holdsSend p' = false) (h5 : adj p' = 0) (h6 : curOK p')
    (h7 : held p' = held (s.pc t)) (h8 : dup p' = dup (s.pc t)) (h9 : WQ.idx p' = WQ.idx (s.pc t)) : Inv n (s.lockPop t i p') := by
  unfold St.lockPop
  cases h0 : s.popM i with
  | some _ => exact h
  | none =>
    exact ⟨h.pop.lock h0 h1 h2, h.sen.same (by rw [h3, h4]), h.slot.other h.sen h3, h.sz.lock h.pop h0 h1 h5,
      cur_update h.cur h6, fun x => (h.cnt x).pcOnly ht h7 h8, h.disc,
      idx_update h.idx fun i hi => h.idx t i (by rw [← h9]; exact hi), thr_update h.thr ht, h.prog, h.run⟩

theorem Inv.lockSend {n : Nat} {s : St} (h : Inv n s) (ht : t < n) {i : Nat} {p' : PC} (h1 : holdsPop (s.pc t) = some i)
    (h2 : holdsPop p' = some i) (h4 : holdsSend p' = true) (hs : ∀ o hv, hv = o.isSome → slotOK o hv p')
    (h5 : adj p' = adj (s.pc t)) (h6 : curOK p')
    (h7 : held p' = held (s.pc t)) (h8 : dup p' = dup (s.pc t)) (h9 : WQ.idx p' = WQ.idx (s.pc t)) : Inv n (s.lockSend t p') := by
  unfold St.lockSend
  cases h0 : s.sendM with
  | some _ => exact h
  | none =>
    have hL := h.sen
    rw [h0] at hL
    exact ⟨h.pop.same (by rw [h1, h2]), hL.lock h4, Slot.lock (hs _ _ (h.slot.1 h0)), h.sz.own0 h.pop h1 h5,
      cur_update h.cur h6, fun x => (h.cnt x).pcOnly ht h7 h8, h.disc,
      idx_update h.idx fun i hi => h.idx t i (by rw [← h9]; exact hi), thr_update h.thr ht, h.prog, h.run⟩

theorem Inv.unlockPop {n : Nat} {s : St} (h : Inv n s) (ht : t < n) {i : Nat} {p' : PC} {pulled' : List Prob}
    (h1 : holdsPop (s.pc t) = some i)
    (h2 : holdsPop p' = none) (h4 : holdsSend p' = holdsSend (s.pc t)) (hslot : Slot s.sendM (update s.pc t p') s.send s.have_)
    (h5 : adj (s.pc t) = 0) (h6 : curOK p')
    (h7 : ∀ x, Cnt n x (update s.pc t p') s.pq s.send s.added pulled' s.discarded) (h9 : WQ.idx p' = none) :
    Inv n ({ s with pulled := pulled' }.unlockPop t i p') :=
  ⟨h.pop.unlock h1 h2, h.sen.same h4, hslot, h.sz.unlock h.pop h1 h5, cur_update h.cur h6, h7, h.disc,
    idx_update h.idx fun i hi => (by rw [h9] at hi; cases hi), thr_update h.thr ht, h.prog, h.run⟩

theorem Inv.unlockSend {n : Nat} {s : St} (h : Inv n s) (ht : t < n) {p' : PC} (h1 : holdsPop p' = holdsPop (s.pc t))
    (h0 : s.sendM = some t ∨ s.sendM = none) (h4 : holdsSend p' = false) (hs : s.have_ = s.send.isSome)
    (hsz : Sz s.popM (update s.pc t p') s.size s.pq) (h6 : curOK p')
    (h7 : held p' = held (s.pc t)) (h8 : dup p' = dup (s.pc t)) (h9 : ∀ i, WQ.idx p' = some i → WQ.idx (s.pc t) = some i) :
    Inv n (s.unlockSend t p') :=
  ⟨h.pop.same h1, h.sen.unlock h0 h4, Slot.unlock hs, hsz, cur_update h.cur h6, fun x => (h.cnt x).pcOnly ht h7 h8, h.disc,
    idx_update h.idx fun i hi => h.idx t i (h9 i hi), thr_update h.thr ht, h.prog, h.run⟩

theorem Inv.begin {n : Nat} {s : St} (h : Inv n s) (ht : t < n) {o : Op} {rest : List Op} (hp : s.prog t = o :: rest)
    (hpc : s.pc t = .idle) : Inv n (s.begin t o rest) := by
  have hpr : Proper n (update s.prog t rest) := by
    refine ⟨fun t' ht' => ?_, fun t' o' ho' => ?_⟩
    · rw [update_of_ne (by omega)]; exact h.prog.1 t' ht'
    · by_cases htt : t' = t
      · subst htt
        rw [update_self] at ho'
        exact h.prog.2 t' o' (by rw [hp]; exact List.mem_cons_of_mem _ ho')
      · rw [update_of_ne htt] at ho'; exact h.prog.2 t' o' ho'
  have hpi := h.prog.2 t o (by rw [hp]; simp)
  cases o with
  | add p q =>
    refine ⟨h.pop.same (by rw [hpc]; rfl), h.sen.same (by rw [hpc]; rfl), h.slot.other h.sen (by rw [hpc]; rfl),
      h.sz.free h.pop (by rw [hpc]; rfl), cur_update h.cur trivial, fun x => (h.cnt x).step0 ht ?_, h.disc,
      idx_update h.idx fun i hi => ?_, thr_update h.thr ht, hpr, h.run⟩
    · rw [hpc]
      show (p :: s.added).count x + 0 + (s.send.toList.count x + 0 + s.pulled.count x + (s.discarded.map Prod.fst).count x) =
        s.added.count x + 0 + (s.send.toList.count x + [p].count x + s.pulled.count x + (s.discarded.map Prod.fst).count x)
      rw [count_cons']
      omega
    · cases hi; exact hpi
  | pull i b =>
    refine ⟨h.pop.same (by rw [hpc]; rfl), h.sen.same (by rw [hpc]; rfl), h.slot.other h.sen (by rw [hpc]; rfl),
      h.sz.free h.pop (by rw [hpc]; rfl), cur_update h.cur trivial, fun x => (h.cnt x).pcOnly ht (by rw [hpc]; rfl) (by rw [hpc]; rfl), h.disc,
      idx_update h.idx fun i hi => ?_, thr_update h.thr ht, hpr, h.run⟩
    cases hi; exact hpi
  | prepare i b =>
    refine ⟨h.pop.same (by rw [hpc]; rfl), h.sen.same (by rw [hpc]; rfl), h.slot.other h.sen (by rw [hpc]; rfl),
      h.sz.free h.pop (by rw [hpc]; rfl), cur_update h.cur trivial, fun x => (h.cnt x).pcOnly ht (by rw [hpc]; rfl) (by rw [hpc]; rfl), h.disc,
      idx_update h.idx fun i hi => ?_, thr_update h.thr ht, hpr, h.run⟩
    cases hi; exact hpi

theorem Inv.step {n : Nat} {s : St} {top : List Prob → Nat} (htop : Picks top) (h : Inv n s) (t : Nat)
    (hag : ∀ p q, s.pc t = .aSet p q → s.have_ = false) (hfu : ∀ p q, s.pc t = .bUnlock2 p q true → s.sendM = none) :
    Inv n (step top s t) := by
  unfold WQ.step
  rw [if_neg (by rw [h.run]; simp)]
  by_cases ht : n ≤ t
  · rw [h.thr t ht, h.prog.1 t ht]; exact h
  replace ht : t < n := by omega
  cases hpc : s.pc t with
  | idle =>
    cases hp : s.prog t with
    | nil => exact h
    | cons o rest => exact h.begin ht hp hpc
  | aLock p q =>
    dsimp only
    exact h.lockPop ht (by rw [hpc]; rfl) rfl (by rw [hpc]; rfl) rfl rfl trivial (by rw [hpc]; rfl) (by rw [hpc]; rfl) (by rw [hpc]; rfl)
  | aHave p q =>
    dsimp only
    refine h.keep ht ?_ ?_ (h.slot.other h.sen (by rw [hpc]; rfl)) (h.sz.own0 h.pop (by rw [hpc]; rfl) ?_) ?_
      (fun x => (h.cnt x).pcOnly ht ?_ ?_) h.disc ?_ <;> (first | rw [hpc] | skip) <;> split <;> first | rfl | trivial
  | aLockS p q =>
    dsimp only
    exact h.lockSend ht (i := q) (by rw [hpc]; rfl) rfl rfl (fun _ _ h => h) (by rw [hpc]; rfl) trivial (by rw [hpc]; rfl) (by rw [hpc]; rfl) (by rw [hpc]; rfl)
  | aSet p q =>
    dsimp only
    have hs : s.have_ = s.send.isSome := by have := h.slot.at h.sen (t := t) (by rw [hpc]; rfl); rw [hpc] at this; exact this
    have hv := hag p q hpc
    have hn : s.send = none := by
      rw [hv] at hs
      cases hc : s.send with
      | none => rfl
      | some _ => rw [hc] at hs; cases hs
    refine h.keep ht (by rw [hpc]; rfl) (by rw [hpc]; rfl) (Slot.own h.sen (by rw [hpc]; rfl) ⟨hv, rfl⟩)
      (h.sz.own0 h.pop (i := q) (by rw [hpc]; rfl) (by rw [hpc]; rfl)) trivial
      (fun x => (h.cnt x).step0 ht ?_) h.disc (by rw [hpc]; rfl)
    rw [hpc, hn]
    show _ + 0 + (0 + [p].count x + _ + _) = _ + 0 + ([p].count x + 0 + _ + _)
    omega
  | aWeight p q =>
    dsimp only
    have hs := h.slot.at h.sen (t := t) (by rw [hpc]; rfl)
    rw [hpc] at hs
    exact h.keep ht (by rw [hpc]; rfl) (by rw [hpc]; rfl) (Slot.own h.sen (by rw [hpc]; rfl) hs)
      (h.sz.own0 h.pop (i := q) (by rw [hpc]; rfl) (by rw [hpc]; rfl)) trivial
      (fun x => (h.cnt x).pcOnly ht (by rw [hpc]; rfl) (by rw [hpc]; rfl)) h.disc (by rw [hpc]; rfl)
  | aFlag p q =>
    dsimp only
    have hs := h.slot.at h.sen (t := t) (by rw [hpc]; rfl)
    rw [hpc] at hs
    exact h.keep ht (by rw [hpc]; rfl) (by rw [hpc]; rfl) (Slot.own h.sen (by rw [hpc]; rfl) hs.2.symm)
      (h.sz.own0 h.pop (i := q) (by rw [hpc]; rfl) (by rw [hpc]; rfl)) trivial
      (fun x => (h.cnt x).pcOnly ht (by rw [hpc]; rfl) (by rw [hpc]; rfl)) h.disc (by rw [hpc]; rfl)
  | aUnlock q =>
    dsimp only
    have hs := h.slot.at h.sen (t := t) (by rw [hpc]; rfl)
    rw [hpc] at hs
    exact h.unlockPop ht (by rw [hpc]; rfl) rfl (by rw [hpc]; rfl) (Slot.own h.sen (by rw [hpc]; rfl) hs) (by rw [hpc]; rfl) trivial
      (fun x => (h.cnt x).pcOnly ht (by rw [hpc]; rfl) (by rw [hpc]; rfl)) rfl
  | aUnlockS =>
    dsimp only
    have hs := h.slot.at h.sen (t := t) (by rw [hpc]; rfl)
    rw [hpc] at hs
    exact h.unlockSend ht (by rw [hpc]; rfl) (Or.inl ((h.sen t).2 (by rw [hpc]; rfl))) rfl hs (h.sz.free h.pop (by rw [hpc]; rfl)) trivial
      (by rw [hpc]; rfl) (by rw [hpc]; rfl) (fun i hi => by cases hi)
  | bSize p q =>
    dsimp only
    refine h.keep ht (by rw [hpc]; rfl) (by rw [hpc]; rfl) (h.slot.other h.sen (by rw [hpc]; rfl))
      (h.sz.ownSize h.pop (i := q) (by rw [hpc]; rfl) ?_) trivial
      (fun x => (h.cnt x).pcOnly ht (by rw [hpc]; rfl) (by rw [hpc]; rfl)) h.disc (by rw [hpc]; rfl)
    have := h.sz.at h.pop (t := t) (i := q) (by rw [hpc]; rfl)
    rw [hpc] at this
    rw [this]; rfl
  | bTest p q =>
    dsimp only
    refine h.keep ht ?_ ?_ (h.slot.other h.sen (by rw [hpc]; rfl)) (h.sz.own0 h.pop (by rw [hpc]; rfl) ?_) ?_
      (fun x => (h.cnt x).pcOnly ht ?_ ?_) h.disc ?_ <;> (first | rw [hpc] | skip) <;> split <;> first | rfl | trivial
  | bLock p q =>
    dsimp only
    exact h.lockSend ht (i := q) (by rw [hpc]; rfl) rfl rfl (fun _ _ h => h) (by rw [hpc]; rfl) trivial (by rw [hpc]; rfl) (by rw [hpc]; rfl) (by rw [hpc]; rfl)
  | bHave p q =>
    dsimp only
    have hs := h.slot.at h.sen (t := t) (by rw [hpc]; rfl)
    rw [hpc] at hs
    replace hs : s.have_ = s.send.isSome := hs
    refine h.keep ht ?_ ?_ (Slot.own h.sen (by rw [hpc]; rfl) ?_) (h.sz.own0 h.pop (i := q) (by rw [hpc]; rfl) ?_) ?_
      (fun x => (h.cnt x).pcOnly ht ?_ ?_) h.disc ?_ <;> (first | rw [hpc] | skip) <;> split <;> first | rfl | trivial | skip
    · next hv => exact ⟨hv, by rw [← hs]; exact hv⟩
  | bRead p q =>
    dsimp only
    have hs := h.slot.at h.sen (t := t) (by rw [hpc]; rfl)
    rw [hpc] at hs
    exact h.keep ht (by rw [hpc]; rfl) (by rw [hpc]; rfl) (Slot.own h.sen (by rw [hpc]; rfl) ⟨hs.1, rfl, hs.2⟩)
      (h.sz.own0 h.pop (i := q) (by rw [hpc]; rfl) (by rw [hpc]; rfl)) trivial
      (fun x => (h.cnt x).pcOnly ht (by rw [hpc]; rfl) (by rw [hpc]; rfl)) h.disc (by rw [hpc]; rfl)
  | bPush p q mcp =>
    dsimp only
    have hs := h.slot.at h.sen (t := t) (by rw [hpc]; rfl)
    rw [hpc] at hs
    have hq : q < n := h.idx t q (by rw [hpc]; rfl)
    obtain ⟨m, rfl⟩ := Option.isSome_iff_exists.1 hs.2.2
    refine h.keep ht (by rw [hpc]; rfl) (by rw [hpc]; rfl) (Slot.own h.sen (by rw [hpc]; rfl) hs)
      (h.sz.ownPq h.pop (i := q) (by rw [hpc]; rfl) ?_) trivial
      (fun x => (h.cnt x).step ht hq ?_) h.disc (by rw [hpc]; rfl)
    · rw [hpc]
      show (s.pq q).length + 1 = (m :: s.pq q).length + 0
      simp
    · rw [hpc]
      show _ + [m].count x + ((s.pq q).count x + _ + [p].count x + _ + _) = _ + 0 + ((m :: s.pq q).count x + _ + [p].count x + _ + _)
      rw [count_cons' x m (s.pq q)]
      omega
  | bSet p q mcp =>
    dsimp only
    have hs := h.slot.at h.sen (t := t) (by rw [hpc]; rfl)
    rw [hpc] at hs
    refine h.keep ht (by rw [hpc]; rfl) (by rw [hpc]; rfl) (Slot.own h.sen (by rw [hpc]; rfl) ⟨hs.1, rfl⟩)
      (h.sz.own0 h.pop (i := q) (by rw [hpc]; rfl) (by rw [hpc]; rfl)) trivial
      (fun x => (h.cnt x).step0 ht ?_) h.disc (by rw [hpc]; rfl)
    rw [hpc, hs.2.1]
    show _ + 0 + (mcp.toList.count x + [p].count x + _ + _) = _ + mcp.toList.count x + ([p].count x + 0 + _ + _)
    omega
  | bWeight p q =>
    dsimp only
    have hs := h.slot.at h.sen (t := t) (by rw [hpc]; rfl)
    rw [hpc] at hs
    exact h.keep ht (by rw [hpc]; rfl) (by rw [hpc]; rfl) (Slot.own h.sen (by rw [hpc]; rfl) (by rw [hs.1]; exact hs.2.symm))
      (h.sz.own0 h.pop (i := q) (by rw [hpc]; rfl) (by rw [hpc]; rfl)) trivial
      (fun x => (h.cnt x).pcOnly ht (by rw [hpc]; rfl) (by rw [hpc]; rfl)) h.disc (by rw [hpc]; rfl)
  | bUnlock1 p q =>
    dsimp only
    have hs := h.slot.at h.sen (t := t) (by rw [hpc]; rfl)
    rw [hpc] at hs
    exact h.unlockSend ht (by rw [hpc]; rfl) (Or.inl ((h.sen t).2 (by rw [hpc]; rfl))) rfl hs
      (h.sz.own0 h.pop (i := q) (by rw [hpc]; rfl) (by rw [hpc]; rfl)) trivial
      (by rw [hpc]; rfl) (by rw [hpc]; rfl) (fun i hi => by rw [hpc]; exact hi)
  | bUnlock2 p q moved =>
    dsimp only
    cases moved with
    | true =>
      have h0 := hfu p q hpc
      exact h.unlockSend ht (p' := .bUnlock q) (by rw [hpc]; rfl) (Or.inr h0) rfl (h.slot.1 h0)
        (h.sz.own0 h.pop (i := q) (by rw [hpc]; rfl) (by rw [hpc]; rfl)) trivial
        (by rw [hpc]; rfl) (by rw [hpc]; rfl) (fun i hi => by rw [hpc]; exact hi)
    | false =>
      have hs := h.slot.at h.sen (t := t) (by rw [hpc]; rfl)
      rw [hpc] at hs
      exact h.unlockSend ht (p' := .bAdd p q) (by rw [hpc]; rfl) (Or.inl ((h.sen t).2 (by rw [hpc]; rfl))) rfl hs
        (h.sz.own0 h.pop (i := q) (by rw [hpc]; rfl) (by rw [hpc]; rfl)) trivial
        (by rw [hpc]; rfl) (by rw [hpc]; rfl) (fun i hi => by rw [hpc]; exact hi)
  | bAdd p q =>
    dsimp only
    have hq : q < n := h.idx t q (by rw [hpc]; rfl)
    refine h.keep ht (by rw [hpc]; rfl) (by rw [hpc]; rfl) (h.slot.other h.sen (by rw [hpc]; rfl))
      (h.sz.ownPq h.pop (i := q) (by rw [hpc]; rfl) ?_) trivial
      (fun x => (h.cnt x).step ht hq ?_) h.disc (by rw [hpc]; rfl)
    · rw [hpc]
      show (s.pq q).length + 1 = (p :: s.pq q).length + 0
      simp
    · rw [hpc]
      show _ + 0 + ((s.pq q).count x + _ + [p].count x + _ + _) = _ + 0 + ((p :: s.pq q).count x + _ + 0 + _ + _)
      rw [count_cons' x p (s.pq q)]
      omega
  | bUnlock q =>
    dsimp only
    exact h.unlockPop ht (by rw [hpc]; rfl) rfl (by rw [hpc]; rfl) (h.slot.other h.sen (by rw [hpc]; rfl)) (by rw [hpc]; rfl) trivial
      (fun x => (h.cnt x).pcOnly ht (by rw [hpc]; rfl) (by rw [hpc]; rfl)) rfl
  | pLock i b =>
    dsimp only
    exact h.lockPop ht (by rw [hpc]; rfl) rfl (by rw [hpc]; rfl) rfl rfl trivial (by rw [hpc]; rfl) (by rw [hpc]; rfl) (by rw [hpc]; rfl)
  | pTest i b =>
    dsimp only
    have hi : i < n := h.idx t i (by rw [hpc]; rfl)
    split
    · exact h.keep ht (by rw [hpc]; rfl) (by rw [hpc]; rfl) (h.slot.other h.sen (by rw [hpc]; rfl))
        (h.sz.own0 h.pop (i := i) (by rw [hpc]; rfl) (by rw [hpc]; rfl)) trivial
        (fun x => (h.cnt x).pcOnly ht (by rw [hpc]; rfl) (by rw [hpc]; rfl)) h.disc (by rw [hpc]; rfl)
    · next hc =>
      have hne : s.pq i ≠ [] := by
        intro h0
        rw [h0] at hc
        simp at hc
      have hk := htop _ hne
      rw [List.getElem?_eq_getElem hk]
      refine h.keep ht (by rw [hpc]; rfl) (by rw [hpc]; rfl) (h.slot.other h.sen (by rw [hpc]; rfl))
        (h.sz.ownPq h.pop (i := i) (by rw [hpc]; rfl) ?_) rfl
        (fun x => (h.cnt x).step ht hi ?_) h.disc (by rw [hpc]; rfl)
      · rw [hpc, List.length_eraseIdx_of_lt hk]
        show _ + 0 = _ + 1
        omega
      · rw [hpc]
        have := count_eraseIdx x (s.pq i) _ hk
        show _ + 0 + ((s.pq i).count x + _ + 0 + _ + _) = _ + 0 + (((s.pq i).eraseIdx _).count x + _ + [(s.pq i)[top (s.pq i)]].count x + _ + _)
        omega
  | pLockS i =>
    dsimp only
    exact h.lockSend ht (i := i) (by rw [hpc]; rfl) rfl rfl (fun _ _ h => h) (by rw [hpc]; rfl) trivial (by rw [hpc]; rfl) (by rw [hpc]; rfl) (by rw [hpc]; rfl)
  | pHave i =>
    dsimp only
    have hs := h.slot.at h.sen (t := t) (by rw [hpc]; rfl)
    rw [hpc] at hs
    replace hs : s.have_ = s.send.isSome := hs
    refine h.keep ht ?_ ?_ (Slot.own h.sen (by rw [hpc]; rfl) ?_) (h.sz.own0 h.pop (i := i) (by rw [hpc]; rfl) ?_) ?_
      (fun x => (h.cnt x).pcOnly ht ?_ ?_) h.disc ?_ <;> (first | rw [hpc] | skip) <;> split <;> first | rfl | trivial | skip
    · next hv => exact ⟨hv, by rw [← hs]; exact hv⟩
  | pWeight i =>
    dsimp only
    have hs := h.slot.at h.sen (t := t) (by rw [hpc]; rfl)
    rw [hpc] at hs
    exact h.keep ht (by rw [hpc]; rfl) (by rw [hpc]; rfl) (Slot.own h.sen (by rw [hpc]; rfl) hs)
      (h.sz.own0 h.pop (i := i) (by rw [hpc]; rfl) (by rw [hpc]; rfl)) trivial
      (fun x => (h.cnt x).pcOnly ht (by rw [hpc]; rfl) (by rw [hpc]; rfl)) h.disc (by rw [hpc]; rfl)
  | pFlag i =>
    dsimp only
    have hs := h.slot.at h.sen (t := t) (by rw [hpc]; rfl)
    rw [hpc] at hs
    exact h.keep ht (by rw [hpc]; rfl) (by rw [hpc]; rfl) (Slot.own h.sen (by rw [hpc]; rfl) ⟨rfl, hs.2⟩)
      (h.sz.own0 h.pop (i := i) (by rw [hpc]; rfl) (by rw [hpc]; rfl)) trivial
      (fun x => (h.cnt x).pcOnly ht (by rw [hpc]; rfl) (by rw [hpc]; rfl)) h.disc (by rw [hpc]; rfl)
  | pTake i =>
    dsimp only
    have hs := h.slot.at h.sen (t := t) (by rw [hpc]; rfl)
    rw [hpc] at hs
    exact h.keep ht (by rw [hpc]; rfl) (by rw [hpc]; rfl) (Slot.own h.sen (by rw [hpc]; rfl) ⟨hs.1, rfl, hs.2⟩)
      (h.sz.own0 h.pop (i := i) (by rw [hpc]; rfl) (by rw [hpc]; rfl)) trivial
      (fun x => (h.cnt x).pcOnly ht (by rw [hpc]; rfl) (by rw [hpc]; rfl)) h.disc (by rw [hpc]; rfl)
  | pNull i cur =>
    dsimp only
    have hs := h.slot.at h.sen (t := t) (by rw [hpc]; rfl)
    rw [hpc] at hs
    refine h.keep ht (by rw [hpc]; rfl) (by rw [hpc]; rfl) (Slot.own h.sen (by rw [hpc]; rfl) ⟨hs.1, rfl, hs.2.2⟩)
      (h.sz.own0 h.pop (i := i) (by rw [hpc]; rfl) (by rw [hpc]; rfl)) trivial
      (fun x => (h.cnt x).step0 ht ?_) h.disc (by rw [hpc]; rfl)
    rw [hpc, hs.2.1]
    show _ + 0 + (cur.toList.count x + 0 + _ + _) = _ + 0 + (0 + cur.toList.count x + _ + _)
    omega
  | pUnlockS i cur =>
    dsimp only
    have hs := h.slot.at h.sen (t := t) (by rw [hpc]; rfl)
    rw [hpc] at hs
    exact h.unlockSend ht (by rw [hpc]; rfl) (Or.inl ((h.sen t).2 (by rw [hpc]; rfl))) rfl (by rw [hs.1, hs.2.1]; rfl)
      (h.sz.own0 h.pop (i := i) (by rw [hpc]; rfl) (by rw [hpc]; rfl)) hs.2.2
      (by rw [hpc]; rfl) (by rw [hpc]; rfl) (fun i hi => by rw [hpc]; exact hi)
  | eUnlockS i =>
    dsimp only
    have hs := h.slot.at h.sen (t := t) (by rw [hpc]; rfl)
    rw [hpc] at hs
    exact h.unlockSend ht (by rw [hpc]; rfl) (Or.inl ((h.sen t).2 (by rw [hpc]; rfl))) rfl hs
      (h.sz.own0 h.pop (i := i) (by rw [hpc]; rfl) (by rw [hpc]; rfl)) trivial
      (by rw [hpc]; rfl) (by rw [hpc]; rfl) (fun i hi => by rw [hpc]; exact hi)
  | eUnlock i =>
    dsimp only
    exact h.unlockPop ht (by rw [hpc]; rfl) rfl (by rw [hpc]; rfl) (h.slot.other h.sen (by rw [hpc]; rfl)) (by rw [hpc]; rfl) trivial
      (fun x => (h.cnt x).pcOnly ht (by rw [hpc]; rfl) (by rw [hpc]; rfl)) rfl
  | pSize i cur =>
    dsimp only
    have hc := h.cur t
    rw [hpc] at hc
    refine h.keep ht (by rw [hpc]; rfl) (by rw [hpc]; rfl) (h.slot.other h.sen (by rw [hpc]; rfl))
      (h.sz.ownSize h.pop (i := i) (by rw [hpc]; rfl) ?_) hc
      (fun x => (h.cnt x).pcOnly ht (by rw [hpc]; rfl) (by rw [hpc]; rfl)) h.disc (by rw [hpc]; rfl)
    have := h.sz.at h.pop (t := t) (i := i) (by rw [hpc]; rfl)
    rw [hpc] at this
    rw [this]; rfl
  | pUnlock i cur =>
    dsimp only
    have hc := h.cur t
    rw [hpc] at hc
    obtain ⟨p, rfl⟩ := Option.isSome_iff_exists.1 hc
    refine h.unlockPop ht (by rw [hpc]; rfl) rfl (by rw [hpc]; rfl) (h.slot.other h.sen (by rw [hpc]; rfl)) (by rw [hpc]; rfl) trivial
      (fun x => (h.cnt x).step0 ht ?_) rfl
    rw [hpc]
    show _ + 0 + (_ + [p].count x + s.pulled.count x + _) = _ + 0 + (_ + 0 + (p :: s.pulled).count x + _)
    rw [count_cons' x p s.pulled]
    omega
  | rLock i b =>
    dsimp only
    exact h.lockPop ht (by rw [hpc]; rfl) rfl (by rw [hpc]; rfl) rfl rfl trivial (by rw [hpc]; rfl) (by rw [hpc]; rfl) (by rw [hpc]; rfl)
  | rTest i b =>
    dsimp only
    have hi : i < n := h.idx t i (by rw [hpc]; rfl)
    have hun : Inv n (s.goto t (.rUnlock i)) :=
      h.keep ht (by rw [hpc]; rfl) (by rw [hpc]; rfl) (h.slot.other h.sen (by rw [hpc]; rfl))
        (h.sz.own0 h.pop (i := i) (by rw [hpc]; rfl) (by rw [hpc]; rfl)) trivial
        (fun x => (h.cnt x).pcOnly ht (by rw [hpc]; rfl) (by rw [hpc]; rfl)) h.disc (by rw [hpc]; rfl)
    cases hc : (s.pq i)[top (s.pq i)]? with
    | none => exact hun
    | some p =>
      obtain ⟨hk, rfl⟩ := List.getElem?_eq_some_iff.1 hc
      dsimp only
      split
      · next hb =>
        refine h.keep ht (by rw [hpc]; rfl) (by rw [hpc]; rfl) (h.slot.other h.sen (by rw [hpc]; rfl))
          (h.sz.ownPq h.pop (i := i) (by rw [hpc]; rfl) ?_) trivial
          (fun x => (h.cnt x).step ht hi ?_) ?_ (by rw [hpc]; rfl)
        · rw [hpc, List.length_eraseIdx_of_lt hk]
          show _ + 0 = _ + 1
          omega
        · rw [hpc]
          have := count_eraseIdx x (s.pq i) _ hk
          have h2 := count_cons' x (s.pq i)[top (s.pq i)] (s.discarded.map Prod.fst)
          show _ + 0 + ((s.pq i).count x + _ + 0 + _ + _) = _ + 0 + (((s.pq i).eraseIdx _).count x + _ + 0 + _ +
            ((s.pq i)[top (s.pq i)] :: s.discarded.map Prod.fst).count x)
          omega
        · intro e he
          rcases List.mem_cons.1 he with rfl | he
          · exact hb
          · exact h.disc e he
      · exact hun
  | rSize i b =>
    dsimp only
    refine h.keep ht (by rw [hpc]; rfl) (by rw [hpc]; rfl) (h.slot.other h.sen (by rw [hpc]; rfl))
      (h.sz.ownSize h.pop (i := i) (by rw [hpc]; rfl) ?_) trivial
      (fun x => (h.cnt x).pcOnly ht (by rw [hpc]; rfl) (by rw [hpc]; rfl)) h.disc (by rw [hpc]; rfl)
    have := h.sz.at h.pop (t := t) (i := i) (by rw [hpc]; rfl)
    rw [hpc] at this
    rw [this]; rfl
  | rUnlock i =>
    dsimp only
    exact h.unlockPop ht (by rw [hpc]; rfl) rfl (by rw [hpc]; rfl) (h.slot.other h.sen (by rw [hpc]; rfl)) (by rw [hpc]; rfl) trivial
      (fun x => (h.cnt x).pcOnly ht (by rw [hpc]; rfl) (by rw [hpc]; rfl)) rfl

end WQ
end VieCut
