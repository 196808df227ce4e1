import Verif.Proof.WorkQueue

/-!
# C27: the work queue

The claim holds if the two defects of `addProblem` do not show (`C27_conserved_partial`), in particular if calls do not overlap
(`C27_serial`).  The unlocked test of `haveSendProblem` loses a problem (`C27_lost_problem`); the double `unlock`
(`C27_double_unlock`, undefined behaviour already with one thread) lets two threads return the same problem
(`C27_duplicated_problem`) or a null problem (`C27_null_problem`).  There is no deadlock (`C27_no_deadlock`).
-/

namespace VieCut
open Function Finset

namespace WQ

theorem Inv.run' {n : Nat} {top : List Prob → Nat} (htop : Picks top) (sched : List Nat) : ∀ s : St, Inv n s →
    (∀ k t p q, sched[k]? = some t → (WQ.run top s (sched.take k)).pc t = .aSet p q → (WQ.run top s (sched.take k)).have_ = false) →
    (∀ k t p q, sched[k]? = some t → (WQ.run top s (sched.take k)).pc t = .bUnlock2 p q true →
      (WQ.run top s (sched.take k)).sendM = none) → Inv n (WQ.run top s sched) := by
  induction sched with
  | nil => intro s h _ _; exact h
  | cons t l ih =>
    intro s h h1 h2
    refine ih _ (h.step htop t (fun p q => h1 0 t p q rfl) (fun p q => h2 0 t p q rfl)) ?_ ?_
    · intro k t' p q hk hpc
      exact h1 (k + 1) t' p q (by simpa using hk) hpc
    · intro k t' p q hk hpc
      exact h2 (k + 1) t' p q (by simpa using hk) hpc

theorem count_flatMap_range (x : Prob) (pq : Nat → List Prob) (n : Nat) :
    ((List.range n).flatMap pq).count x = ∑ i ∈ range n, (pq i).count x := by
  induction n with
  | zero => rfl
  | succ n ih => rw [List.range_succ, List.flatMap_append, List.count_append, ih, Finset.sum_range_succ]; simp

theorem length_flatMap_range (pq : Nat → List Prob) (size : Nat → Nat) (h : ∀ i, size i = (pq i).length) (n : Nat) :
    ((List.range n).map size).sum = ((List.range n).flatMap pq).length := by
  induction n with
  | zero => rfl
  | succ n ih => rw [List.range_succ, List.flatMap_append, List.map_append, List.sum_append, List.length_append, ih]; simp [h]

theorem Inv.conserved {n : Nat} {s : St} (h : Inv n s) : Conserved n s := by
  refine ⟨h.run, h.disc, fun x => ?_, fun hq => ?_⟩
  · have hc := h.cnt x
    unfold Cnt at hc
    -- what is stored twice is stored once in a queue
    by_contra hlt
    have hd : ∑ t ∈ range n, (dup (s.pc t)).count x ≤ s.send.toList.count x := by
      cases hm : s.sendM with
      | none =>
        rw [Finset.sum_eq_zero]
        · omega
        · intro t _
          cases hpc : s.pc t with
          | bSet p q m => have := (h.sen t).2 (by rw [hpc]; rfl); rw [hm] at this; cases this
          | _ => rfl
      | some t =>
        have h0 : ∀ t', t' ≠ t → (dup (s.pc t')).count x = 0 := by
          intro t' ht'
          cases hpc : s.pc t' with
          | bSet p q m =>
            have := (h.sen t').2 (by rw [hpc]; rfl)
            rw [hm] at this
            exact absurd (Option.some.inj this).symm ht'
          | _ => rfl
        have h1 : (dup (s.pc t)).count x ≤ s.send.toList.count x := by
          cases hpc : s.pc t with
          | bSet p q m =>
            have := h.slot.2 t hm
            rw [hpc] at this
            rw [this.2.1]; exact le_refl _
          | _ => exact Nat.zero_le _
        by_cases ht : t < n
        · rw [Finset.sum_eq_single t (fun t' _ ht' => h0 t' ht') (fun hh => absurd (mem_range.2 ht) hh)]
          exact h1
        · rw [Finset.sum_eq_zero fun t' ht' => h0 t' (by have := mem_range.1 ht'; omega)]
          omega
    omega
  · have hpop : ∀ i, s.popM i = none := by
      intro i
      cases hm : s.popM i with
      | none => rfl
      | some t => have := (h.pop i t).1 hm; rw [(hq t).1] at this; cases this
    have hsen : s.sendM = none := by
      cases hm : s.sendM with
      | none => rfl
      | some t => have := (h.sen t).1 hm; rw [(hq t).1] at this; cases this
    have hhv := h.slot.1 hsen
    constructor
    · refine List.perm_iff_count.2 fun x => ?_
      have hc := h.cnt x
      unfold Cnt at hc
      rw [Finset.sum_eq_zero (fun t _ => by rw [(hq t).1]; rfl), Finset.sum_eq_zero (s := range n) (f := fun t => (held (s.pc t)).count x)
        (fun t _ => by rw [(hq t).1]; rfl)] at hc
      unfold St.stored
      rw [List.count_append, List.count_append, List.count_append, count_flatMap_range]
      omega
    · unfold St.total St.stored
      rw [List.length_append, length_flatMap_range s.pq s.size (fun i => by have := h.sz i; rw [hpop i] at this; exact this), hhv]
      cases s.send <;> rfl

/-- C27 for all schedules in which the defects of `addProblem` do not show, for every number of threads and all programs.
Missing from the full property: schedules in which two threads see the empty slot, and schedules in which the second `unlock`
releases the lock of another thread (the claim is then false). -/
theorem C27_conserved_partial (top : List Prob → Nat) (htop : Picks top) (n : Nat) (prog : Nat → List Op) (hp : Proper n prog)
    (sched : List Nat) (h1 : SlotStillEmpty top prog sched) (h2 : NoForeignUnlock top prog sched) :
    Conserved n (run top (start prog) sched) :=
  (Inv.run' htop sched _ (Inv.start hp) h1 h2).conserved

/-! ### Calls that do not overlap -/

/-- What holds when only one thread is active. -/
def Alone (s : St) : Prop := ∀ t, match s.pc t with
  | .aLockS .. | .aSet .. => s.have_ = false
  | .bUnlock2 _ _ true => s.sendM = none
  | _ => True

theorem Alone.step {top : List Prob → Nat} {s : St} (h : Alone s) (t : Nat)
    (hser : ∀ t₁ t₂, s.pc t₁ ≠ .idle → s.pc t₂ ≠ .idle → t₁ = t₂) : Alone (step top s t) := by
  by_cases hidle : s.pc t = .idle
  · -- a call begins, or nothing happens
    intro t'
    unfold WQ.step
    by_cases he : s.exited = true
    · rw [if_pos he]; exact h t'
    rw [if_neg he, hidle]
    dsimp only
    cases hp : s.prog t with
    | nil => exact h t'
    | cons o rest =>
      dsimp only
      by_cases ht : t' = t
      · subst ht
        cases o <;> simp [St.begin, St.goto]
      · have := h t'
        cases o <;> (simp only [St.begin, St.goto, update_of_ne ht]; exact this)
  · have hoth : ∀ t', t' ≠ t → s.pc t' = .idle := fun t' ht' => by
      by_contra hc; exact ht' (hser t' t hc hidle)
    have key : ∀ s' : St, (∀ t', t' ≠ t → s'.pc t' = .idle) → (match s'.pc t with
        | .aLockS .. | .aSet .. => s'.have_ = false
        | .bUnlock2 _ _ true => s'.sendM = none
        | _ => True) → Alone s' := by
      intro s' h1 h2 t'
      by_cases ht : t' = t
      · subst ht; exact h2
      · rw [h1 t' ht]; trivial
    have hg : ∀ (s' : St) p, s'.pc = s.pc → (match p with
        | .aLockS .. | .aSet .. => s'.have_ = false
        | .bUnlock2 _ _ true => s'.sendM = none
        | _ => True) → Alone (s'.goto t p) := by
      intro s' p h0 h1
      refine key _ (fun t' ht' => ?_) ?_
      · show update s'.pc t p t' = _
        rw [update_of_ne ht', h0]; exact hoth t' ht'
      · show match update s'.pc t p t with
          | .aLockS .. | .aSet .. => s'.have_ = false
          | .bUnlock2 _ _ true => s'.sendM = none
          | _ => True
        rw [update_self]; exact h1
    have hlp : ∀ i p, (match p with
        | .aLockS .. | .aSet .. => s.have_ = false
        | .bUnlock2 _ _ true => s.sendM = none
        | _ => True) → Alone (s.lockPop t i p) := by
      intro i p hh
      unfold St.lockPop
      cases s.popM i with
      | none => exact hg _ _ rfl hh
      | some _ => exact h
    have hls : ∀ p, (match p with
        | .aLockS .. | .aSet .. => s.have_ = false
        | .bUnlock2 _ _ true => False
        | _ => True) → Alone (s.lockSend t p) := by
      intro p hh
      unfold St.lockSend
      cases s.sendM with
      | none =>
        refine hg _ _ rfl ?_
        revert hh
        cases p with
        | bUnlock2 _ _ b => cases b <;> intro hh <;> first | trivial | exact absurd hh id
        | _ => exact id
      | some _ => exact h
    have ht := h t
    unfold WQ.step
    by_cases he : s.exited = true
    · rw [if_pos he]; exact h
    rw [if_neg he]
    cases hpc : s.pc t with
    | idle => exact absurd hpc hidle
    | aLock p q => exact hlp _ _ trivial
    | aHave p q =>
      dsimp only
      cases hv : s.have_ with
      | true => exact hg _ _ rfl trivial
      | false => exact hg _ _ rfl hv
    | aLockS p q =>
      rw [hpc] at ht
      exact hls _ ht
    | bUnlock1 p q => exact hg _ _ rfl rfl
    | bUnlock2 p q moved => cases moved <;> exact hg _ _ rfl trivial
    | bTest p q => dsimp only; split <;> exact hg _ _ rfl trivial
    | bHave p q => dsimp only; split <;> exact hg _ _ rfl trivial
    | pHave i => dsimp only; split <;> exact hg _ _ rfl trivial
    | pTest i b => dsimp only; split <;> exact hg _ _ rfl trivial
    | bLock p q => exact hls _ trivial
    | pLock i b => exact hlp _ _ trivial
    | rLock i b => exact hlp _ _ trivial
    | pLockS i => exact hls _ trivial
    | pUnlock i cur => cases cur <;> exact hg _ _ rfl trivial
    | rTest i b =>
      dsimp only
      split
      · split <;> exact hg _ _ rfl trivial
      · exact hg _ _ rfl trivial
    | _ => exact hg _ _ rfl trivial

theorem Alone.run {top : List Prob → Nat} (sched : List Nat) : ∀ s : St, Alone s →
    (∀ k t₁ t₂, (WQ.run top s (sched.take k)).pc t₁ ≠ .idle → (WQ.run top s (sched.take k)).pc t₂ ≠ .idle → t₁ = t₂) →
    ∀ k, Alone (WQ.run top s (sched.take k)) := by
  induction sched with
  | nil => intro s h _ k; rw [List.take_nil]; exact h
  | cons t l ih =>
    intro s h hser k
    cases k with
    | zero => exact h
    | succ k => exact ih _ (h.step t (hser 0)) (fun k => hser (k + 1)) k

/-- C27 without concurrency: if at most one thread executes a call at any time, nothing is lost or duplicated. -/
theorem C27_serial (top : List Prob → Nat) (htop : Picks top) (n : Nat) (prog : Nat → List Op) (hp : Proper n prog)
    (sched : List Nat) (hs : Serial top prog sched) : Conserved n (run top (start prog) sched) := by
  have ha := Alone.run (top := top) sched (start prog) (fun t => trivial) hs
  refine C27_conserved_partial top htop n prog hp sched ?_ ?_
  · intro k t p q _ hpc
    have := ha k t
    rw [hpc] at this
    exact this
  · intro k t p q _ hpc
    have := ha k t
    rw [hpc] at this
    exact this

/-! ### No deadlock -/

/-- Owners of mutexes are inside the corresponding sections (for all schedules). -/
def Owned (s : St) : Prop :=
  (∀ i t, s.popM i = some t → holdsPop (s.pc t) = some i) ∧ ∀ t, s.sendM = some t → holdsSend (s.pc t) = true

theorem Owned.step {top : List Prob → Nat} {s : St} (h : Owned s) (t : Nat) : Owned (step top s t) := by
  have hg : ∀ (s' : St) p, s'.pc = s.pc → s'.popM = s.popM → s'.sendM = s.sendM → holdsPop p = holdsPop (s.pc t) →
      (holdsSend (s.pc t) = true → holdsSend p = true) → Owned (s'.goto t p) := by
    intro s' p h0 h1 h2 h3 h4
    refine ⟨fun i t' hi => ?_, fun t' hi => ?_⟩
    · show holdsPop (update s'.pc t p t') = _
      replace hi : s'.popM i = some t' := hi
      rw [h1] at hi
      by_cases ht : t' = t
      · subst ht; rw [update_self, h3]; exact h.1 i t' hi
      · rw [update_of_ne ht, h0]; exact h.1 i t' hi
    · show holdsSend (update s'.pc t p t') = _
      replace hi : s'.sendM = some t' := hi
      rw [h2] at hi
      by_cases ht : t' = t
      · subst ht; rw [update_self]; exact h4 (h.2 t' hi)
      · rw [update_of_ne ht, h0]; exact h.2 t' hi
  have hlp : ∀ i p, holdsPop p = some i → holdsPop (s.pc t) = none → holdsSend (s.pc t) = false → Owned (s.lockPop t i p) := by
    intro i p h3 h4 h5
    unfold St.lockPop
    cases hm : s.popM i with
    | some _ => exact h
    | none =>
      refine ⟨fun j t' hj => ?_, fun t' hj => ?_⟩
      · show holdsPop (update s.pc t p t') = _
        replace hj : update s.popM i (some t) j = some t' := hj
        by_cases hji : j = i
        · subst hji
          rw [update_self] at hj
          cases hj
          rw [update_self]; exact h3
        · rw [update_of_ne hji] at hj
          by_cases ht : t' = t
          · subst ht; rw [h.1 j t' hj] at h4; cases h4
          · rw [update_of_ne ht]; exact h.1 j t' hj
      · show holdsSend (update s.pc t p t') = _
        replace hj : s.sendM = some t' := hj
        by_cases ht : t' = t
        · subst ht; rw [h.2 t' hj] at h5; cases h5
        · rw [update_of_ne ht]; exact h.2 t' hj
  have hls : ∀ p, holdsPop p = holdsPop (s.pc t) → holdsSend p = true → Owned (s.lockSend t p) := by
    intro p h3 h4
    unfold St.lockSend
    cases hm : s.sendM with
    | some _ => exact h
    | none =>
      refine ⟨fun j t' hj => ?_, fun t' hj => ?_⟩
      · show holdsPop (update s.pc t p t') = _
        by_cases ht : t' = t
        · subst ht; rw [update_self, h3]; exact h.1 j t' hj
        · rw [update_of_ne ht]; exact h.1 j t' hj
      · show holdsSend (update s.pc t p t') = _
        replace hj : some t = some t' := hj
        cases hj
        rw [update_self]; exact h4
  have hup : ∀ (s' : St) i p, s'.pc = s.pc → s'.popM = s.popM → s'.sendM = s.sendM → holdsPop (s.pc t) = some i →
      (holdsSend (s.pc t) = true → holdsSend p = true) → Owned (s'.unlockPop t i p) := by
    intro s' i p h0 h1 h2 h3 h4
    refine ⟨fun j t' hj => ?_, fun t' hj => ?_⟩
    · show holdsPop (update s'.pc t p t') = _
      replace hj : update s'.popM i none j = some t' := hj
      by_cases hji : j = i
      · subst hji; rw [update_self] at hj; cases hj
      · rw [update_of_ne hji, h1] at hj
        by_cases ht : t' = t
        · subst ht
          rw [h.1 j t' hj] at h3
          exact absurd (Option.some.inj h3) hji
        · rw [update_of_ne ht, h0]; exact h.1 j t' hj
    · show holdsSend (update s'.pc t p t') = _
      replace hj : s'.sendM = some t' := hj
      rw [h2] at hj
      by_cases ht : t' = t
      · subst ht; rw [update_self]; exact h4 (h.2 t' hj)
      · rw [update_of_ne ht, h0]; exact h.2 t' hj
  have hus : ∀ p, holdsPop p = holdsPop (s.pc t) → Owned (s.unlockSend t p) := by
    intro p h3
    refine ⟨fun j t' hj => ?_, fun t' hj => ?_⟩
    · show holdsPop (update s.pc t p t') = _
      by_cases ht : t' = t
      · subst ht; rw [update_self, h3]; exact h.1 j t' hj
      · rw [update_of_ne ht]; exact h.1 j t' hj
    · cases hj
  unfold WQ.step
  by_cases he : s.exited = true
  · rw [if_pos he]; exact h
  rw [if_neg he]
  cases hpc : s.pc t with
  | idle =>
    dsimp only
    cases hp : s.prog t with
    | nil => exact h
    | cons o rest =>
      cases o <;> exact hg _ _ rfl rfl rfl (by rw [hpc]; rfl) (by rw [hpc]; exact id)
  | aLock p q => exact hlp _ _ rfl (by rw [hpc]; rfl) (by rw [hpc]; rfl)
  | pLock i b => exact hlp _ _ rfl (by rw [hpc]; rfl) (by rw [hpc]; rfl)
  | rLock i b => exact hlp _ _ rfl (by rw [hpc]; rfl) (by rw [hpc]; rfl)
  | aLockS p q => exact hls _ (by rw [hpc]; rfl) rfl
  | bLock p q => exact hls _ (by rw [hpc]; rfl) rfl
  | pLockS i => exact hls _ (by rw [hpc]; rfl) rfl
  | aUnlock q => exact hup _ _ _ rfl rfl rfl (by rw [hpc]; rfl) (fun _ => rfl)
  | bUnlock q => exact hup _ _ _ rfl rfl rfl (by rw [hpc]; rfl) (by rw [hpc]; exact id)
  | eUnlock i => exact hup _ _ _ rfl rfl rfl (by rw [hpc]; rfl) (by rw [hpc]; exact id)
  | rUnlock i => exact hup _ _ _ rfl rfl rfl (by rw [hpc]; rfl) (by rw [hpc]; exact id)
  | pUnlock i cur => cases cur <;> exact hup _ _ _ rfl rfl rfl (by rw [hpc]; rfl) (by rw [hpc]; exact id)
  | aUnlockS => exact hus _ (by rw [hpc]; rfl)
  | bUnlock1 p q => exact hus _ (by rw [hpc]; rfl)
  | bUnlock2 p q moved => cases moved <;> exact hus _ (by rw [hpc]; rfl)
  | pUnlockS i c => exact hus _ (by rw [hpc]; rfl)
  | eUnlockS i => exact hus _ (by rw [hpc]; rfl)
  | aHave p q => dsimp only; split <;> exact hg _ _ rfl rfl rfl (by rw [hpc]; rfl) (by rw [hpc]; exact id)
  | bTest p q => dsimp only; split <;> exact hg _ _ rfl rfl rfl (by rw [hpc]; rfl) (by rw [hpc]; exact id)
  | bHave p q => dsimp only; split <;> exact hg _ _ rfl rfl rfl (by rw [hpc]; rfl) (by rw [hpc]; exact id)
  | pHave i => dsimp only; split <;> exact hg _ _ rfl rfl rfl (by rw [hpc]; rfl) (by rw [hpc]; exact id)
  | pTest i b => dsimp only; split <;> exact hg _ _ rfl rfl rfl (by rw [hpc]; rfl) (by rw [hpc]; exact id)
  | rTest i b =>
    dsimp only
    split
    · split <;> exact hg _ _ rfl rfl rfl (by rw [hpc]; rfl) (by rw [hpc]; exact id)
    · exact hg _ _ rfl rfl rfl (by rw [hpc]; rfl) (by rw [hpc]; exact id)
  | _ => exact hg _ _ rfl rfl rfl (by rw [hpc]; rfl) (by rw [hpc]; exact id)

theorem Owned.run {top : List Prob → Nat} (sched : List Nat) : ∀ s : St, Owned s → Owned (WQ.run top s sched) := by
  induction sched with
  | nil => exact fun s h => h
  | cons t l ih => exact fun s h => ih _ (h.step t)

/-- Whether a thread is about to lock a mutex. -/
def isLock : PC → Bool
  | .aLock .. | .pLock .. | .rLock .. | .aLockS .. | .bLock .. | .pLockS .. => true
  | _ => false

theorem moves {top : List Prob → Nat} {s : St} {t : Nat} (he : s.exited = false) (h0 : s.pc t ≠ .idle) (h1 : isLock (s.pc t) = false) :
    (step top s t).pc t ≠ s.pc t := by
  unfold WQ.step
  rw [if_neg (by rw [he]; simp)]
  cases hpc : s.pc t
  case idle => exact absurd hpc h0
  all_goals first
    | (rw [hpc] at h1; cases h1; done)
    | (dsimp only
       repeat' split
       all_goals
         simp only [St.goto, St.unlockPop, St.unlockSend, update_self]
         intro h
         cases h)

/-- C27, progress: for every number of threads, all programs and every schedule, if some thread is inside a call then some thread
inside a call can make a step (unless the program has exited). -/
theorem C27_no_deadlock (top : List Prob → Nat) (prog : Nat → List Op) (sched : List Nat)
    (he : (run top (start prog) sched).exited = false) (hc : ∃ t, (run top (start prog) sched).pc t ≠ .idle) :
    ∃ t, (run top (start prog) sched).pc t ≠ .idle ∧
      (step top (run top (start prog) sched) t).pc t ≠ (run top (start prog) sched).pc t := by
  have ho : Owned (run top (start prog) sched) :=
    Owned.run sched _ ⟨fun i t h => (by cases h), fun t h => (by cases h)⟩
  generalize run top (start prog) sched = s at *
  obtain ⟨t, ht⟩ := hc
  have hnl : ∀ t, isLock (s.pc t) = false → s.pc t ≠ .idle → ∃ t, s.pc t ≠ .idle ∧ (step top s t).pc t ≠ s.pc t :=
    fun t h1 h2 => ⟨t, h2, moves he h2 h1⟩
  -- a thread that waits for the slot
  have hsw : ∀ t p, (s.pc t ≠ .idle) → p ≠ s.pc t → step top s t = s.lockSend t p →
      ∃ t, s.pc t ≠ .idle ∧ (step top s t).pc t ≠ s.pc t := by
    intro t p h1 h2 h3
    cases hm : s.sendM with
    | none =>
      refine ⟨t, h1, ?_⟩
      rw [h3]
      unfold St.lockSend
      rw [hm]
      show update s.pc t p t ≠ _
      rw [update_self]; exact h2
    | some t' =>
      have := ho.2 t' hm
      refine hnl t' ?_ ?_
      · cases hpc : s.pc t' <;> first | rfl | (rw [hpc] at this; cases this)
      · intro h; rw [h] at this; cases this
  have hst : ∀ t, step top s t = (match s.pc t with
      | .aLock p q => s.lockPop t q (.aHave p q)
      | .aLockS p q => s.lockSend t (.aSet p q)
      | .bLock p q => s.lockSend t (.bHave p q)
      | .pLock i b => s.lockPop t i (.pTest i b)
      | .pLockS i => s.lockSend t (.pHave i)
      | .rLock i b => s.lockPop t i (.rTest i b)
      | _ => step top s t) := by
    intro t
    cases hpc : s.pc t <;> dsimp only <;> (unfold WQ.step; rw [if_neg (by rw [he]; simp), hpc])
  have hany : ∀ t, holdsPop (s.pc t) ≠ none → ∃ t, s.pc t ≠ .idle ∧ (step top s t).pc t ≠ s.pc t := by
    intro t h1
    have hi : s.pc t ≠ .idle := by intro h; rw [h] at h1; exact h1 rfl
    cases hl : isLock (s.pc t) with
    | false => exact hnl t hl hi
    | true =>
      have h2 := hst t
      cases hpc : s.pc t <;> rw [hpc] at hl h1 h2 <;> first | (cases hl; done) | (exact absurd rfl h1) | skip
      all_goals exact hsw t _ hi (by rw [hpc]; exact PC.noConfusion) h2
  have hpw : ∀ t i p, (s.pc t ≠ .idle) → p ≠ s.pc t → step top s t = s.lockPop t i p →
      ∃ t, s.pc t ≠ .idle ∧ (step top s t).pc t ≠ s.pc t := by
    intro t i p h1 h2 h3
    cases hm : s.popM i with
    | none =>
      refine ⟨t, h1, ?_⟩
      rw [h3]
      unfold St.lockPop
      rw [hm]
      show update s.pc t p t ≠ _
      rw [update_self]; exact h2
    | some t' => exact hany t' (by rw [ho.1 i t' hm]; simp)
  cases hl : isLock (s.pc t) with
  | false => exact hnl t hl ht
  | true =>
    have h2 := hst t
    cases hpc : s.pc t <;> rw [hpc] at hl h2 <;> first | (cases hl; done) | skip
    all_goals first
      | exact hsw t _ ht (by rw [hpc]; exact PC.noConfusion) h2
      | exact hpw t _ _ ht (by rw [hpc]; exact PC.noConfusion) h2

/-! ### The defects -/

/-- Two threads add a problem to the empty queue. -/
def lostProg : Nat → List Op
  | 0 => [.add ⟨0, 5⟩ 0]
  | 1 => [.add ⟨1, 7⟩ 1]
  | _ => []

/-- Both test `haveSendProblem` before either sets it. -/
def lostSched : List Nat := [0, 0, 0, 1, 1, 1] ++ List.replicate 6 0 ++ List.replicate 6 1

/-- C27 is false of the code: both calls have returned, nothing was taken out, and problem 0 is nowhere. -/
theorem C27_lost_problem :
    let s := run (fun _ => 0) (start lostProg) lostSched
    (∀ t ∈ [0, 1], s.pc t = .idle ∧ s.prog t = []) ∧ s.added = [⟨1, 7⟩, ⟨0, 5⟩] ∧ s.stored 2 = [⟨1, 7⟩] ∧ s.pulled = [] ∧
    s.discarded = [] ∧ s.total 2 = 1 := by
  decide +kernel

/-- One thread adds two problems, the second one with a better bound. -/
def twiceProg : Nat → List Op
  | 0 => [.add ⟨0, 5⟩ 0, .add ⟨1, 3⟩ 0]
  | _ => []

/-- With one thread the second `unlock` already hits a mutex that is not locked, which is undefined behaviour in C++. -/
theorem C27_double_unlock :
    let s := run (fun _ => 0) (start twiceProg) (List.replicate 21 0)
    s.pc 0 = .bUnlock2 ⟨1, 3⟩ 0 true ∧ s.sendM = none := by
  decide +kernel

/-- Thread 0 adds two problems, threads 1 and 2 take problems. -/
def dupProg : Nat → List Op
  | 0 => [.add ⟨0, 5⟩ 0, .add ⟨1, 3⟩ 0]
  | 1 => [.pull 1 false]
  | 2 => [.pull 2 false]
  | _ => []

/-- Thread 1 locks the slot between the two unlocks of thread 0, whose second unlock lets thread 2 in. -/
def dupSched : List Nat :=
  List.replicate 21 0 ++ [1, 1, 1, 1, 1] ++ [0, 0] ++ [2, 2, 2, 2, 2] ++ [1, 1, 1, 2, 2, 2] ++ [1, 1, 1, 2, 2, 2]

/-- C27 is false of the code: the problem with id 1 is returned twice. -/
theorem C27_duplicated_problem :
    let s := run (fun _ => 0) (start dupProg) dupSched
    (∀ t ∈ [0, 1, 2], s.pc t = .idle ∧ s.prog t = []) ∧ s.pulled = [⟨1, 3⟩, ⟨1, 3⟩] ∧ s.added = [⟨1, 3⟩, ⟨0, 5⟩] := by
  decide +kernel

/-- In the same situation thread 1 may empty the slot first; thread 2 then gets a null problem and the program exits. -/
theorem C27_null_problem :
    (run (fun _ => 0) (start dupProg) (List.replicate 21 0 ++ [1, 1, 1, 1, 1] ++ [0, 0] ++ [2, 2, 2, 2, 2] ++
      List.replicate 6 1 ++ List.replicate 6 2)).exited = true := by
  decide +kernel

/-! ### The hypotheses are met -/

/-- Two threads that add, take and prune. -/
def okProg : Nat → List Op
  | 0 => [.add ⟨0, 5⟩ 0, .add ⟨1, 7⟩ 0, .add ⟨2, 3⟩ 1, .pull 0 false]
  | 1 => [.prepare 1 4, .pull 1 true]
  | _ => []

/-- Thread 1 waits for mutexes of thread 0 in between. -/
def okSched : List Nat := List.replicate 21 0 ++ [1, 0, 1, 0, 1] ++ List.replicate 9 0 ++ List.replicate 10 1 ++ List.replicate 20 0 ++
  List.replicate 20 1

/-- Decidable version of the two hypotheses for one step. -/
def okCheck (top : List Prob → Nat) (prog : Nat → List Op) (sched : List Nat) (k : Nat) : Bool :=
  let s := run top (start prog) (sched.take k)
  match sched[k]? with
  | none => true
  | some t => match s.pc t with
    | .aSet _ _ => !s.have_
    | .bUnlock2 _ _ true => s.sendM.isNone
    | _ => true

theorem hyps_of_check {top : List Prob → Nat} {prog : Nat → List Op} {sched : List Nat}
    (h : ∀ k < sched.length, okCheck top prog sched k = true) :
    SlotStillEmpty top prog sched ∧ NoForeignUnlock top prog sched := by
  constructor
  · intro k t p q hk hpc
    have := h k (List.getElem?_eq_some_iff.1 hk).1
    unfold okCheck at this
    dsimp only at this
    rw [hk] at this
    dsimp only at this
    rw [hpc] at this
    simpa using this
  · intro k t p q hk hpc
    have := h k (List.getElem?_eq_some_iff.1 hk).1
    unfold okCheck at this
    dsimp only at this
    rw [hk] at this
    dsimp only at this
    rw [hpc] at this
    simpa using this

/-- A concurrent run in which a problem is moved, one is discarded and the others are returned. -/
example : Picks (fun _ => 0) ∧ Proper 2 okProg ∧ SlotStillEmpty (fun _ => 0) okProg okSched ∧
    NoForeignUnlock (fun _ => 0) okProg okSched ∧
    (let s := run (fun _ => 0) (start okProg) okSched
     (∀ t ∈ [0, 1], s.pc t = .idle ∧ s.prog t = []) ∧ s.discarded = [(⟨0, 5⟩, 4)] ∧ s.pulled = [⟨2, 3⟩, ⟨1, 7⟩] ∧ s.stored 2 = []) := by
  refine ⟨fun l hl => List.length_pos_iff.2 hl, ⟨fun t ht => ?_, fun t o ho => ?_⟩, (hyps_of_check (by decide +kernel)).1,
    (hyps_of_check (by decide +kernel)).2, by decide +kernel⟩
  · match t, ht with
    | t + 2, _ => rfl
  · match t, ho with
    | 0, ho => revert ho; simp [okProg]; rintro (rfl | rfl | rfl | rfl) <;> decide
    | 1, ho => revert ho; simp [okProg]; rintro (rfl | rfl) <;> decide
    | t + 2, ho => simp [okProg] at ho

end WQ
end VieCut
