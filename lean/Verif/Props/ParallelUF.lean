import Verif.Spec.ParallelUF
import Verif.Proof.ParallelUFAlone
import Verif.Proof.ParallelUFSerial

/-!
# C28: the concurrent union-find

Sound for every schedule (`C28_sound`); a thread that runs alone finishes its call, even on a cyclic forest
(`C28_obstruction_free`); a schedule of three threads loses a union (`C28_lost_union`); no union is lost when unions do not
overlap, whatever finds run at the same time (`C28_complete_partial`).
-/

namespace VieCut
open Function

namespace CUF

theorem calls_begin (s : St) (t : Nat) (o : Op) (rest : List Op) (hp : s.prog t = o :: rest) (a b : Nat) :
    ((a, b) ∈ (s.begin t o rest).reqs ∨ ∃ t', Op.union a b ∈ (s.begin t o rest).prog t') ↔
      ((a, b) ∈ s.reqs ∨ ∃ t', Op.union a b ∈ s.prog t') := by
  have h1 : (s.begin t o rest).prog = update s.prog t rest := by cases o <;> rfl
  have h2 : (a, b) ∈ (s.begin t o rest).reqs ↔ o = .union a b ∨ (a, b) ∈ s.reqs := by
    cases o with
    | union c d =>
      show (a, b) ∈ (c, d) :: s.reqs ↔ _
      rw [List.mem_cons]
      constructor
      · rintro (h | h)
        · cases h; exact Or.inl rfl
        · exact Or.inr h
      · rintro (h | h)
        · cases h; exact Or.inl rfl
        · exact Or.inr h
    | find c => exact ⟨Or.inr, fun h => h.elim (fun h => by cases h) id⟩
    | same c d => exact ⟨Or.inr, fun h => h.elim (fun h => by cases h) id⟩
  have h3 : (∃ t', Op.union a b ∈ s.prog t') ↔ o = .union a b ∨ ∃ t', Op.union a b ∈ update s.prog t rest t' := by
    constructor
    · rintro ⟨t', h⟩
      by_cases ht : t' = t
      · subst ht
        rw [hp] at h
        rcases List.mem_cons.1 h with h | h
        · exact Or.inl h.symm
        · exact Or.inr ⟨t', by rw [update_self]; exact h⟩
      · exact Or.inr ⟨t', by rw [update_of_ne ht]; exact h⟩
    · rintro (h | ⟨t', h⟩)
      · exact ⟨t, by rw [hp, h]; simp⟩
      · by_cases ht : t' = t
        · subst ht; rw [update_self] at h; exact ⟨t', by rw [hp]; simp [h]⟩
        · rw [update_of_ne ht] at h; exact ⟨t', h⟩
  rw [h1, h2, h3]
  tauto

theorem found_calls (s : St) (t e : Nat) (k : Cont) : (s.found t e k).prog = s.prog ∧ (s.found t e k).reqs = s.reqs := by
  cases k with
  | rhs l =>
    have : s.found t e (.rhs l) = if l = e then s.ret t (.bool false) else s.goto t (.rankL l e) := rfl
    rw [this]; split <;> exact ⟨rfl, rfl⟩
  | sy x =>
    have : s.found t e (.sy x) = if x = e then s.ret t (.bool true) else s.goto t (.root x e) := rfl
    rw [this]; split <;> exact ⟨rfl, rfl⟩
  | _ => exact ⟨rfl, rfl⟩

theorem failed_calls (s : St) (t : Nat) (u : Upd) : (s.failed t u).prog = s.prog ∧ (s.failed t u).reqs = s.reqs := by
  unfold St.failed; split <;> exact ⟨rfl, rfl⟩

theorem updated_calls (s : St) (t : Nat) (u : Upd) : (s.updated t u).prog = s.prog ∧ (s.updated t u).reqs = s.reqs := by
  unfold St.updated; split <;> exact ⟨rfl, rfl⟩

theorem calls_step (s : St) (t a b : Nat) :
    ((a, b) ∈ (step s t).reqs ∨ ∃ t', Op.union a b ∈ (step s t).prog t') ↔ ((a, b) ∈ s.reqs ∨ ∃ t', Op.union a b ∈ s.prog t') := by
  have key : ∀ s' : St, (s'.prog = s.prog ∧ s'.reqs = s.reqs) →
      (((a, b) ∈ s'.reqs ∨ ∃ t', Op.union a b ∈ s'.prog t') ↔ ((a, b) ∈ s.reqs ∨ ∃ t', Op.union a b ∈ s.prog t')) := by
    rintro s' ⟨h1, h2⟩; rw [h1, h2]
  by_cases hi : s.pc t = .idle
  · cases hp : s.prog t with
    | nil =>
      have : step s t = s := by unfold step; rw [hi]; simp only; rw [hp]
      rw [this]
    | cons o rest =>
      have : step s t = s.begin t o rest := by unfold step; rw [hi]; simp only; rw [hp]
      rw [this]
      exact calls_begin s t o rest hp a b
  · refine key _ ?_
    unfold step
    cases h : s.pc t with
    | idle => exact absurd h hi
    | test k e => dsimp only; split; exact found_calls ..; exact ⟨rfl, rfl⟩
    | halve k e nx p => dsimp only; split <;> exact ⟨rfl, rfl⟩
    | chkP u => dsimp only; split; exact ⟨rfl, rfl⟩; exact failed_calls ..
    | chkR u => dsimp only; split; exact ⟨rfl, rfl⟩; exact failed_calls ..
    | linkP u => dsimp only; split; exact ⟨rfl, rfl⟩; exact failed_calls ..
    | linkR u old => dsimp only; split; exact updated_calls { s with rank := _ } t u; exact ⟨rfl, rfl⟩
    | undo u => dsimp only; split; exact failed_calls { s with parent := _ } t u; exact failed_calls ..
    | root x y => dsimp only; split <;> exact ⟨rfl, rfl⟩
    | _ => exact ⟨rfl, rfl⟩

theorem calls_run (s : St) (sched : List Nat) (a b : Nat) :
    ((a, b) ∈ (run s sched).reqs ∨ ∃ t', Op.union a b ∈ (run s sched).prog t') ↔ ((a, b) ∈ s.reqs ∨ ∃ t', Op.union a b ∈ s.prog t') := by
  induction sched generalizing s with
  | nil => exact Iff.rfl
  | cons t l ih => exact (ih (step s t)).trans (calls_step s t a b)

theorem requested_of_linked {prog : Nat → List Op} {sched : List Nat} {a b : Nat}
    (h : Linked (run (start prog) sched).reqs a b) : Requested prog a b := by
  refine Linked.least (r := Requested prog) ⟨Relation.EqvGen.refl, Relation.EqvGen.symm _ _, Relation.EqvGen.trans _ _ _⟩
    (fun c d hp => ?_) h
  refine Relation.EqvGen.rel _ _ ?_
  rcases (calls_run (start prog) sched c d).1 (Or.inl hp) with h | h
  · simp [start] at h
  · exact h

theorem linked_iter {s : St} (h : Sound s) (x i : Nat) : Linked s.reqs x (s.parent^[i] x) := by
  induction i with
  | zero => exact Linked.refl' _ _
  | succ i ih => rw [iterate_succ_apply']; exact Linked.trans' ih (h.parent _)

/-- C28: for any programs and any schedule, elements with the same root, a `SameSet` that returned true and two `Find` calls
that returned the same element only ever concern elements connected by requested unions. -/
theorem C28_sound (prog : Nat → List Op) (sched : List Nat) :
    let s := run (start prog) sched
    (∀ a b, SameRoot s.parent a b → Requested prog a b) ∧
    (∀ t a b, Completed s t (.same a b) (.bool true) → Requested prog a b) ∧
    (∀ t a e, Completed s t (.find a) (.elt e) → Requested prog a e) ∧
    ∀ t t' a b e, Completed s t (.find a) (.elt e) → Completed s t' (.find b) (.elt e) → Requested prog a b := by
  intro s
  have h : Sound s := (Sound.start prog).run sched
  have hf : ∀ t a e, Completed s t (.find a) (.elt e) → Linked s.reqs a e := fun t a e hc => h.out _ hc
  refine ⟨fun a b => ?_, fun t a b hc => requested_of_linked (h.out _ hc), fun t a e hc => requested_of_linked (hf t a e hc),
    fun t t' a b e hc hc' => requested_of_linked (Linked.trans' (hf t a e hc) (Linked.symm' (hf t' b e hc')))⟩
  rintro ⟨r, i, j, rfl, h2, -⟩
  exact requested_of_linked (Linked.trans' (linked_iter h a i) (Linked.symm' (h2 ▸ linked_iter h b j)))

/-- C28: from every state that any schedule can produce, a thread that runs alone finishes its current call. -/
theorem C28_obstruction_free (prog : Nat → List Op) (sched : List Nat) (t : Nat) :
    ∃ m, (run (start prog) (sched ++ List.replicate m t)).op t = none := by
  have h : Sound (run (start prog) sched) := (Sound.start prog).run sched
  have hf : Fin' (run (start prog) sched) := (Fin'.run (s := start prog) ⟨0, fun _ _ => rfl⟩ sched)
  by_cases hi : (run (start prog) sched).pc t = .idle
  · refine ⟨0, ?_⟩
    have := h.pc t
    rw [hi] at this
    rw [List.replicate_zero, List.append_nil]
    exact this
  · obtain ⟨m, hm⟩ := alone_done hf hi
    exact ⟨m, by rw [run_append]; exact hm⟩

/-- Programs of the counterexample: three threads unite 0 with 1 and, twice, 1 with 2, and then search. -/
def lostProg : Nat → List Op
  | 0 => [.union 0 1]
  | 1 => [.union 1 2, .find 1]
  | 2 => [.union 1 2, .find 2]
  | 3 => [.same 1 2]
  | _ => []

/-- The schedule of the counterexample. -/
def lostSched : List Nat :=
  List.replicate 16 0 ++ List.replicate 3 1 ++ List.replicate 10 2 ++ List.replicate 8 1 ++ List.replicate 4 1 ++
  List.replicate 4 2 ++ List.replicate 6 1 ++ List.replicate 6 2 ++ List.replicate 8 3

/-- C28 is false of the code: after this schedule every call has returned, two threads have completed `Union(1,2)` with
result true, and yet 1 and 2 are different roots and a `SameSet(1,2)` started afterwards returned false. -/
theorem C28_lost_union :
    let s := run (start lostProg) lostSched
    (∀ t ∈ [0, 1, 2, 3], s.op t = none ∧ s.prog t = []) ∧
    Completed s 1 (.union 1 2) (.bool true) ∧ Completed s 2 (.union 1 2) (.bool true) ∧
    Completed s 3 (.same 1 2) (.bool false) ∧ s.parent 1 = 1 ∧ s.parent 2 = 2 := by
  unfold Completed
  decide +kernel

/-- The cause: a `Union` reads the ranks after the roots and `UpdateRoot` overwrites the rank of the element that stops being
a root, so two threads link 1 below 2 and 2 below 1. -/
theorem C28_cycle :
    let s := run (start lostProg) (lostSched.take 37)
    s.parent 1 = 2 ∧ s.parent 2 = 1 := by
  decide +kernel

theorem sameRoot_iff_of_quiet {prog : Nat → List Op} {sched : List Nat} (h : UnionsApart prog sched)
    (hq : ∀ t a b, (run (start prog) sched).op t ≠ some (.union a b)) (a b : Nat) :
    SameRoot (run (start prog) sched).parent a b ↔ Linked (run (start prog) sched).reqs a b := by
  obtain ⟨rt, κ, B, hs⟩ := (Ser.start prog).run sched fun k t₁ t₂ ⟨a, b, h1⟩ ⟨a', b', h2⟩ => h k t₁ t₂ a b a' b' h1 h2
  have hsound : Sound (run (start prog) sched) := (Sound.start prog).run sched
  have hfix : ∀ r i x, (run (start prog) sched).parent^[i] x = r → rt x = rt r := by
    intro r i x hx
    rw [← hx]
    clear hx
    induction i with
    | zero => rfl
    | succ i ih => rw [iterate_succ_apply', hs.forest.stp]; exact ih
  have hroot : SameRoot (run (start prog) sched).parent a b ↔ rt a = rt b := by
    constructor
    · rintro ⟨r, i, j, h1, h2, h3⟩
      rw [hfix r i a h1, hfix r j b h2]
    · intro hab
      obtain ⟨i, hi⟩ := hs.forest.root a
      obtain ⟨j, hj⟩ := hs.forest.root b
      exact ⟨rt a, i, j, hi, hj.trans hab.symm, hs.forest.idem a⟩
  constructor
  · rintro ⟨r, i, j, rfl, h2, -⟩
    exact Linked.trans' (linked_iter hsound a i) (Linked.symm' (h2 ▸ linked_iter hsound b j))
  · intro hl
    rw [hroot]
    refine Linked.least (r := fun x y => rt x = rt y) ⟨fun _ => rfl, Eq.symm, Eq.trans⟩ (fun c d hcd => ?_) hl
    rcases hs.req c d hcd with h1 | ⟨t, h1⟩
    · exact h1
    · exact absurd h1 (hq t c d)

/-- C28, completeness with the extra hypothesis that no two unions overlap (finds and `SameSet` calls may run at any time):
once every call has returned, two elements have the same root exactly if requested unions connect them.  Missing from the
full property: overlapping unions, for which `C28_lost_union` shows that it fails. -/
theorem C28_complete_partial (prog : Nat → List Op) (sched : List Nat) (h : UnionsApart prog sched)
    (hq : Quiescent (run (start prog) sched)) (a b : Nat) :
    SameRoot (run (start prog) sched).parent a b ↔ Requested prog a b := by
  rw [sameRoot_iff_of_quiet h (fun t a b => by rw [(hq t).1]; simp) a b]
  constructor
  · exact requested_of_linked
  · intro hr
    induction hr with
    | rel x y hxy =>
      rcases (calls_run (start prog) sched x y).2 (Or.inr hxy) with h1 | ⟨t, h1⟩
      · exact Linked.of_mem h1
      · rw [(hq t).2] at h1; simp at h1
    | refl x => exact Linked.refl' _ _
    | symm _ _ _ ih => exact Linked.symm' ih
    | trans _ _ _ _ _ ih1 ih2 => exact Linked.trans' ih1 ih2

/-! ### The hypotheses are met -/

/-- Programs with unions and finds in different threads. -/
def apartProg : Nat → List Op
  | 0 => [.union 0 1]
  | 1 => [.find 0, .same 0 2, .union 1 2]
  | _ => []

/-- Calls of thread 1 interleaved with the union of thread 0, then the union of thread 1. -/
def apartSched : List Nat :=
  (List.replicate 8 [0, 0, 1]).flatten ++ List.replicate 17 1

/-- Some thread below 2 is not in a `Union`. -/
def apartCheck (s : St) : Bool :=
  match s.op 0, s.op 1 with
  | some (.union _ _), some (.union _ _) => false
  | _, _ => true

theorem apart_ops (sched : List Nat) (t : Nat) (ht : 2 ≤ t) : ∀ s : St, (s.op t = none ∧ s.prog t = [] ∧ s.pc t = .idle) →
    (run s sched).op t = none ∧ (run s sched).prog t = [] := by
  have hret : ∀ (s : St) (t' : Nat) r, t ≠ t' → (s.ret t' r).op t = s.op t ∧ (s.ret t' r).prog t = s.prog t ∧ (s.ret t' r).pc t = s.pc t :=
    fun s t' r h => ⟨update_of_ne h .., rfl, update_of_ne h ..⟩
  have hgoto : ∀ (s : St) (t' : Nat) p, t ≠ t' → (s.goto t' p).op t = s.op t ∧ (s.goto t' p).prog t = s.prog t ∧ (s.goto t' p).pc t = s.pc t :=
    fun s t' p h => ⟨rfl, rfl, update_of_ne h ..⟩
  have hstep : ∀ (s : St) (t' : Nat), (s.op t = none ∧ s.prog t = [] ∧ s.pc t = .idle) →
      ((step s t').op t = none ∧ (step s t').prog t = [] ∧ (step s t').pc t = .idle) := by
    intro s t' hs
    by_cases htt : t = t'
    · subst htt
      have : step s t = s := by unfold step; rw [hs.2.2]; simp only; rw [hs.2.1]
      rw [this]; exact hs
    · have key : ∀ s' : St, (s'.op t = s.op t ∧ s'.prog t = s.prog t ∧ s'.pc t = s.pc t) →
          (s'.op t = none ∧ s'.prog t = [] ∧ s'.pc t = .idle) := by
        rintro s' ⟨h1, h2, h3⟩; rw [h1, h2, h3]; exact hs
      refine key _ ?_
      have hfail : ∀ (s : St) u, (s.failed t' u).op t = s.op t ∧ (s.failed t' u).prog t = s.prog t ∧ (s.failed t' u).pc t = s.pc t := by
        intro s u; unfold St.failed; split; exact hgoto _ _ _ htt; exact hret _ _ _ htt
      have hupd : ∀ (s : St) u, (s.updated t' u).op t = s.op t ∧ (s.updated t' u).prog t = s.prog t ∧ (s.updated t' u).pc t = s.pc t := by
        intro s u; unfold St.updated; split; exact hgoto _ _ _ htt; exact hret _ _ _ htt
      have hfound : ∀ (s : St) e k, (s.found t' e k).op t = s.op t ∧ (s.found t' e k).prog t = s.prog t ∧ (s.found t' e k).pc t = s.pc t := by
        intro s e k
        cases k with
        | ret => exact hret _ _ _ htt
        | lhs r => exact hgoto _ _ _ htt
        | rhs l =>
          have : s.found t' e (.rhs l) = if l = e then s.ret t' (.bool false) else s.goto t' (.rankL l e) := rfl
          rw [this]; split; exact hret _ _ _ htt; exact hgoto _ _ _ htt
        | sx y => exact hgoto _ _ _ htt
        | sy x =>
          have : s.found t' e (.sy x) = if x = e then s.ret t' (.bool true) else s.goto t' (.root x e) := rfl
          rw [this]; split; exact hret _ _ _ htt; exact hgoto _ _ _ htt
      unfold step
      cases h : s.pc t' with
      | idle =>
        dsimp only
        split
        · exact ⟨rfl, rfl, rfl⟩
        · next o rest _ => cases o <;> exact ⟨update_of_ne htt .., update_of_ne htt .., update_of_ne htt ..⟩
      | test k e => dsimp only; split; exact hfound _ _ _; exact hgoto _ _ _ htt
      | halve k e nx p => dsimp only; split; exact hgoto { s with parent := _ } _ _ htt; exact hgoto _ _ _ htt
      | chkP u => dsimp only; split; exact hgoto _ _ _ htt; exact hfail _ _
      | chkR u => dsimp only; split; exact hgoto _ _ _ htt; exact hfail _ _
      | linkP u => dsimp only; split; exact hgoto { s with parent := _ } _ _ htt; exact hfail _ _
      | linkR u old => dsimp only; split; exact hupd { s with rank := _ } u; exact hgoto _ _ _ htt
      | undo u => dsimp only; split; exact hfail { s with parent := _ } u; exact hfail _ _
      | root x y => dsimp only; split; exact hret _ _ _ htt; exact hgoto _ _ _ htt
      | _ => exact hgoto _ _ _ htt
  induction sched with
  | nil => intro s hs; exact ⟨hs.1, hs.2.1⟩
  | cons t' l ih => intro s hs; exact ih _ (hstep s t' hs)

/-- A schedule in which finds and unions of two threads interleave, no two unions overlap and every call returns. -/
example : UnionsApart apartProg apartSched ∧ Quiescent (run (start apartProg) apartSched) ∧
    Requested apartProg 0 2 ∧ SameRoot (run (start apartProg) apartSched).parent 0 2 := by
  have hidle : ∀ sched t, 2 ≤ t → (run (start apartProg) sched).op t = none ∧ (run (start apartProg) sched).prog t = [] := by
    intro sched t ht
    refine apart_ops sched t ht _ ⟨rfl, ?_, rfl⟩
    match t, ht with
    | n + 2, _ => rfl
  have hchk : ∀ k, apartCheck (run (start apartProg) (apartSched.take k)) = true := by
    have hfew : ∀ k < 42, apartCheck (run (start apartProg) (apartSched.take k)) = true := by decide +kernel
    intro k
    by_cases hk : k < 42
    · exact hfew k hk
    · have e1 : apartSched.take k = apartSched.take 41 := by
        have hl : apartSched.length ≤ 41 := by decide
        rw [List.take_of_length_le (Nat.le_trans hl (by omega)), List.take_of_length_le hl]
      rw [e1]; exact hfew 41 (by decide)
  have hfin : ∀ t < 2, (run (start apartProg) apartSched).op t = none ∧ (run (start apartProg) apartSched).prog t = [] := by
    decide +kernel
  have hap : UnionsApart apartProg apartSched := by
    intro k t t' a b a' b' h1 h2
    have ht : t < 2 := by
      by_contra hc
      rw [(hidle _ t (by omega)).1] at h1; cases h1
    have ht' : t' < 2 := by
      by_contra hc
      rw [(hidle _ t' (by omega)).1] at h2; cases h2
    have hc := hchk k
    unfold apartCheck at hc
    rcases (by omega : t = t' ∨ (t = 0 ∧ t' = 1) ∨ (t = 1 ∧ t' = 0)) with h | ⟨rfl, rfl⟩ | ⟨rfl, rfl⟩
    · exact h
    · rw [h1, h2] at hc; cases hc
    · rw [h1, h2] at hc; cases hc
  have hq : Quiescent (run (start apartProg) apartSched) := by
    intro t
    by_cases ht : t < 2
    · exact hfin t ht
    · exact hidle _ t (by omega)
  have hr : Requested apartProg 0 2 :=
    Relation.EqvGen.trans 0 1 2 (Relation.EqvGen.rel _ _ ⟨0, by decide⟩) (Relation.EqvGen.rel _ _ ⟨1, by decide⟩)
  exact ⟨hap, hq, hr, (C28_complete_partial apartProg apartSched hap hq 0 2).2 hr⟩

end CUF
end VieCut
