import Verif.Spec.ParallelCapforest
import Verif.Proof.ParallelCapforest
import Verif.Proof.Check
import Verif.Props.ParallelUF

/-!
# C29: parallel CAPFOREST

`C29_race_unsound`: between the two tests of `visited[tgt]` another thread can set the flag; the vertex then has a high
`r_v` but is not in the queue, and a pair is merged that a lighter cut separates.  Without that race (`C29_safe_partial`), with
the blacklist disabled (`C29_no_blacklist`) and with one thread (`C29_one_thread`) every merge is safe.
-/

namespace VieCut
open Function

namespace PCF

theorem Inv.run {P : PQClass} {G : Graph} {L K : Nat} {Rel : P.σ → (Nat → Option Nat) → Prop} (hG : G.WF) (sim : PQSim P G.n K Rel)
    (hK : L ≤ K) (hL : L < 2 ^ 32) (dis : Bool) (sched : List Nat) : ∀ s : St P, Inv G L K Rel s →
    (∀ k t cur rest tgt newRv, sched[k]? = some t → ((PCF.run G L dis s (sched.take k)).thr t).pc = .again cur rest tgt newRv →
      (PCF.run G L dis s (sched.take k)).visited tgt = false) → Inv G L K Rel (PCF.run G L dis s sched) := by
  induction sched with
  | nil => intro s h _; exact h
  | cons t l ih =>
    intro s h hag
    refine ih _ (h.step hG sim hK hL dis t fun cur rest tgt rv hpc => hag 0 t cur rest tgt rv rfl hpc) ?_
    intro k t' cur rest tgt rv hk hpc
    exact hag (k + 1) t' cur rest tgt rv (by simpa using hk) hpc

/-- C29 with the extra hypothesis that no thread sets `visited[tgt]` between the two tests of another thread: for any number
of threads, any start vertices and any schedule, no cut lighter than `mincut` separates a pair for which `Union` is called.
Missing from the full property: schedules with that race, for which `C29_race_unsound` shows that it fails. -/
theorem C29_safe_partial (G : Graph) (hG : G.WF) (mincut : Nat) (hm : 2 * (mincut + 1) < 2 ^ 32) (starts : Nat → Nat)
    (hs : ∀ i, starts i < G.n) (dis : Bool) (sched : List Nat) (hag : ReadsAgree (P := queue mincut) G mincut dis starts sched)
    (p : Nat × Nat) (hp : p ∈ (run G mincut dis (start (queue mincut) starts) sched).reqs) (S : Nat → Bool) (hS : S p.1 ≠ S p.2) :
    mincut ≤ cutValue G.n G.wt S := by
  have sim := FQ.sim (N := G.n) (span := mincut + 1) hm
  exact ((Inv.run hG sim (by omega) (by omega) dis sched _ (Inv.start sim starts hs) hag).safe p hp).2.2 S hS

theorem visited_disabled {P : PQClass} (G : Graph) (L : Nat) (s : St P) (sched : List Nat)
    (h : ∀ v, s.visited v = false) (hpc : ∀ t, (∀ c, (s.thr t).pc ≠ .mark c) ∧ ∀ c, (s.thr t).pc ≠ .seen c) :
    ∀ v, (run G L true s sched).visited v = false := by
  induction sched generalizing s with
  | nil => exact h
  | cons t l ih =>
    have key : ∀ (reqs : List (Nat × Nat)) (th : Thread P), ((∀ c, th.pc ≠ .mark c) ∧ ∀ c, th.pc ≠ .seen c) →
        (∀ v, (({ s with reqs := reqs } : St P).set t th).visited v = false) ∧
        ∀ t', (∀ c, ((({ s with reqs := reqs } : St P).set t th).thr t').pc ≠ .mark c) ∧
          ∀ c, ((({ s with reqs := reqs } : St P).set t th).thr t').pc ≠ .seen c := by
      intro reqs th hth
      refine ⟨h, fun t' => ?_⟩
      show (∀ c, (update s.thr t th t').pc ≠ .mark c) ∧ ∀ c, (update s.thr t th t').pc ≠ .seen c
      by_cases htt : t' = t
      · subst htt; rw [update_self]; exact hth
      · rw [update_of_ne htt]; exact hpc t'
    have hst : (∀ v, (step G L true s t).visited v = false) ∧
        ∀ t', (∀ c, ((step G L true s t).thr t').pc ≠ .mark c) ∧ ∀ c, ((step G L true s t).thr t').pc ≠ .seen c := by
      unfold step
      dsimp only
      cases hp : (s.thr t).pc with
      | outer =>
        dsimp only
        split
        · exact key _ _ ⟨fun _ => by simp, fun _ => by simp⟩
        · exact key _ _ ⟨fun _ => by simp, fun _ => by simp⟩
      | seen c => exact absurd hp ((hpc t).2 c)
      | mark c => exact absurd hp ((hpc t).1 c)
      | inner cur rest =>
        cases rest with
        | nil => exact key _ _ ⟨fun _ => by simp, fun _ => by simp⟩
        | cons e rest =>
          dsimp only
          split
          · exact key _ _ ⟨fun _ => by simp, fun _ => by simp⟩
          · split
            · split
              · exact key _ _ ⟨fun _ => by simp, fun _ => by simp⟩
              · exact key _ _ ⟨fun _ => by simp, fun _ => by simp⟩
            · exact key _ _ ⟨fun _ => by simp, fun _ => by simp⟩
      | again cur rest tgt rv =>
        dsimp only
        split
        · exact key _ _ ⟨fun _ => by simp, fun _ => by simp⟩
        · exact key _ _ ⟨fun _ => by simp, fun _ => by simp⟩
      | done => exact ⟨h, hpc⟩
    exact ih _ hst.1 hst.2

/-- C29 for calls with `disable_blacklist` (parallel_cactus.h:119-124, all rounds but the first): every schedule is safe. -/
theorem C29_no_blacklist (G : Graph) (hG : G.WF) (mincut : Nat) (hm : 2 * (mincut + 1) < 2 ^ 32) (starts : Nat → Nat)
    (hs : ∀ i, starts i < G.n) (sched : List Nat)
    (p : Nat × Nat) (hp : p ∈ (run G mincut true (start (queue mincut) starts) sched).reqs) (S : Nat → Bool) (hS : S p.1 ≠ S p.2) :
    mincut ≤ cutValue G.n G.wt S := by
  refine C29_safe_partial G hG mincut hm starts hs true sched ?_ p hp S hS
  intro k t cur rest tgt rv _ _
  exact visited_disabled G mincut _ _ (fun _ => rfl) (fun _ => ⟨fun _ => by simp [start], fun _ => by simp [start]⟩) tgt

theorem readsAgree_one_thread (G : Graph) (mincut : Nat) (starts : Nat → Nat) (dis : Bool) (t len : Nat) :
    ReadsAgree (P := queue mincut) G mincut dis starts (List.replicate len t) := by
  have key : ∀ m (s : St (queue mincut)), (∀ cur rest tgt rv, (s.thr t).pc = .again cur rest tgt rv → s.visited tgt = false) →
      ∀ cur rest tgt rv, ((run G mincut dis s (List.replicate m t)).thr t).pc = .again cur rest tgt rv →
        (run G mincut dis s (List.replicate m t)).visited tgt = false := by
    intro m
    induction m with
    | zero => intro s h; exact h
    | succ m ih =>
      intro s h
      refine ih (step G mincut dis s t) ?_
      intro cur rest tgt rv hpc
      have hset : ∀ (s : St (queue mincut)) th, ((s.set t th).thr t).pc = th.pc := fun s th => by
        show (update s.thr t th t).pc = _
        rw [update_self]
      unfold step at hpc ⊢
      dsimp only at hpc ⊢
      cases hp : (s.thr t).pc with
      | outer =>
        rw [hp] at hpc
        dsimp only at hpc
        split at hpc
        · rw [hset] at hpc; cases hpc
        · split at hpc
          · rw [hset] at hpc; cases hpc
          · rw [hset] at hpc; cases hpc
      | seen c =>
        rw [hp] at hpc
        dsimp only at hpc
        rw [hset] at hpc
        dsimp only at hpc
        split at hpc <;> cases hpc
      | mark c =>
        rw [hp] at hpc
        dsimp only at hpc
        rw [hset] at hpc; cases hpc
      | inner c r =>
        rw [hp] at hpc
        cases r with
        | nil =>
          dsimp only at hpc
          rw [hset] at hpc; cases hpc
        | cons e r =>
          dsimp only at hpc ⊢
          split at hpc
          · rw [hset] at hpc; cases hpc
          · next h1 =>
            split at hpc
            · next h2 =>
              split at hpc
              · rw [hset] at hpc; cases hpc
              · next h3 =>
                rw [hset] at hpc
                cases hpc
                rw [if_neg h1, if_pos h2, if_neg h3]
                show s.visited e.1 = false
                simpa using h3
            · rw [hset] at hpc; cases hpc
      | again c r g v =>
        rw [hp] at hpc
        dsimp only at hpc
        split at hpc <;> (rw [hset] at hpc; cases hpc)
      | done =>
        rw [hp] at hpc
        dsimp only at hpc
        rw [hp] at hpc; cases hpc
  intro k t' cur rest tgt rv hk hpc
  have htt : t' = t := by
    have := List.mem_of_getElem? hk
    exact (List.mem_replicate.1 this).2
  subst htt
  rw [List.take_replicate] at hpc ⊢
  exact key _ _ (fun cur rest tgt rv h => by simp [start] at h) cur rest tgt rv hpc

/-- C29 for one thread, with or without the blacklist. -/
theorem C29_one_thread (G : Graph) (hG : G.WF) (mincut : Nat) (hm : 2 * (mincut + 1) < 2 ^ 32) (starts : Nat → Nat)
    (hs : ∀ i, starts i < G.n) (dis : Bool) (t len : Nat)
    (p : Nat × Nat) (hp : p ∈ (run G mincut dis (start (queue mincut) starts) (List.replicate len t)).reqs) (S : Nat → Bool)
    (hS : S p.1 ≠ S p.2) : mincut ≤ cutValue G.n G.wt S :=
  C29_safe_partial G hG mincut hm starts hs dis _ (readsAgree_one_thread G mincut starts dis t len) p hp S hS

/-- C29 and C28 together: if the threads' `Union` calls are executed by the concurrent union-find in any interleaving, then two
vertices with the same root afterwards are not separated by a cut lighter than `mincut`. -/
theorem C29_merged_partial (G : Graph) (hG : G.WF) (mincut : Nat) (hm : 2 * (mincut + 1) < 2 ^ 32) (starts : Nat → Nat)
    (hs : ∀ i, starts i < G.n) (dis : Bool) (sched : List Nat) (hag : ReadsAgree (P := queue mincut) G mincut dis starts sched)
    (prog : Nat → List CUF.Op)
    (hprog : ∀ t a b, CUF.Op.union a b ∈ prog t → (a, b) ∈ (run G mincut dis (start (queue mincut) starts) sched).reqs)
    (ufSched : List Nat) (a b : Nat) (hab : CUF.SameRoot (CUF.run (CUF.start prog) ufSched).parent a b) (S : Nat → Bool)
    (hS : S a ≠ S b) : mincut ≤ cutValue G.n G.wt S := by
  have hr := (CUF.C28_sound prog ufSched).1 a b hab
  have : Safe G mincut a b := by
    clear hab hS
    induction hr with
    | rel x y hxy =>
      obtain ⟨t, ht⟩ := hxy
      intro S hS
      exact C29_safe_partial G hG mincut hm starts hs dis sched hag _ (hprog t x y ht) S hS
    | refl x => exact (Safe.equivalence G mincut).refl x
    | symm _ _ _ ih => exact (Safe.equivalence G mincut).symm ih
    | trans _ _ _ _ _ ih1 ih2 => exact (Safe.equivalence G mincut).trans ih1 ih2
  exact this S hS

/-! ### The race -/

/-- A path-like graph: 0-1 weight 2, 0-2 weight 1, 1-2 weight 1, 2-3 weight 3.  Every degree is at least 3, the cut `{0,1}` has
weight 2. -/
def raceGraph : Graph := ⟨[[(1, 2), (2, 1)], [(0, 2), (2, 1)], [(0, 1), (1, 1), (3, 3)], [(2, 3)]]⟩

theorem raceGraph_wf : raceGraph.WF := Graph.wf_of_check (by decide +kernel)

/-- Thread 0 starts at vertex 0, thread 1 at vertex 1 and marks it between the two tests of thread 0. -/
def raceSched : List Nat := [0, 0, 0, 0, 1, 1, 1] ++ List.replicate 9 0

/-- C29 is false of the code: with `mincut` = 3, the minimum degree, vertices 2 and 1 are merged although the cut `{0,1}` of
weight 2 separates them. -/
theorem C29_race_unsound :
    (2, 1) ∈ (run raceGraph 3 false (start (queue 3) fun i => i % 4) raceSched).reqs ∧
    cutValue raceGraph.n raceGraph.wt (fun v => decide (v < 2)) = 2 ∧ ∀ v < 4, 3 ≤ raceGraph.deg v := by
  decide +kernel

/-! ### The hypotheses are met -/

/-- Two threads from different vertices whose tests agree, with requests. -/
def agreeSched : List Nat := [0, 0, 0, 0, 0, 1, 1, 1, 1, 1] ++ List.replicate 14 0

/-- Step `k` of a run is not a second test with a different outcome. -/
def agreeCheck {P : PQClass} (G : Graph) (mincut : Nat) (starts : Nat → Nat) (sched : List Nat) (k : Nat) : Bool :=
  let s := run G mincut false (start P starts) (sched.take k)
  match sched[k]? with
  | none => true
  | some t => match (s.thr t).pc with
    | .again _ _ tgt _ => !s.visited tgt
    | _ => true

theorem readsAgree_of_check {P : PQClass} {G : Graph} {mincut : Nat} {starts : Nat → Nat} {sched : List Nat}
    (h : ∀ k < sched.length, agreeCheck (P := P) G mincut starts sched k = true) :
    ReadsAgree (P := P) G mincut false starts sched := by
  intro k t cur rest tgt rv hk hpc
  have hlt : k < sched.length := (List.getElem?_eq_some_iff.1 hk).1
  have := h k hlt
  unfold agreeCheck at this
  dsimp only at this
  rw [hk] at this
  dsimp only at this
  rw [hpc] at this
  simpa using this

/-- Two threads interleave, the second one finds a vertex that the first one has marked, and pairs are requested. -/
example : ReadsAgree (P := queue 2) raceGraph 2 false (fun i => i % 4) agreeSched ∧ 2 * (2 + 1) < 2 ^ 32 ∧
    (2, 3) ∈ (run raceGraph 2 false (start (queue 2) fun i => i % 4) agreeSched).reqs ∧
    (run raceGraph 2 false (start (queue 2) fun i => i % 4) agreeSched).reqs.length = 3 :=
  ⟨readsAgree_of_check (by decide +kernel), by decide, by decide +kernel, by decide +kernel⟩

end PCF
end VieCut
