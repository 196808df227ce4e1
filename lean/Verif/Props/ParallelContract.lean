import Verif.Proof.ParallelContractWrite
import Verif.Proof.ParallelContractMutable
import Verif.Proof.ParallelContractProgress
import Verif.Proof.ParallelContractMesh
import Verif.Proof.Check
import Verif.Props.GraphAccess

/-! # C56: contraction with several threads -/

namespace VieCut
open Finset Function

namespace PCT

/-- A schedule for the first part is complete: every thread has handled all its vertices. -/
def Collected (G : Graph) (φ : Nat → Nat) (blocks : Option (Nat × Nat)) (T : Nat) (work : Nat → List Nat) (sched : List Nat) : Prop :=
  (∀ t ∈ sched, t < T) ∧ ∀ t, t < T → (collect G φ (contestedKey blocks) work sched).code t = []

/-- Shared memory and keys after the first two parts. -/
def collected (G : Graph) (φ : Nat → Nat) (blocks : Option (Nat × Nat)) (T : Nat) (work : Nat → List Nat) (sched : List Nat)
    (τ : Nat) : St := insertContested T τ blocks (collect G φ (contestedKey blocks) work sched)

/-- A thread has written all its edges. -/
def Finished (s : Wr) (t : Nat) : Prop := (s.thr t).pc = .idle ∧ (s.thr t).keys = []

/-- A schedule for the third part is complete. -/
def Written (s : St) (T : Nat) (sched : List Nat) : Prop :=
  (∀ t ∈ sched, t < T) ∧ ∀ t, t < T → Finished (write s sched) t

/-- In a schedule for the third part, every step is taken by a thread that is not finished. -/
def Active (s : St) (T : Nat) (sched : List Nat) : Prop :=
  ∀ pre t post, sched = pre ++ t :: post → t < T ∧ ¬ Finished (write s pre) t

end PCT
open PCT

/-- C56: for every distribution of the vertices to `T` threads, every interleaving in the first and in the third part, every
choice of the contested pair of blocks and of the thread that executes the single region, the returned graph is the quotient:
its vertices are the blocks, the weight between two blocks is the total weight of the edges between their members, and it
has no self loops and no parallel edges. -/
theorem C56_quotient (G : Graph) (hG : G.WF) (φ : Nat → Nat) (N : Nat) (hN : N ≤ 2 ^ 32) (hφ : ∀ u, u < G.n → φ u < N)
    (hsurj : ∀ p, p < N → ∃ u, u < G.n ∧ φ u = p) (blocks : Option (Nat × Nat)) (hb : ∀ b, blocks = some b → b.1 < N ∧ b.2 < N)
    (T : Nat) (work : Nat → List Nat) (hw : ((List.range T).flatMap work).Perm (List.range G.n)) (sched₁ : List Nat)
    (h₁ : Collected G φ blocks T work sched₁) (τ : Nat) (hτ : τ < T) (sched₂ : List Nat)
    (h₂ : Written (collected G φ blocks T work sched₁ τ) T sched₂) :
    IsContraction G (result N (collected G φ blocks T work sched₁ τ).degrees
      (write (collected G φ blocks T work sched₁ τ) sched₂).edges) φ ∧
    (result N (collected G φ blocks T work sched₁ τ).degrees
      (write (collected G φ blocks T work sched₁ τ) sched₂).edges).Simple :=
  result_spec hG hN hφ hsurj (PCT.collect_spec hG hN hφ hw hb h₁.1 h₁.2 hτ) h₂.1 h₂.2

/-- C56 for mutable graphs: the same, for every order in which the threads enter the critical section; the result is a consistent
mutable graph. -/
theorem C56_mutable (G : Graph) (hG : G.WF) (φ : Nat → Nat) (N : Nat) (hN : N ≤ 2 ^ 32) (hφ : ∀ u, u < G.n → φ u < N)
    (hsurj : ∀ p, p < N → ∃ u, u < G.n ∧ φ u = p) (blocks : Option (Nat × Nat)) (hb : ∀ b, blocks = some b → b.1 < N ∧ b.2 < N)
    (T : Nat) (work : Nat → List Nat) (hw : ((List.range T).flatMap work).Perm (List.range G.n)) (sched₁ : List Nat)
    (h₁ : Collected G φ blocks T work sched₁) (τ : Nat) (hτ : τ < T) (order : List Nat) (ho : order.Perm (List.range T)) :
    IsContraction G (writeM N (collected G φ blocks T work sched₁ τ) order).toGraph φ ∧
    (writeM N (collected G φ blocks T work sched₁ τ) order).Consistent ∧
    (writeM N (collected G φ blocks T work sched₁ τ) order).toGraph.Simple := by
  obtain ⟨h1, h2, h3⟩ := writeM_spec hG hN hφ hsurj (PCT.collect_spec hG hN hφ hw hb h₁.1 h₁.2 hτ) ho
  exact ⟨h1, MGraph.consistent_iff.2 h2, (simpleWF_of_mutable h2 h3).2⟩

/-- C56 for contraction to few blocks (one array entry per ordered pair of blocks): the same, for every order in which the threads
enter the critical section. -/
theorem C56_full_mesh (G : Graph) (hG : G.WF) (φ : Nat → Nat) (N : Nat) (hφ : ∀ u, u < G.n → φ u < N)
    (hsurj : ∀ p, p < N → ∃ u, u < G.n ∧ φ u = p) (T : Nat) (work : Nat → List Nat)
    (hw : ((List.range T).flatMap work).Perm (List.range G.n)) (order : List Nat) (ho : order.Perm (List.range T)) :
    IsContraction G (fullMesh G φ N work order) φ ∧ (fullMesh G φ N work order).Simple :=
  fullMesh_spec hG hφ hsurj hw ho

/-- C56: contraction to few blocks accesses its arrays of size `N * (N - 1)` only inside the bounds. -/
theorem C56_full_mesh_bounds (N p q : Nat) (hp : p < N) (hq : q < N) (hpq : p ≠ q) : meshId N p q < N * (N - 1) :=
  meshId_lt hp hq hpq

/-- C56: in the first part no thread waits: there is a number of steps after which a thread is done, whatever the others do. -/
theorem C56_wait_free (G : Graph) (φ : Nat → Nat) (contested : Nat) (work : Nat → List Nat) (t : Nat) :
    ∃ k, ∀ sched : List Nat, k ≤ sched.count t → (PCT.collect G φ contested work sched).code t = [] := by
  refine ⟨codeCost ((start G φ contested work).code t), fun sched hk => ?_⟩
  have := PCT.collect_cost sched t (start G φ contested work)
  exact codeCost_eq_zero (by unfold PCT.collect; omega)

/-- C56: the compare-and-swap loops of the third part are lock-free: all threads together take a bounded number of steps. -/
theorem C56_lock_free (s : St) (T : Nat) : ∃ k, ∀ sched : List Nat, Active s T sched → sched.length ≤ k := by
  refine ⟨(startWrite s).cost T, fun sched ha => ?_⟩
  have key : ∀ l rest, sched = l ++ rest → (write s l).cost T + l.length ≤ (startWrite s).cost T := by
    intro l
    induction l using List.reverseRecOn with
    | nil => intro rest _; exact le_refl _
    | append_singleton l t ih =>
      intro rest he
      have he' : sched = l ++ t :: rest := by rw [he]; simp
      obtain ⟨ht, hf⟩ := ha l t rest he'
      have h1 := ih (t :: rest) he'
      have h2 := stepWrite_cost (fun k => (s.table k).getD 0) ht (s := write s l) (by
        by_contra hc
        rw [not_or, not_not, not_not] at hc
        exact hf hc)
      have h3 : write s (l ++ [t]) = stepWrite (fun k => (s.table k).getD 0) (write s l) t := by
        simp [write, List.foldl_append]
      rw [h3, List.length_append, List.length_singleton]
      omega
  have := key sched [] (by simp)
  omega

/-! ### Examples -/

namespace PCT

/-- Blocks `{0, 1, 2}`, `{3}`, `{4, 5}` of the sample. -/
def sampleMap : Nat → Nat := fun u => if u < 3 then 0 else if u = 3 then 1 else 2

/-- Two threads; one has the vertices 0, 1, 5. -/
def sampleWork : Nat → List Nat
  | 0 => [0, 1, 5]
  | 1 => [2, 3, 4]
  | _ => []

def sampleSched₁ : List Nat := (List.replicate 25 [1, 0]).flatten
def sampleSched₂ : List Nat := (List.replicate 40 [0, 1]).flatten

end PCT

/-- Non-vacuity: two threads, the contested pair is `{0, 1, 2}`, `{4, 5}`; the schedules are complete, both threads found a key
and one of them inserted the contested edge. -/
example : ((List.range 2).flatMap sampleWork).Perm (List.range sampleGraph.n) ∧
    Collected sampleGraph sampleMap (some (2, 0)) 2 sampleWork sampleSched₁ ∧
    Written (collected sampleGraph sampleMap (some (2, 0)) 2 sampleWork sampleSched₁ 1) 2 sampleSched₂ ∧
    (result 3 (collected sampleGraph sampleMap (some (2, 0)) 2 sampleWork sampleSched₁ 1).degrees
      (write (collected sampleGraph sampleMap (some (2, 0)) 2 sampleWork sampleSched₁ 1) sampleSched₂).edges).adj =
      [[(1, 1), (2, 2)], [(2, 9), (0, 1)], [(1, 9), (0, 2)]] := by
  refine ⟨by decide, ⟨by decide, ?_⟩, ⟨by decide, ?_⟩, by decide +kernel⟩
  · have : ∀ t ∈ List.range 2, (PCT.collect sampleGraph sampleMap (contestedKey (some (2, 0))) sampleWork sampleSched₁).code t = [] := by
      decide +kernel
    intro t ht; exact this t (by simpa using ht)
  · have : ∀ t ∈ List.range 2,
        ((write (collected sampleGraph sampleMap (some (2, 0)) 2 sampleWork sampleSched₁ 1) sampleSched₂).thr t).pc = .idle ∧
        ((write (collected sampleGraph sampleMap (some (2, 0)) 2 sampleWork sampleSched₁ 1) sampleSched₂).thr t).keys = [] := by
      decide +kernel
    intro t ht; exact this t (by simpa using ht)

/-- Non-vacuity: mutable graph, second thread first. -/
example : (writeM 3 (collected sampleGraph sampleMap none 2 sampleWork sampleSched₁ 1) [1, 0]).toGraph.wt 2 1 = 9 ∧
    (writeM 3 (collected sampleGraph sampleMap none 2 sampleWork sampleSched₁ 1) [1, 0]).toGraph.wt 0 2 = 2 := by
  decide +kernel

/-- Non-vacuity: contraction to few blocks. -/
example : (fullMesh sampleGraph sampleMap 3 sampleWork [1, 0]).adj = [[(1, 1), (2, 2)], [(0, 1), (2, 9)], [(0, 2), (1, 9)]] := by
  decide +kernel

/-- Non-vacuity: a compare-and-swap of thread 1 fails because thread 0 was faster at the same vertex; every step is taken by an
unfinished thread. -/
example : ((write (collected sampleGraph sampleMap none 2 sampleWork sampleSched₁ 1) [1, 1, 1, 1, 1, 1, 0, 0, 0, 0]).thr 1).pc =
      .casB 1 0 2 3 ∧
    ((write (collected sampleGraph sampleMap none 2 sampleWork sampleSched₁ 1) [1, 1, 1, 1, 1, 1, 0, 0, 0, 0, 1]).thr 1).pc =
      .readB 1 0 := by
  decide +kernel

end VieCut
