import Verif.Props.ParallelPR
import Verif.Props.ParallelContract
import Verif.Proof.ParallelContractNumber

/-! # C55, C56: a whole round, tests and contraction, with several threads -/

namespace VieCut
open Finset Function Graph PPR PCT

namespace PPR

/-- Programs of the threads on the union-find: the calls of `Union` made by the test, and, for the thread that builds the mapping,
`Find` for every vertex. -/
def progs (n main : Nat) (calls : Nat → List (Nat × Nat)) : Nat → List CUF.Op := fun t =>
  requests calls t ++ if t = main then (List.range n).map .find else []

/-- `r` holds the results of the calls of `Find`. -/
def Found (n main : Nat) (calls : Nat → List (Nat × Nat)) (sched : List Nat) (r : Nat → Nat) : Prop :=
  ∀ v, v < n → CUF.Completed (CUF.run (CUF.start (progs n main calls)) sched) main (.find v) (.elt (r v))

theorem Found.const {n main : Nat} {calls : Nat → List (Nat × Nat)} {sched : List Nat} {r : Nat → Nat}
    (h : Found n main calls sched r) {S : Nat → Bool} (hS : ∀ t, ∀ p ∈ calls t, S p.1 = S p.2) :
    ∀ u v, u < n → v < n → (number r n).map u = (number r n).map v → S u = S v := by
  intro u v hu hv he
  have hru := (number_spec r n).2.2.2 u v hu hv |>.1 he
  have h1 := h u hu
  have h2 := h v hv
  rw [hru] at h1
  have hr := (CUF.C28_sound (progs n main calls) sched).2.2.2 main main u v (r v) h1 h2
  clear hu hv he hru h1 h2
  induction hr with
  | rel a b hab =>
    obtain ⟨t, ht⟩ := hab
    simp only [progs, List.mem_append] at ht
    rcases ht with ht | ht
    · simp only [requests, List.mem_map, CUF.Op.union.injEq] at ht
      obtain ⟨p, hp, rfl, rfl⟩ := ht
      exact hS t p hp
    · split at ht
      · simp at ht
      · cases ht
  | refl a => rfl
  | symm a b _ ih => exact ih.symm
  | trans a b c _ _ ih1 ih2 => exact ih1.trans ih2

end PPR

/-- C56 with the mapping of `fromUnionFind`: whatever `Find` returned, the parallel contraction is a contraction of the graph
along the classes of vertices with equal results. -/
theorem C56_fromUnionFind (G : Graph) (hG : G.WF) (hn : G.n ≤ 2 ^ 32) (r : Nat → Nat) (blocks : Option (Nat × Nat))
    (hb : ∀ b, blocks = some b → b.1 < (number r G.n).pid ∧ b.2 < (number r G.n).pid)
    (T : Nat) (work : Nat → List Nat) (hw : ((List.range T).flatMap work).Perm (List.range G.n)) (sched₁ : List Nat)
    (h₁ : Collected G (number r G.n).map blocks T work sched₁) (τ : Nat) (hτ : τ < T) (sched₂ : List Nat)
    (h₂ : Written (collected G (number r G.n).map blocks T work sched₁ τ) T sched₂) :
    IsContraction G (result (number r G.n).pid (collected G (number r G.n).map blocks T work sched₁ τ).degrees
      (write (collected G (number r G.n).map blocks T work sched₁ τ) sched₂).edges) (number r G.n).map ∧
    ∀ u v, u < G.n → v < G.n → ((number r G.n).map u = (number r G.n).map v ↔ r u = r v) := by
  obtain ⟨n1, n2, n3, n4⟩ := number_spec r G.n
  exact ⟨(C56_quotient G hG _ _ (by omega) n1 n2 blocks hb T work hw sched₁ h₁ τ hτ sched₂ h₂).1, n4⟩

/-- C55, a whole round with tests 1 and 2 (degrees below `2^32`; full property: all weights): tests, union-find, mapping and
contraction with several threads; every interleaving in every phase; the minimum cut value does not change. -/
theorem C55_round12_partial (G : Graph) (hG : G.WF) (h32 : ∀ u, u < G.n → G.deg u < 2 ^ 32) (hn : G.n ≤ 2 ^ 32)
    (limit c : Nat) (all : Bool) (hmin : IsMinCut G.n G.wt c) (hc : c < limit)
    (hdeg : all = true ∨ ∀ u, u < G.n → limit ≤ G.deg u)
    -- tests
    (work : Nat → List Nat) (sched : List Nat)
    -- union-find
    (main : Nat) (ufSched : List Nat) (r : Nat → Nat) (hr : Found G.n main (run12 G limit all work sched).calls ufSched r)
    -- contraction
    (blocks : Option (Nat × Nat)) (hb : ∀ b, blocks = some b → b.1 < (number r G.n).pid ∧ b.2 < (number r G.n).pid)
    (T : Nat) (work' : Nat → List Nat) (hw : ((List.range T).flatMap work').Perm (List.range G.n)) (sched₁ : List Nat)
    (h₁ : Collected G (number r G.n).map blocks T work' sched₁) (τ : Nat) (hτ : τ < T) (sched₂ : List Nat)
    (h₂ : Written (collected G (number r G.n).map blocks T work' sched₁ τ) T sched₂) :
    IsMinCut (number r G.n).pid (result (number r G.n).pid (collected G (number r G.n).map blocks T work' sched₁ τ).degrees
      (write (collected G (number r G.n).map blocks T work' sched₁ τ) sched₂).edges).wt c := by
  obtain ⟨n1, n2, n3, n4⟩ := number_spec r G.n
  have hH := (C56_quotient G hG _ _ (by omega) n1 n2 blocks hb T work' hw sched₁ h₁ τ hτ sched₂ h₂).1
  obtain ⟨S, s1, s2⟩ := hmin.1
  have := hH.isMinCut hmin s1 (le_of_eq s2) (hr.const fun t p hp =>
    ((inv12_run G limit all work sched).calls t p hp).same hG h32 s1 (fun T hT => by rw [s2]; exact hmin.2 T hT) (by omega) hdeg)
  have hnn : (result (number r G.n).pid (collected G (number r G.n).map blocks T work' sched₁ τ).degrees
      (write (collected G (number r G.n).map blocks T work' sched₁ τ) sched₂).edges).n = (number r G.n).pid := by
    simp [result, Graph.n]
  rwa [hnn] at this

/-- C55, a whole round with tests 3 and 4 (no parallel edges, degrees below `2^32`; full property: all graphs). -/
theorem C55_round34_partial (G : Graph) (hG : G.WF) (hs : G.Simple) (h32 : ∀ u, u < G.n → G.deg u < 2 ^ 32) (hn : G.n ≤ 2 ^ 32)
    (limit c : Nat) (all : Bool) (hmin : IsMinCut G.n G.wt c) (hc : c < limit)
    (hdeg : all = true ∨ ∀ u, u < G.n → limit ≤ G.deg u)
    (work : Nat → List Nat) (sched : List Nat)
    (main : Nat) (ufSched : List Nat) (r : Nat → Nat)
    (hr : Found G.n main (fun t => ((run34 G limit all work sched).thr t).calls) ufSched r)
    (blocks : Option (Nat × Nat)) (hb : ∀ b, blocks = some b → b.1 < (number r G.n).pid ∧ b.2 < (number r G.n).pid)
    (T : Nat) (work' : Nat → List Nat) (hw : ((List.range T).flatMap work').Perm (List.range G.n)) (sched₁ : List Nat)
    (h₁ : Collected G (number r G.n).map blocks T work' sched₁) (τ : Nat) (hτ : τ < T) (sched₂ : List Nat)
    (h₂ : Written (collected G (number r G.n).map blocks T work' sched₁ τ) T sched₂) :
    IsMinCut (number r G.n).pid (result (number r G.n).pid (collected G (number r G.n).map blocks T work' sched₁ τ).degrees
      (write (collected G (number r G.n).map blocks T work' sched₁ τ) sched₂).edges).wt c := by
  obtain ⟨n1, n2, n3, n4⟩ := number_spec r G.n
  have hH := (C56_quotient G hG _ _ (by omega) n1 n2 blocks hb T work' hw sched₁ h₁ τ hτ sched₂ h₂).1
  have hnn : (result (number r G.n).pid (collected G (number r G.n).map blocks T work' sched₁ τ).degrees
      (write (collected G (number r G.n).map blocks T work' sched₁ τ) sched₂).edges).n = (number r G.n).pid := by
    simp [result, Graph.n]
  generalize result (number r G.n).pid (collected G (number r G.n).map blocks T work' sched₁ τ).degrees
      (write (collected G (number r G.n).map blocks T work' sched₁ τ) sched₂).edges = H at hH hnn ⊢
  rw [← hnn]
  have hi := inv34_run (limit := limit) (all := all) hG h32 hs work sched
  obtain ⟨S, s1, s2⟩ := hmin.1
  cases all with
  | true =>
    refine hH.isMinCut hmin s1 (le_of_eq s2) (hr.const fun t p hp => ?_)
    rcases hi.calls t p hp with h | h
    · exact (hi.tri p h).same hG s1 (fun T hT => by rw [s2]; exact hmin.2 T hT) (by omega)
    · exact h S (by omega)
  | false =>
    obtain ⟨T', t1, t2, t3⟩ := exists_cut hG (hdeg.resolve_left (by simp)) hc _ hi.tri hi.apart ⟨S, s1, le_of_eq s2⟩
    refine hH.isMinCut hmin t1 t2 (hr.const fun t p hp => ?_)
    rcases hi.calls t p hp with h | h
    · exact t3 p h
    · exact h T' (by omega)

/-! ### Example -/

namespace PPR

/-- Schedule of the union-find in the sample: both threads unite, then thread 0 searches. -/
def roundSched : List Nat := (List.replicate 60 [0, 1]).flatten ++ List.replicate 100 0

/-- Results of `Find` in the sample. -/
def roundRoots : Nat → Nat
  | 0 => 1
  | 1 => 1
  | 2 => 2
  | _ => 5

end PPR

/-- Non-vacuity: a round with two threads in every phase contracts the sample to three vertices. -/
example : Found sampleGraph.n 0 (run12 sampleGraph 5 false evenOdd turns).calls roundSched roundRoots ∧
    (number roundRoots 6).pid = 3 ∧ (List.range 6).map (number roundRoots 6).map = [0, 0, 1, 2, 2, 2] ∧
    Collected sampleGraph (number roundRoots 6).map none 2 sampleWork sampleSched₁ ∧
    Written (collected sampleGraph (number roundRoots 6).map none 2 sampleWork sampleSched₁ 0) 2 sampleSched₂ := by
  refine ⟨?_, by decide +kernel, by decide +kernel, ⟨by decide, ?_⟩, ⟨by decide, ?_⟩⟩
  · have : ∀ v ∈ List.range 6, (0, CUF.Op.find v, CUF.Res.elt (roundRoots v)) ∈
        (CUF.run (CUF.start (progs sampleGraph.n 0 (run12 sampleGraph 5 false evenOdd turns).calls)) roundSched).out := by
      decide +kernel
    intro v hv; exact this v (List.mem_range.2 hv)
  · have : ∀ t ∈ List.range 2,
        (PCT.collect sampleGraph (number roundRoots 6).map (contestedKey none) sampleWork sampleSched₁).code t = [] := by
      decide +kernel
    intro t ht; exact this t (List.mem_range.2 ht)
  · have : ∀ t ∈ List.range 2,
        ((write (collected sampleGraph (number roundRoots 6).map none 2 sampleWork sampleSched₁ 0) sampleSched₂).thr t).pc = .idle ∧
        ((write (collected sampleGraph (number roundRoots 6).map none 2 sampleWork sampleSched₁ 0) sampleSched₂).thr t).keys = [] := by
      decide +kernel
    intro t ht; exact this t (List.mem_range.2 ht)

end VieCut
