import Verif.Proof.ParallelPR
import Verif.Props.ParallelUF
import Verif.Props.Inexact

/-! # C55: the contraction tests with several threads -/

namespace VieCut
open Finset Function Graph

namespace PPR

/-- The calls of `Union` as programs of the concurrent union-find. -/
def requests (calls : Nat → List (Nat × Nat)) : Nat → List CUF.Op := fun t => (calls t).map fun p => .union p.1 p.2

/-- The pointers of the union-find after the calls `calls`, executed concurrently with schedule `sched`. -/
def pointers (calls : Nat → List (Nat × Nat)) (sched : List Nat) : Nat → Nat :=
  (CUF.run (CUF.start (requests calls)) sched).parent

/-- `H` with vertex map `φ` is obtained by contracting vertices that have the same root in the union-find. -/
def ContractsRoots (G H : Graph) (φ : Nat → Nat) (parent : Nat → Nat) : Prop :=
  IsContraction G H φ ∧ ∀ u v, u < G.n → v < G.n → φ u = φ v → CUF.SameRoot parent u v

/-- A cut that separates no requested pair is constant on the contracted classes. -/
theorem ContractsRoots.const {G H : Graph} {φ : Nat → Nat} {calls : Nat → List (Nat × Nat)} {sched : List Nat}
    (h : ContractsRoots G H φ (pointers calls sched)) {S : Nat → Bool} (hS : ∀ t, ∀ p ∈ calls t, S p.1 = S p.2) :
    ∀ u v, u < G.n → v < G.n → φ u = φ v → S u = S v := by
  intro u v hu hv he
  have hr := (CUF.C28_sound (requests calls) sched).1 u v (h.2 u v hu hv he)
  clear hu hv he
  induction hr with
  | rel a b hab =>
    obtain ⟨t, ht⟩ := hab
    simp only [requests, List.mem_map, CUF.Op.union.injEq] at ht
    obtain ⟨p, hp, rfl, rfl⟩ := ht
    exact hS t p hp
  | refl a => rfl
  | symm a b _ ih => exact ih.symm
  | trans a b c _ _ ih1 ih2 => exact ih1.trans ih2

end PPR
open PPR

/-- C55, `prTests12`, degrees below `2^32` (full property: all weights; see `C55_truncation`): for every distribution of the
vertices to threads, every interleaving of the threads and every interleaving of the calls inside the union-find, contracting
the classes leaves the minimum cut value unchanged and every minimum cut is still a cut of the contracted graph. -/
theorem C55_prTests12_partial (G : Graph) (hG : G.WF) (h32 : ∀ u, u < G.n → G.deg u < 2 ^ 32) (limit c : Nat) (all : Bool)
    (hmin : IsMinCut G.n G.wt c) (hc : c < limit) (hdeg : all = true ∨ ∀ u, u < G.n → limit ≤ G.deg u)
    (work : Nat → List Nat) (sched ufSched : List Nat) (H : Graph) (φ : Nat → Nat)
    (hH : ContractsRoots G H φ (pointers (run12 G limit all work sched).calls ufSched)) :
    IsMinCut H.n H.wt c ∧
    ∀ S, ProperCut G.n S → cutValue G.n G.wt S = c → ∃ T : Nat → Bool, ∀ u, u < G.n → T (φ u) = S u := by
  have hk : ∀ S, ProperCut G.n S → cutValue G.n G.wt S = c → ∀ u v, u < G.n → v < G.n → φ u = φ v → S u = S v := by
    intro S hS hv
    refine hH.const fun t p hp => ?_
    exact ((inv12_run G limit all work sched).calls t p hp).same hG h32 hS (fun T hT => by rw [hv]; exact hmin.2 T hT)
      (by omega) hdeg
  refine ⟨?_, ?_⟩
  · obtain ⟨S, s1, s2⟩ := hmin.1
    exact hH.1.isMinCut hmin s1 (le_of_eq s2) (hk S s1 s2)
  · intro S s1 s2
    obtain ⟨T, t, _⟩ := hH.1.push (hk S s1 s2)
    exact ⟨T, t⟩

/-- C55, `prTests34`, graphs without parallel edges and with degrees below `2^32` (full property: all graphs; see
`C55_parallel_edges`): the same; all minimum cuts survive with `find_all_cuts`, otherwise at least one. -/
theorem C55_prTests34_partial (G : Graph) (hG : G.WF) (hs : G.Simple) (h32 : ∀ u, u < G.n → G.deg u < 2 ^ 32) (limit c : Nat)
    (all : Bool) (hmin : IsMinCut G.n G.wt c) (hc : c < limit) (hdeg : all = true ∨ ∀ u, u < G.n → limit ≤ G.deg u)
    (work : Nat → List Nat) (sched ufSched : List Nat) (H : Graph) (φ : Nat → Nat)
    (hH : ContractsRoots G H φ (pointers (fun t => ((run34 G limit all work sched).thr t).calls) ufSched)) :
    IsMinCut H.n H.wt c ∧
    (all = true → ∀ S, ProperCut G.n S → cutValue G.n G.wt S = c → ∃ T : Nat → Bool, ∀ u, u < G.n → T (φ u) = S u) := by
  have hi := inv34_run (limit := limit) (all := all) hG h32 hs work sched
  have hk : all = true → ∀ S, ProperCut G.n S → cutValue G.n G.wt S = c →
      ∀ u v, u < G.n → v < G.n → φ u = φ v → S u = S v := by
    intro ha S s1 s2
    subst ha
    refine hH.const fun t p hp => ?_
    rcases hi.calls t p hp with h | h
    · exact (hi.tri p h).same hG s1 (fun T hT => by rw [s2]; exact hmin.2 T hT) (by omega)
    · exact h S (by omega)
  refine ⟨?_, ?_⟩
  · cases all with
    | true =>
      obtain ⟨S, s1, s2⟩ := hmin.1
      exact hH.1.isMinCut hmin s1 (le_of_eq s2) (hk rfl S s1 s2)
    | false =>
      obtain ⟨S, s1, s2⟩ := hmin.1
      obtain ⟨T, t1, t2, t3⟩ := exists_cut hG (hdeg.resolve_left (by simp)) hc _ hi.tri hi.apart ⟨S, s1, le_of_eq s2⟩
      refine hH.1.isMinCut hmin t1 t2 (hH.const fun t p hp => ?_)
      rcases hi.calls t p hp with h | h
      · exact t3 p h
      · exact h T (by omega)
  · intro ha S s1 s2
    obtain ⟨T, t, _⟩ := hH.1.push (hk ha S s1 s2)
    exact ⟨T, t⟩

/-- C55: no thread waits for another one: there is a number of steps after which a thread has handled its vertices, whatever
the other threads do. -/
theorem C55_progress (G : Graph) (limit : Nat) (all : Bool) (work : Nat → List Nat) (t : Nat) :
    ∃ k, ∀ sched : List Nat, k ≤ sched.count t →
      (run12 G limit all work sched).code t = [] ∧
      ((run34 G limit all work sched).thr t).pc = .idle ∧ ((run34 G limit all work sched).thr t).work = [] := by
  refine ⟨max (codeCost ((start12 G limit all work).code t)) (((start34 work).thr t).cost G), fun sched hk => ⟨?_, ?_⟩⟩
  · have := run12_cost sched t (start12 G limit all work)
    exact codeCost_eq_zero (by unfold run12; omega)
  · have := run34_cost (G := G) (limit := limit) (all := all) sched t (start34 work)
    exact Thr.done_of_cost (G := G) (by unfold run34; omega)

/-- C55: no heavy edge is missed: a thread that has handled its vertices has called `Union` for every edge of these vertices
whose weight reaches the bound. -/
theorem C55_heavy_edges (G : Graph) (limit : Nat) (all : Bool) (work : Nat → List Nat) (sched : List Nat) (t n v w : Nat)
    (hd : (run12 G limit all work sched).code t = []) (hn : n ∈ work t) (he : (v, w) ∈ G.edges n) (hw : limit ≤ w) :
    (n, v) ∈ (run12 G limit all work sched).calls t := by
  have h : Pending (run12 G limit all work sched) t n v := by
    refine pending_run sched _ (Or.inr ?_)
    simp only [start12, code, List.mem_flatMap]
    refine ⟨n, hn, (v, w), he, ?_⟩
    simp only [edgeCode, List.mem_append]
    left
    rw [if_pos hw]
    simp
  rcases h with h | h
  · exact h
  · rw [hd] at h; cases h

/-! ### Examples and counterexamples -/

namespace PPR

/-- Two threads that handle the even and the odd vertices of `sampleGraph`. -/
def evenOdd : Nat → List Nat
  | 0 => [0, 2, 4]
  | 1 => [1, 3, 5]
  | _ => []

/-- The threads take turns. -/
def turns : List Nat := (List.replicate 60 [0, 1]).flatten

/-- The classes `{0, 1}`, `{3, 4, 5}` of the sample. -/
def sampleUF : UF := ((((UF.mk' 6).union 0 1).2.union 4 5).2.union 3 5).2

/-- Contraction of a graph with few vertices, by computation. -/
theorem contractsRoots_of_check {G : Graph} (hG : G.WF) {uf : UF} (hu : uf.Inv) (hs : uf.size = G.n) {parent : Nat → Nat}
    (h : ∀ u ∈ List.range G.n, ∀ v ∈ List.range G.n, uf.root u = uf.root v →
      parent^[3] u = parent^[3] v ∧ parent (parent^[3] u) = parent^[3] u) :
    ContractsRoots G (fromUnionFind G uf (fun _ l => l)).1 (fromUnionFind G uf (fun _ l => l)).2 parent := by
  obtain ⟨c1, _, c3⟩ := fromUnionFind_spec hG hu hs (fun _ l => l) (fun _ _ => List.Perm.refl _)
  refine ⟨c1, fun u v hu hv he => ?_⟩
  obtain ⟨h1, h2⟩ := h u (List.mem_range.2 hu) v (List.mem_range.2 hv) ((c3 u v hu hv).1 he)
  exact ⟨parent^[3] u, 3, 3, rfl, h1.symm, h2⟩

theorem sampleUF_inv : sampleUF.Inv ∧ sampleUF.size = 6 := by
  have h1 := union_root (UF.init_inv 6) (l := 0) (r := 1) (by decide) (by decide)
  have h2 := union_root h1.1 (l := 4) (r := 5) (by rw [h1.2.1]; decide) (by rw [h1.2.1]; decide)
  have h3 := union_root h2.1 (l := 3) (r := 5) (by rw [h2.2.1, h1.2.1]; decide) (by rw [h2.2.1, h1.2.1]; decide)
  exact ⟨h3.1, by rw [sampleUF, h3.2.1, h2.2.1, h1.2.1]; rfl⟩

end PPR

/-- Non-vacuity: two threads on the sample graph (minimum cut 3, minimum degree 5); after the tests 1 and 2 six vertices are
contracted to three, and the thread with the odd vertices had to give up one claim. -/
example : sampleGraph.WF ∧ sampleGraph.Simple ∧ (∀ u ∈ List.range sampleGraph.n, 5 ≤ sampleGraph.deg u ∧
      sampleGraph.deg u < 2 ^ 32) ∧
    (run12 sampleGraph 5 false evenOdd turns).calls 0 = [(0, 1), (4, 5)] ∧
    (run12 sampleGraph 5 false evenOdd turns).calls 1 = [(3, 5), (5, 3), (5, 4)] ∧
    ContractsRoots sampleGraph (fromUnionFind sampleGraph sampleUF (fun _ l => l)).1
      (fromUnionFind sampleGraph sampleUF (fun _ l => l)).2
      (pointers (run12 sampleGraph 5 false evenOdd turns).calls (List.replicate 40 [0, 1]).flatten) ∧
    (fromUnionFind sampleGraph sampleUF (fun _ l => l)).1.n = 3 := by
  refine ⟨sampleGraph_wf, ?_, by decide, by decide +kernel, by decide +kernel, ?_, by decide +kernel⟩
  · have : ∀ u ∈ List.range sampleGraph.n, ((sampleGraph.edges u).map (·.1)).Nodup := by decide
    intro u hu; exact this u (by simpa using hu)
  · exact contractsRoots_of_check sampleGraph_wf sampleUF_inv.1 sampleUF_inv.2 (by decide +kernel)

/-- Non-vacuity for tests 3 and 4: each thread contracts one pair after a triangle test and further pairs because of the sum. -/
example : (run34 sampleGraph 5 false evenOdd turns).pairs = [(3, 4), (0, 1)] ∧
    ((run34 sampleGraph 5 false evenOdd turns).thr 0).calls = [(0, 1), (0, 1)] ∧
    ((run34 sampleGraph 5 false evenOdd turns).thr 1).calls = [(3, 4), (3, 4), (3, 5)] ∧
    ContractsRoots sampleGraph (fromUnionFind sampleGraph sampleUF (fun _ l => l)).1
      (fromUnionFind sampleGraph sampleUF (fun _ l => l)).2
      (pointers (fun t => ((run34 sampleGraph 5 false evenOdd turns).thr t).calls) (List.replicate 40 [0, 1]).flatten) := by
  refine ⟨by decide +kernel, by decide +kernel, by decide +kernel, ?_⟩
  exact contractsRoots_of_check sampleGraph_wf sampleUF_inv.1 sampleUF_inv.2 (by decide +kernel)

/-- Two triangles `{0,1,2}`, `{3,4,5}` of heavy edges, joined by an edge `0-3` of weight 1; vertex 0 has degree `2^32`. -/
def truncGraph2 : Graph :=
  ⟨[[(3, 1), (1, 2 ^ 31), (2, 2 ^ 31 - 1)], [(0, 2 ^ 31), (2, 2 ^ 31 - 1)], [(0, 2 ^ 31 - 1), (1, 2 ^ 31 - 1)],
    [(0, 1), (4, 2 ^ 31), (5, 2 ^ 31 - 1)], [(3, 2 ^ 31), (5, 2 ^ 31 - 1)], [(3, 2 ^ 31 - 1), (4, 2 ^ 31 - 1)]]⟩

/-- The property fails for tests 1 and 2 when a degree reaches `2^32`, even with one thread. -/
theorem C55_truncation : ∃ G : Graph, G.WF ∧ G.Simple ∧ ∃ limit, (∀ u, u < G.n → limit ≤ G.deg u) ∧
    IsMinCut G.n G.wt 1 ∧ 1 < limit ∧ ∃ work sched ufSched H φ,
      ContractsRoots G H φ (pointers (run12 G limit false work sched).calls ufSched) ∧ ¬ IsMinCut H.n H.wt 1 := by
  refine ⟨truncGraph2, Graph.wf_of_check (by decide +kernel), ?_, 2 ^ 31 + 1, ?_, ⟨⟨fun u => u < 3, ?_, ?_⟩,
    cuts_ge_of_check (by decide +kernel)⟩, by decide, fun t => if t = 0 then [0] else [], List.replicate 3 0,
    List.replicate 20 0, (fromUnionFind truncGraph2 ((UF.mk' 6).union 0 3).2 (fun _ l => l)).1,
    (fromUnionFind truncGraph2 ((UF.mk' 6).union 0 3).2 (fun _ l => l)).2, ?_, ?_⟩
  · have : ∀ u ∈ List.range truncGraph2.n, ((truncGraph2.edges u).map (·.1)).Nodup := by decide
    intro u hu; exact this u (by simpa using hu)
  · have : ∀ u ∈ List.range truncGraph2.n, 2 ^ 31 + 1 ≤ truncGraph2.deg u := by decide +kernel
    intro u hu; exact this u (by simpa using hu)
  · exact ⟨⟨0, by decide, rfl⟩, ⟨3, by decide, rfl⟩⟩
  · decide +kernel
  · have h1 := union_root (UF.init_inv 6) (l := 0) (r := 3) (by decide) (by decide)
    exact contractsRoots_of_check (Graph.wf_of_check (by decide +kernel)) h1.1 (h1.2.1.trans (by decide +kernel)) (by decide +kernel)
  · rintro ⟨⟨S, s1, s2⟩, _⟩
    have h3 : ∀ S, ProperCut (fromUnionFind truncGraph2 ((UF.mk' 6).union 0 3).2 (fun _ l => l)).1.n S →
        2 ≤ cutValue (fromUnionFind truncGraph2 ((UF.mk' 6).union 0 3).2 (fun _ l => l)).1.n
          (fromUnionFind truncGraph2 ((UF.mk' 6).union 0 3).2 (fun _ l => l)).1.wt S :=
      cuts_ge_of_check (by decide +kernel)
    have := h3 S s1
    omega

/-- The property fails for tests 3 and 4 when there are parallel edges, even with one thread. -/
theorem C55_parallel_edges : ∃ G : Graph, G.WF ∧ ∃ limit, (∀ u, u < G.n → limit ≤ G.deg u) ∧
    IsMinCut G.n G.wt 2 ∧ 2 < limit ∧ ∃ work sched ufSched H φ,
      ContractsRoots G H φ (pointers (fun t => ((run34 G limit false work sched).thr t).calls) ufSched) ∧
      ¬ IsMinCut H.n H.wt 2 := by
  refine ⟨parGraph, Graph.wf_of_check (by decide +kernel), 3, ?_, ⟨⟨fun u => u == 0 || u == 3, ?_, ?_⟩,
    cuts_ge_of_check (by decide +kernel)⟩, by decide, fun t => if t = 0 then [0] else [], List.replicate 20 0,
    List.replicate 20 0, (fromUnionFind parGraph ((UF.mk' 5).union 0 1).2 (fun _ l => l)).1,
    (fromUnionFind parGraph ((UF.mk' 5).union 0 1).2 (fun _ l => l)).2, ?_, ?_⟩
  · have : ∀ u ∈ List.range parGraph.n, 3 ≤ parGraph.deg u := by decide +kernel
    intro u hu; exact this u (by simpa using hu)
  · exact ⟨⟨0, by decide, rfl⟩, ⟨2, by decide, rfl⟩⟩
  · decide +kernel
  · have h1 := union_root (UF.init_inv 5) (l := 0) (r := 1) (by decide) (by decide)
    exact contractsRoots_of_check (Graph.wf_of_check (by decide +kernel)) h1.1 (h1.2.1.trans (by decide +kernel)) (by decide +kernel)
  · rintro ⟨⟨S, s1, s2⟩, _⟩
    have h3 : ∀ S, ProperCut (fromUnionFind parGraph ((UF.mk' 5).union 0 1).2 (fun _ l => l)).1.n S →
        3 ≤ cutValue (fromUnionFind parGraph ((UF.mk' 5).union 0 1).2 (fun _ l => l)).1.n
          (fromUnionFind parGraph ((UF.mk' 5).union 0 1).2 (fun _ l => l)).1.wt S :=
      cuts_ge_of_check (by decide +kernel)
    have := h3 S s1
    omega

end VieCut
