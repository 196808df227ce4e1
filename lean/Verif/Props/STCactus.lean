import Verif.Props.Dynamic
import Verif.Proof.STCactusFlow

/-!
# The cactus that is rebuilt after an edge was removed (C42)

After `dynamic_mincut::removeEdge` lowered the minimum cut, every minimum cut separates the two ends of the removed edge.  The new cactus is
then read off one maximum flow between them.  The theorem speaks about the cuts of the graph only; `RepresentsMinCuts` and `ListsMatch` are in
Spec/Cactus.
-/

namespace VieCut
open MGraph Function

namespace STCactus

/-- **C42.** If every cut of the minimum value `c` separates `s` and `t`, the limited maximum flow from `s` to `t` followed by the rebuild ends
for every priority queue and every relabelling schedule, and yields a graph whose cuts of weight `c` are exactly the minimum cuts of `g`.
Every vertex is in exactly one vertex of that graph, and its list of contained vertices says which. -/
theorem C42_rebuild_partial {g : MGraph} (hg : g.Consistent) (hf : g.Fresh) (ho : g.origNodes = g.n) {s t c limit depth : Nat} (hs : s < g.n)
    (ht : t < g.n) (hmin : IsMinCut g.n g.toGraph.wt c)
    (hsep : ∀ S, ProperCut g.n S → cutValue g.n g.toGraph.wt S = c → S s ≠ S t) (hlim : c < limit) (hc : 2 * (c + 1) < 2 ^ 32)
    (hd : depth ≤ g.n) (P : PQ) (K : Nat) (hL : P.Lawful g.n K) (hK : 4294967296 ≤ K) (trigger : Nat → Bool) (pid : Nat) :
    ∃ R N, (∀ fuel, N ≤ fuel → flowThenRebuild P trigger depth fuel pid g s t limit c = some R) ∧
      RepresentsMinCuts g.toGraph R R.pos c ∧ ListsMatch R g.n ∧ 2 ≤ R.n ∧ R.posSize = g.n := by
  obtain ⟨R, N, h1, h2, h3, h4, -, -, h5⟩ :=
    flowThenRebuild_spec hg hf ho hs ht hmin hsep hlim hc hd P K hL hK trigger pid
  exact ⟨R, N, h1, h2, h3, h4, h5⟩

/-- Two vertices are in the same vertex of the rebuilt graph exactly if no minimum cut separates them. -/
theorem C42_classes_partial {g : MGraph} (hg : g.Consistent) (hf : g.Fresh) (ho : g.origNodes = g.n) {s t c limit depth : Nat} (hs : s < g.n)
    (ht : t < g.n) (hmin : IsMinCut g.n g.toGraph.wt c)
    (hsep : ∀ S, ProperCut g.n S → cutValue g.n g.toGraph.wt S = c → S s ≠ S t) (hlim : c < limit) (hc : 2 * (c + 1) < 2 ^ 32)
    (hd : depth ≤ g.n) (P : PQ) (K : Nat) (hL : P.Lawful g.n K) (hK : 4294967296 ≤ K) (trigger : Nat → Bool) (pid fuel : Nat)
    (R : MGraph) (hR : ∀ more, fuel ≤ more → flowThenRebuild P trigger depth more pid g s t limit c = some R) (u v : Nat) (hu : u < g.n)
    (hv : v < g.n) : R.pos u = R.pos v ↔ ∀ S, ProperCut g.n S → cutValue g.n g.toGraph.wt S = c → S u = S v := by
  obtain ⟨R', N, h1, h2, -, -, -⟩ := C42_rebuild_partial hg hf ho hs ht hmin hsep hlim hc hd P K hL hK trigger pid
  have : R' = R := by
    have a := h1 (max N fuel) (le_max_left _ _)
    rw [hR (max N fuel) (le_max_right _ _)] at a
    exact (Option.some.inj a).symm
  subst this
  have hn : g.toGraph.n = g.n := toGraph_n g
  constructor
  · intro he S hS hv'
    obtain ⟨X, -, hX⟩ := h2.complete S (by rw [hn]; exact hS) (by rw [hn]; exact hv')
    rw [← hX u (by rw [hn]; exact hu), ← hX v (by rw [hn]; exact hv), he]
  · intro h
    by_contra hne
    have pu := h2.lt u (by rw [hn]; exact hu)
    have pv := h2.lt v (by rw [hn]; exact hv)
    obtain ⟨X, x1, x2, x3⟩ := h2.separating _ _ pu pv hne
    obtain ⟨y1, y2⟩ := h2.sound X ⟨⟨_, pu, x1⟩, ⟨_, pv, x2⟩⟩ x3
    rw [hn] at y1 y2
    have := h _ y1 y2
    simp only [x1, x2] at this
    exact absurd this (by decide)

/-! ### A concrete case -/

/-- Six vertices, minimum cut 3.  The minimum cuts are those around vertex 0 and around the vertices 3 and 4. -/
def sample : MGraph := (MGraph.start 6).run
  [.newEdge 0 1 2, .newEdge 1 2 3, .newEdge 2 3 2, .newEdge 0 3 1, .newEdge 3 4 9, .newEdge 1 5 9]

theorem sample_valid : Valid sample := (Valid.start 6).run _ (by decide +kernel)

theorem sample_fresh : sample.Fresh := by
  refine ⟨rfl, ?_⟩
  have : ∀ v, v < 6 → sample.pos v = v ∧ sample.cont v = [v] := by decide +kernel
  exact this

theorem sample_min : IsMinCut 6 sample.toGraph.wt 3 :=
  ⟨⟨fun u => decide (u = 0), ⟨⟨0, by decide, rfl⟩, ⟨1, by decide, rfl⟩⟩, by decide +kernel⟩, cuts_ge_of_check (by decide +kernel)⟩

theorem sample_sep : ∀ S, ProperCut 6 S → cutValue 6 sample.toGraph.wt S = 3 → S 0 ≠ S 4 := by
  intro S hS hc he
  have key : ∀ l ∈ boolLists 6, (∃ u ∈ List.range 6, l.getD u false = true) → (∃ u ∈ List.range 6, l.getD u false = false) →
      l.getD 0 false = l.getD 4 false → 4 ≤ cutValue 6 sample.toGraph.wt (fun u => l.getD u false) := by decide +kernel
  have hl : ∀ u, u < 6 → ((List.range 6).map S).getD u false = S u := by
    intro u hu
    rw [List.getD_eq_getElem?_getD, List.getElem?_eq_getElem (by simpa using hu)]
    simp
  obtain ⟨⟨a, ha, ha'⟩, ⟨b, hb, hb'⟩⟩ := hS
  have := key ((List.range 6).map S) (by simpa using mem_boolLists ((List.range 6).map S)) ⟨a, by simpa using ha, by rw [hl a ha]; exact ha'⟩
    ⟨b, by simpa using hb, by rw [hl b hb]; exact hb'⟩ (by rw [hl 0 (by decide), hl 4 (by decide)]; exact he)
  rw [cutValue_congr (fun u hu => hl u hu)] at this
  omega

/-- The hypotheses of `C42_rebuild_partial` and `C42_classes_partial` are met by `sample`, and the result is a path of three vertices. -/
example : sample.Consistent ∧ sample.Fresh ∧ sample.origNodes = sample.n ∧ IsMinCut sample.n sample.toGraph.wt 3 ∧
    (∀ S, ProperCut sample.n S → cutValue sample.n sample.toGraph.wt S = 3 → S 0 ≠ S 4) ∧ Nonempty (NH.cls.toPQ.Lawful sample.n 4294967296) ∧
    (flowThenRebuild NH.cls.toPQ (fun _ => false) 1 40 7 sample 0 4 5 3).map
      (fun R => (R.n, [R.toGraph.edges 0, R.toGraph.edges 1, R.toGraph.edges 2], (List.range 6).map R.pos)) =
      some (3, [[(1, 3)], [(0, 3), (2, 3)], [(1, 3)]], [0, 1, 1, 2, 2, 1]) :=
  ⟨consistent_iff.2 sample_valid, sample_fresh, rfl, sample_min, sample_sep, ⟨(NH.sim _ _).lawful⟩, by decide +kernel⟩

end STCactus

/-! ### The last assumption of C30 about the removal of edges -/

namespace Dyn

/-- A graph that represents all minimum cuts and lists the vertices it contains is what `dynamic_mincut` calls a cactus. -/
theorem represents_of_minCuts {G R : MGraph} {c : Nat} (h : RepresentsMinCuts G.toGraph R R.pos c) (hl : ListsMatch R G.n) (h2 : 2 ≤ R.n)
    (hp : R.posSize = G.n) : Represents G R c ∧ Complete G R c := by
  have hn : G.toGraph.n = G.n := toGraph_n G
  refine ⟨⟨⟨h.consistent, h.simple, h2, hp, ?_, ?_⟩, ?_, h.separating⟩, ?_⟩
  · intro v hv
    have hlt := h.lt v (by rw [hn]; exact hv)
    refine ⟨hlt, ?_, ?_⟩
    · rw [hl _ hlt]
      exact List.count_eq_one_of_mem (List.nodup_range.filter _) (List.mem_filter.2 ⟨List.mem_range.2 hv, by simp⟩)
    · intro p hp' hne hm
      rw [hl p hp'] at hm
      have := (List.mem_filter.1 hm).2
      simp only [beq_iff_eq] at this
      exact hne this.symm
  · intro p hp'
    rw [hl p hp']
    exact ⟨List.nodup_range.filter _, fun v hv => List.mem_range.1 (List.mem_filter.1 hv).1⟩
  · intro X hX
    refine ⟨h.least X hX, fun he => ?_⟩
    have := h.sound X hX he
    rw [hn] at this
    exact this
  · intro S hS hc
    obtain ⟨X, h3, h4⟩ := h.complete S (by rw [hn]; exact hS) (by rw [hn]; exact hc)
    exact ⟨X, h3, fun v hv => h4 v (by rw [hn]; exact hv)⟩

/-- What is assumed of `rebuild` holds for the bounded flow followed by `decrementalRebuild`, if the limit of the flow is above the minimum cut
(`removeEdge` uses the value before the removal), the graph was constructed with its final number of vertices and the minimum cut is below 2^31 − 1. -/
theorem C30_rebuild (g : MGraph) (hg : Input g) (ho : g.origNodes = g.n) (s t c : Nat) (hs : s < g.n) (ht : t < g.n)
    (hmin : IsMinCut g.n g.toGraph.wt c) (hsep : ∀ S, ProperCut g.n S → cutValue g.n g.toGraph.wt S = c → S s ≠ S t) (limit depth : Nat)
    (hlim : c < limit) (hc : c < 2 ^ 31 - 1) (hd : depth ≤ g.n) (P : PQ) (K : Nat) (hL : P.Lawful g.n K) (hK : 4294967296 ≤ K)
    (trigger : Nat → Bool) (pid : Nat) :
    ∃ R N, (∀ fuel, N ≤ fuel → STCactus.flowThenRebuild P trigger depth fuel pid g s t limit c = some R) ∧ Represents g R c ∧
      Complete g R c := by
  obtain ⟨R, N, h1, h2, h3, h4, h5⟩ := STCactus.C42_rebuild_partial hg.consistent hg.fresh ho hs ht hmin hsep hlim (by omega) hd P K hL hK trigger pid
  exact ⟨R, N, h1, represents_of_minCuts h2 h3 h4 h5⟩

/-- The hypotheses of `C30_rebuild` are met by the sample of C42. -/
example : Input STCactus.sample ∧ STCactus.sample.origNodes = STCactus.sample.n ∧ IsMinCut STCactus.sample.n STCactus.sample.toGraph.wt 3 ∧
    (∀ S, ProperCut STCactus.sample.n S → cutValue STCactus.sample.n STCactus.sample.toGraph.wt S = 3 → S 0 ≠ S 4) :=
  ⟨⟨consistent_iff.2 STCactus.sample_valid, STCactus.sample_fresh, by decide +kernel, by decide +kernel⟩, rfl, STCactus.sample_min,
    STCactus.sample_sep⟩

end Dyn
end VieCut
