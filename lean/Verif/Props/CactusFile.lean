import Verif.Proof.CactusFile
import Verif.Proof.MutableHistory
import Verif.Props.CactusRunShape

/-!
# C60: the file written for a cactus
-/

namespace VieCut
open CactusFile

/-- **C60.**  The GraphML file that `findAllMincuts` writes for its cactus, read as the format says, has exactly the vertices of the cactus, each
with the original vertices it contains, and every undirected edge exactly once: edges go from a smaller to a larger vertex, the weights
of the edges of the file between two vertices sum up to the weight between them in the cactus, and there are as many edges. -/
theorem C60_written_cactus (C : MGraph) (hC : C.Consistent) :
    let items := readCactus (writeCactus C)
    nodesOf items = (List.range C.n).map (fun p => (p, C.cont p)) ∧
    (∀ u v w, (u, v, w) ∈ edgesOf items → u < v ∧ v < C.n) ∧
    (∀ u v, u < v → v < C.n → (weightsOf items u v).sum = C.toGraph.wt u v ∧
      (weightsOf items u v).length = ((List.range (C.len u)).filter fun e => (C.edge u e).target == v).length) := by
  have hv := MGraph.consistent_iff.1 hC
  intro items
  refine ⟨nodesOf_written C, ?_, ?_⟩
  · intro u v w h
    have h' := (edgesOf_written C) ▸ h
    simp only [List.mem_flatMap, List.mem_range] at h'
    obtain ⟨a, ha, e, he, h'⟩ := h'
    split at h'
    · simp at h'
    next hn =>
      have h1 := List.mem_singleton.1 h'
      simp only [Prod.mk.injEq] at h1
      obtain ⟨rfl, rfl, -⟩ := h1
      have h2 := (MGraph.valid_iff.1 hv).1 u e ha he
      refine ⟨?_, h2.1⟩
      have h3 := h2.2.2.2.2.2
      omega
  · intro u v huv hvn
    have hu : u < C.n := by omega
    constructor
    · unfold weightsOf
      rw [written_sum hu huv (fun w => w), MGraph.toGraph_wt C hu]
      rfl
    · unfold weightsOf
      have h1 := written_sum (C := C) hu huv (fun _ => 1)
      rw [List.length_map, ← List.countP_eq_length_filter, ← List.countP_eq_length_filter]
      rw [List.map_const', List.sum_replicate, smul_eq_mul, mul_one, ← List.countP_eq_length_filter] at h1
      rw [h1]
      generalize C.len u = n
      induction n with
      | zero => rfl
      | succ n ih =>
        rw [Finset.sum_range_succ, ih, List.range_succ, List.countP_append]
        simp [List.countP_cons]

/-- **C60, all minimum cuts from the file.**  If the graph represents the minimum cuts of `G` (as the one returned by `findAllMincuts` does,
`C37_run_cactus_partial`), the file alone determines them: `S` is a minimum cut exactly if it is the set of vertices listed at one side of a
cut of weight `c` of the written graph. -/
theorem C60_file_cuts (G : Graph) (C : MGraph) (c : Nat) (hc : 0 < c) (h : RepresentsMinCuts G C C.pos c) (hl : ListsMatch C G.n)
    (S : Nat → Bool) :
    let items := readCactus (writeCactus C)
    (ProperCut G.n S ∧ cutValue G.n G.wt S = c) ↔
      ∃ X, cutValue (nodesOf items).length (fileWt items) X = c ∧ ∀ p l, (p, l) ∈ nodesOf items → ∀ v ∈ l, S v = X p := by
  intro items
  obtain ⟨w1, w2, w3⟩ := C60_written_cactus C h.consistent
  have hlen : (nodesOf items).length = C.n := by rw [w1]; simp
  have hsym := (MGraph.consistent_iff.1 h.consistent).wf.wt_symm
  have hcut : ∀ X, cutValue C.n (fileWt items) X = cutValue C.n C.toGraph.wt X := by
    intro X
    unfold cutValue
    refine Finset.sum_congr rfl fun u hu => Finset.sum_congr rfl fun v hv => ?_
    have hu' := Finset.mem_range.1 hu
    have hv' := Finset.mem_range.1 hv
    split
    next hx =>
      have hne : u ≠ v := by
        rintro rfl
        rw [hx.1] at hx
        exact Bool.noConfusion hx.2
      unfold fileWt
      rcases Nat.lt_or_ge u v with huv | huv
      · rw [min_eq_left huv.le, max_eq_right huv.le]
        exact (w3 u v huv hv').1
      · rw [min_eq_right huv, max_eq_left huv, hsym u v]
        exact (w3 v u (by omega) hu').1
    · rfl
  have hnode : ∀ p l, (p, l) ∈ nodesOf items ↔ p < C.n ∧ l = C.cont p := by
    intro p l
    rw [w1]
    simp only [List.mem_map, List.mem_range, Prod.mk.injEq]
    constructor
    · rintro ⟨q, hq, rfl, rfl⟩
      exact ⟨hq, rfl⟩
    · rintro ⟨hp, rfl⟩
      exact ⟨p, hp, rfl, rfl⟩
  have hside : ∀ X : Nat → Bool, (∀ p l, (p, l) ∈ nodesOf items → ∀ v ∈ l, S v = X p) ↔ ∀ v, v < G.n → X (C.pos v) = S v := by
    intro X
    constructor
    · intro hx v hv
      refine (hx (C.pos v) (C.cont (C.pos v)) ((hnode _ _).2 ⟨h.lt v hv, rfl⟩) v ?_).symm
      rw [hl _ (h.lt v hv), List.mem_filter]
      exact ⟨List.mem_range.2 hv, by simp⟩
    · intro hx p l hpl v hv
      obtain ⟨hp, rfl⟩ := (hnode p l).1 hpl
      rw [hl p hp, List.mem_filter] at hv
      have h1 := hx v (List.mem_range.1 hv.1)
      have h2 : C.pos v = p := by simpa using hv.2
      rw [← h1, h2]
  rw [hlen]
  constructor
  · rintro ⟨h1, h2⟩
    obtain ⟨X, x1, x2⟩ := h.complete S h1 h2
    exact ⟨X, by rw [hcut]; exact x1, (hside X).2 x2⟩
  · rintro ⟨X, x1, x2⟩
    rw [hcut] at x1
    have hX : ProperCut C.n X := Piece.proper_of_val (by rw [x1]; omega)
    obtain ⟨s1, s2⟩ := h.sound X hX x1
    have he : ∀ v, v < G.n → X (C.pos v) = S v := (hside X).1 x2
    exact ⟨s1.congr fun v hv => he v hv, by rw [← s2]; exact (cutValue_congr he).symm⟩

/-- The graph returned for `ringSample` meets the assumptions (`C37_run_cactus_partial` and the example beside `C44_run_partial`); its file. -/
example :
    let cfg : NOICfg := ⟨.default, true, true, fun _ => 0⟩
    let con : Nat → Graph → UF → Graph × (Nat → Nat) := fun _ H uf => fromUnionFind H uf (fun _ l => l)
    (Cactus.findAllRun cfg con cfg con (fun _ => ringEnv) 12 ringSample.toGraph (fun _ => false) 2).map
      (fun r => (nodesOf (readCactus (writeCactus r.2)), edgesOf (readCactus (writeCactus r.2)))) =
      some ([(0, [1]), (1, [3]), (2, [4]), (3, [2]), (4, [5]), (5, [0]), (6, [6])],
        [(0, 3, 1), (0, 5, 1), (1, 3, 1), (1, 2, 1), (1, 6, 2), (2, 4, 1), (4, 5, 1)]) := by
  decide +kernel

/-- A triangle with a pendant vertex; vertex 1 is empty, vertex 2 contains two vertices. -/
def fileSample : MGraph :=
  { ((MGraph.start 4).run [.newEdge 0 1 1, .newEdge 1 2 1, .newEdge 0 2 1, .newEdge 2 3 2]).finishConstruction with
    cont := fun p => if p = 1 then [] else if p = 2 then [10, 2] else [p] }

/-- The graph is consistent, and the file says what the graph is. -/
example : fileSample.Consistent ∧ readCactus (writeCactus fileSample) =
    [.node 0 [0], .node 1 [], .node 2 [10, 2], .node 3 [3], .edge 0 1 1, .edge 0 2 1, .edge 1 2 1, .edge 2 3 2] := by
  refine ⟨?_, by decide +kernel⟩
  have h := (MGraph.Valid.start 4).run [.newEdge 0 1 1, .newEdge 1 2 1, .newEdge 0 2 1, .newEdge 2 3 2] (by decide +kernel)
  rw [MGraph.consistent_iff]
  rw [MGraph.valid_iff] at h ⊢
  exact h

end VieCut
