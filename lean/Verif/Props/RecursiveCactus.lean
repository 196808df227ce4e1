import Verif.Model.RecursiveCactus
import Verif.Model.AllCutRed
import Verif.Model.NodeHeap
import Verif.Proof.CactusCheck
import Verif.Proof.RecPick

/-!
# C57: the recursion of the cactus computation
-/

namespace VieCut
open RecCactus

/-- A graph with six vertices and minimum cut 8. -/
def recSample : MGraph := ((MGraph.start 6).run [.newEdge 2 4 1, .newEdge 3 5 1, .newEdge 0 1 4, .newEdge 0 2 3, .newEdge 0 3 1,
  .newEdge 0 4 3, .newEdge 0 5 1, .newEdge 1 2 2, .newEdge 1 4 2, .newEdge 2 3 6, .newEdge 4 5 6]).finishConstruction

/-- A run in which the random choice of the flow edge starts at vertex 1 of the whole graph and at vertex 2 of smaller graphs.  The
reductions are those of the code. -/
def recEnv : Env :=
  { P := NH.cls.toPQ, trigger := fun _ => false, pick := fun G => findFlowEdge (if G.n = 6 then 1 else 2) G, ordM := id
    ord := fun _ l => l, ordC := id
    red := AllRed.reduce { kind := .heap, limited := true, save := false, rnd := fun _ => 1 } (fun _ _ l => l) 8
    flowFuel := 100, mergeFuel := 20 }

/-- C57 does not hold in full: for this graph, with the random choice of flow edges, the vertex 1 is in the lists of two vertices of the
cactus. -/
theorem C57_listed_twice : recSample.Consistent ∧ recSample.NoParallel ∧
    (∀ X, ProperCut 6 X → 8 ≤ cutValue 6 recSample.toGraph.wt X) ∧
    (flowMincut recEnv 8 6 recSample).map (fun C => ((List.range C.n).map C.cont, (List.range 6).map C.pos)) =
      some ([[0, 1], [3], [5], [2], [4], [1]], [0, 5, 3, 1, 4, 2]) :=
  ⟨MGraph.consistent_iff.2 (((MGraph.Valid.start 6).run _ (by decide +kernel)).of_eq rfl rfl rfl rfl rfl), by decide +kernel,
    cuts_ge_of_check (by decide +kernel), by decide +kernel⟩

/-- **C57 (partial).**  If the run returns, the result is a cactus of all cuts of value `c` of the graph: every vertex is held once, the
cuts of weight `c` of the cactus are the minimum cuts of the graph, and different vertices of the cactus are separated by one of them.
It is assumed that the reductions do what they should whenever the ghost `okRed` allows them to be called, and that the ghost `okST`
only lets graphs pass to `findSTCactus` whose positions and lists agree.  Both are needed: see `C43_loses` and `C57_listed_twice`. -/
theorem C57_recursion_partial {E : Nat → Prop} {G C : MGraph} {c fuel : Nat} (V : Env) (hV : EnvOk V c) (hS : Steps V c) (hc : 0 < c)
    (hK : 2 * (c + 1) < 2 ^ 32) (hG : Piece E G c) (h : flowMincut V c fuel G = some C) : CactusOf E (Split G E c) C c :=
  recursive_sound hc hV (internal_sound hc hK hV hS fuel 0) E G C hG h

/-- **C57, one step.**  Let `s` and `t` be neighbours and let `lab` number the classes of vertices that no minimum cut between `s` and `t`
separates, in the order of these cuts, from the class of `s` to the class of `t`.  Then `findSTCactus` ends, and its result is a cactus
of exactly those minimum cuts of the graph that cut no class, whether or not they separate `s` from `t`. -/
theorem C57_findSTCactus {E : Nat → Prop} {G : MGraph} {lab : Nat → Nat} {k s t c : Nat} (hG : Piece E G c) (hc : 0 < c)
    (hK : 2 * (c + 1) < 2 ^ 32) (hl : STCactus.Listed G) (H : STClasses G lab k s t c) (hst : 0 < G.toGraph.wt s t) :
    ∃ R, STCactus.findSTCactus c lab G s k = some R ∧ CactusOf E (SplitR G E c fun u v => lab u = lab v) R c := by
  rw [MGraph.toGraph_wt _ H.src] at hst
  obtain ⟨R, h1, h2, -⟩ := STCactus.findSTCactus_cycles hG hc hK hl H hst
  exact ⟨R, h1, h2⟩

/-- Checks that positions and lists agree. -/
def listedB (G : MGraph) : Bool := (List.range G.origNodes).all fun e => !decide (G.pos e < G.n) || (G.cont (G.pos e)).contains e

theorem listed_of_check {G : MGraph} (h : listedB G = true) : STCactus.Listed G := by
  intro e he hp
  have := List.all_eq_true.1 h e (List.mem_range.2 he)
  simpa [hp] using this

/-- A cycle with six vertices, and a vertex that hangs on it. -/
def ringSample : MGraph := ((MGraph.start 7).run [.newEdge 0 1 1, .newEdge 1 2 1, .newEdge 2 3 1, .newEdge 3 4 1, .newEdge 4 5 1,
  .newEdge 0 5 1, .newEdge 3 6 2]).finishConstruction

theorem ringSample_piece : Piece (fun e => e < 7) ringSample 2 :=
  piece_of_check ((MGraph.Valid.start 7).run _ (by decide +kernel)) (by decide +kernel) (by decide +kernel) (by decide +kernel)
    (by decide +kernel) (by decide +kernel) (by decide +kernel) (by decide +kernel) (cuts_ge_of_check (by decide +kernel))

/-- The hypotheses of `C57_findSTCactus` hold for the cycle, with one class for the vertices 3 and 6.  The result is the cycle. -/
example : STCactus.Listed ringSample ∧ STClasses ringSample (fun v => if v = 6 then 3 else v) 6 0 5 2 ∧ 0 < ringSample.toGraph.wt 0 5 ∧
    (STCactus.findSTCactus 2 (fun v => if v = 6 then 3 else v) ringSample 0 6).map
      (fun C => ((List.range C.n).map C.cont, (List.range C.n).map C.len)) = some ([[0], [5], [4], [3, 6], [2], [1]], [2, 2, 2, 2, 2, 2]) := by
  refine ⟨listed_of_check (by decide +kernel), ⟨?_, ?_, by decide, by decide, rfl, rfl, by decide, ?_, ?_⟩, by decide +kernel, by decide +kernel⟩
  · intro u hu
    have : u < 7 := hu
    split <;> omega
  · intro p hp
    exact ⟨p, (by omega : p < 7), by split <;> omega⟩
  · intro i h1 h2
    have : ∀ i, i < 6 → 0 < i → ringSample.cv (fun v => decide ((if v = 6 then 3 else v) < i)) = 2 := by decide +kernel
    exact this i h2 h1
  · intro S hS hne u v hu hv huv
    obtain ⟨l, l1, l2⟩ := exists_listCut 7 S
    have key : ∀ l ∈ boolLists 7, cutValue 7 ringSample.toGraph.wt (listCut l) = 2 → listCut l 0 ≠ listCut l 5 → listCut l 3 = listCut l 6 := by
      decide +kernel
    have h36 := key l l1 ((cutValue_congr l2).trans hS) (by rw [l2 0 (by omega), l2 5 (by omega)]; exact hne)
    rw [l2 3 (by omega), l2 6 (by omega)] at h36
    have hu : u < 7 := hu
    have hv : v < 7 := hv
    by_cases h1 : u = 6
    · by_cases h2 : v = 6
      · rw [h1, h2]
      · simp only [h1, h2, if_true, if_false] at huv
        rw [h1, ← huv]; exact h36.symm
    · by_cases h2 : v = 6
      · simp only [h1, h2, if_true, if_false] at huv
        rw [h2, huv]; exact h36
      · simp only [h1, h2, if_false] at huv
        rw [huv]

/-- A graph with four vertices and minimum cut 3. -/
def leafSample : MGraph := ((MGraph.start 4).run [.newEdge 0 1 2, .newEdge 1 2 2, .newEdge 0 2 1, .newEdge 2 3 2,
  .newEdge 1 3 1]).finishConstruction

def leafEnv : Env := { recEnv with red := id, pick := maximumWeightedFlowEdge, okST := fun _ => false }

theorem leafSample_piece : Piece (fun e => e < 4) leafSample 3 :=
  piece_of_check ((MGraph.Valid.start 4).run _ (by decide +kernel)) (by decide +kernel) (by decide +kernel) (by decide +kernel)
    (by decide +kernel) (by decide +kernel) (by decide +kernel) (by decide +kernel) (cuts_ge_of_check (by decide +kernel))

example : EnvOk leafEnv 3 ∧ Steps leafEnv 3 ∧ Piece (fun e => e < 4) leafSample 3 ∧
    (flowMincut leafEnv 3 6 leafSample).map (fun C => (List.range C.n).map C.cont) = some [[1, 2], [3], [0]] :=
  ⟨⟨fun _ => List.Perm.refl _, fun _ _ => List.Perm.refl _, fun _ => List.Perm.refl _, fun _ _ hp _ h => maximumWeightedFlowEdge_ok hp h,
    fun n => ⟨2 * n, le_refl _, ⟨(NH.sim n (2 * n)).lawful⟩⟩⟩, ⟨fun _ _ hp _ => ⟨hp, fun _ => Iff.rfl⟩, fun _ h => by simp [leafEnv] at h⟩,
    leafSample_piece, by decide +kernel⟩

/-- Every argument of `findSTCactus` is checked. -/
def ringEnv : Env := { recEnv with red := id, pick := maximumWeightedFlowEdge, okST := listedB }

example : EnvOk ringEnv 2 ∧ Steps ringEnv 2 ∧ Piece (fun e => e < 7) ringSample 2 ∧
    (flowMincut ringEnv 2 9 ringSample).map (fun C => ((List.range C.n).map C.cont, (List.range C.n).map C.len)) = 
      some ([[1], [3], [4], [2], [5], [0], [6]], [2, 3, 2, 2, 2, 2, 1]) :=
  ⟨⟨fun _ => List.Perm.refl _, fun _ _ => List.Perm.refl _, fun _ => List.Perm.refl _, fun _ _ hp _ h => maximumWeightedFlowEdge_ok hp h,
    fun n => ⟨2 * n, le_refl _, ⟨(NH.sim n (2 * n)).lawful⟩⟩⟩, ⟨fun _ _ hp _ => ⟨hp, fun _ => Iff.rfl⟩, fun _ h => listed_of_check h⟩,
    ringSample_piece, by decide +kernel⟩

end VieCut
