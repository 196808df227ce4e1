import Verif.Proof.CactusRunShape
import Verif.Props.CactusRun
import Verif.Props.Balanced

/-!
# C37, C44, C57: the returned graph is a cactus, and the most balanced minimum cut of a whole run

`IsCactus` (Spec/Balanced) says that two cycles with a common edge are the same cycle, and which edges weigh `c / 2` and which `c`.
-/

namespace VieCut
open RecCactus Cactus

/-- **C57, shape of the result (partial).**  If the run returns, the result is a cactus: every edge is on at most one cycle, the edges of
cycles weigh half the minimum cut, the others weigh the minimum cut.  The assumptions are those of `C57_recursion_partial`. -/
theorem C57_cactus_partial {E : Nat → Prop} {G C : MGraph} {c fuel : Nat} (V : Env) (hV : EnvOk V c) (hS : Steps V c) (hc : 0 < c)
    (hK : 2 * (c + 1) < 2 ^ 32) (hG : Piece E G c) (h : flowMincut V c fuel G = some C) : IsCactus C c :=
  isCactus_of hc (C57_recursion_partial V hV hS hc hK hG h)

/-- **C57, shape of the result of one step.** -/
theorem C57_findSTCactus_cactus {E : Nat → Prop} {G : MGraph} {lab : Nat → Nat} {k s t c : Nat} (hG : Piece E G c) (hc : 0 < c)
    (hK : 2 * (c + 1) < 2 ^ 32) (hl : STCactus.Listed G) (H : STClasses G lab k s t c) (hst : 0 < G.toGraph.wt s t) :
    ∃ R, STCactus.findSTCactus c lab G s k = some R ∧ IsCactus R c := by
  obtain ⟨R, h1, h2⟩ := C57_findSTCactus hG hc hK hl H hst
  exact ⟨R, h1, isCactus_of hc h2⟩

/-- A star with three leaves around an empty vertex, every edge of weight 2. -/
def emptyStar : MGraph :=
  { (MGraph.start 4).run [.newEdge 0 1 2, .newEdge 0 2 2, .newEdge 0 3 2, .finishConstruction] with
    cont := fun q => if q = 0 then [] else [q], origNodes := 4 }

/-- Why `C37_run_cactus_partial` and `C44_run_partial` ask for empty lists behind the last vertex: `canonizeCactus` replaces an empty vertex with
three edges by a triangle and deletes it, but the list of the last vertex stays behind.  The next vertex made by `new_empty_node` contains
vertex 3, which is at vertex 0. -/
theorem C57_stale_list : ∃ R, GraphModification.canonizeCactus 9 emptyStar 0 2 = some R ∧ R.n = 3 ∧ R.contSize = 4 ∧ R.cont 0 = [3] ∧
    R.newEmptyNode.n = 4 ∧ R.newEmptyNode.cont 3 = [3] ∧ R.newEmptyNode.pos 3 = 0 := by
  refine ⟨(GraphModification.canonizeCactus 9 emptyStar 0 2).getD emptyStar, ?_, by decide +kernel, by decide +kernel, by decide +kernel,
    by decide +kernel, by decide +kernel, by decide +kernel⟩
  have h : (GraphModification.canonizeCactus 9 emptyStar 0 2).isSome = true := by decide +kernel
  obtain ⟨R, hR⟩ := Option.isSome_iff_exists.1 h
  rw [hR]
  rfl

namespace Cactus

/-- **C37, whole run, shape of the result (partial).**  As `C37_run_partial`, and the returned graph is a cactus with `original_nodes` set
to the number of vertices of the input.  If the recursion leaves no vertices in the lists behind that of the last vertex, the stored lists are those of
the positions; this condition is needed, see `C09_new_vertex_counterexample`. -/
theorem C37_run_cactus_partial (G : Graph) (hG : G.WF) (hs : G.Simple) (hp : ∀ u e, e ∈ G.edges u → 0 < e.2) (hn : 2 ≤ G.n)
    (hb : G.totalWeight < 2 ^ 32) (cfg noiCfg : NOICfg)
    (hfit : PQFits cfg.kind G.n (G.totalWeight + 1)) (hfitN : PQFits noiCfg.kind G.n (G.totalWeight + 1))
    (ord ordN : Nat → Nat → List Nat → List Nat) (hord : ∀ l, IsOrder (ord l)) (hordN : ∀ l, IsOrder (ordN l))
    (inCut0 : Nat → Bool) (c : Nat) (hc : 0 < c) (hK : 2 * (c + 1) < 2 ^ 32) (hmin : IsMinCut G.n G.wt c) (V : Nat → Env) (hV : EnvOk (V c) c)
    (hS : Steps (V c) c)
    (hr : ∀ H : MGraph, (V c).okRed H = true → ((V c).red H).posSize = H.posSize ∧ ((V c).red H).origNodes = H.origNodes) (fuel : Nat)
    (r : Nat × MGraph) (h : findAllRun cfg (fun l H uf => fromUnionFind H uf (ord l)) noiCfg (fun l H uf => fromUnionFind H uf (ordN l))
      V fuel G inCut0 c = some r) (hv : r.1 = c) :
    RepresentsMinCuts G r.2 r.2.pos c ∧ IsCactus r.2 c ∧ r.2.origNodes = G.n ∧
    ((∀ C, flowMincut (V c) c fuel (MGraph.fromGraphAccess (kernelFinal cfg (fun l H uf => fromUnionFind H uf (ord l)) G inCut0 c).lv.cur) =
      some C → C.n ≤ C.contSize ∧ ∀ q, C.n ≤ q → q < C.contSize → C.cont q = []) → ListsMatch r.2 G.n) := by
  unfold findAllRun at h
  dsimp only at h
  obtain ⟨C, h1, h2⟩ := Option.map_eq_some_iff.1 h
  have he : findAllMincuts cfg (fun l H uf => fromUnionFind H uf (ord l)) noiCfg (fun l H uf => fromUnionFind H uf (ordN l))
      (fun K d => (flowMincut (V d) d fuel (MGraph.fromGraphAccess K)).getD C) G inCut0 c = r := by
    unfold findAllMincuts
    dsimp only
    rw [h1]
    exact h2
  have hval : finalValue noiCfg (fun l H uf => fromUnionFind H uf (ordN l))
      (kernelFinal cfg (fun l H uf => fromUnionFind H uf (ord l)) G inCut0 c) = c := by
    rw [← h2] at hv
    exact hv
  have key := findAll_spec (good := GoodG) (fun _ h => h.1) (x := G) ⟨⟨hG, hs⟩, hp⟩ hn hb cfg noiCfg hfit hfitN
    (fun l => fromUnionFind_ok_good (hord l)) (fun l => fromUnionFind_ok_good (hordN l)) inCut0 hc hmin
    (rc := fun K d => (flowMincut (V d) d fuel (MGraph.fromGraphAccess K)).getD C)
    (Q := EdgesIn (fun w => w = c ∨ 2 * w = c) C) (fun hval hgk hpk hmk => by
      rw [hval] at h1
      rw [h1, Option.getD_some]
      have hP : Piece (fun e => e < (kernelFinal cfg (fun l H uf => fromUnionFind H uf (ord l)) G inCut0 c).lv.cur.n)
          (MGraph.fromGraphAccess (kernelFinal cfg (fun l H uf => fromUnionFind H uf (ord l)) G inCut0 c).lv.cur) c :=
        piece_of_graph hgk (fun X hX => (hmk (two_of_proper hX)).2 X hX)
      have hC := C57_recursion_partial (V c) hV hS hc hK hP h1
      refine ⟨represents_of_cactus hgk hc hC, hC.ready, ?_, hC.weights⟩
      obtain ⟨-, f2, f3, -⟩ := MGraph.fromGraphAccess_spec hgk.1.1 hgk.1.2
      have hf := fromGraphAccess_frame hgk.1
      refine (flowMincut_sized (fun N H hH hk => ?_) ⟨?_, hf.2.2.1⟩ h1).1
      · obtain ⟨q1, q2⟩ := hr H hk
        exact ⟨by rw [q1]; exact hH.1, by rw [q2]; exact hH.2⟩
      · rw [f2.1, f3])
  rw [he] at key
  obtain ⟨k1, -, k3, k4⟩ := key.2.2.1 hv
  have hloc := edgesIn_locations (Q := fun w => w = c ∨ 2 * w = c) (c := c) (Or.inl rfl) k4 G.n
    (kernelFinal cfg (fun l H uf => fromUnionFind H uf (ord l)) G inCut0 c).lv.view.n
    (kernelFinal cfg (fun l H uf => fromUnionFind H uf (ord l)) G inCut0 c).lv.maps
    (kernelFinal cfg (fun l H uf => fromUnionFind H uf (ord l)) G inCut0 c).ge
  have hr2 : r.2 = setVertexLocations C G.n (kernelFinal cfg (fun l H uf => fromUnionFind H uf (ord l)) G inCut0 c).lv.view.n
      (kernelFinal cfg (fun l H uf => fromUnionFind H uf (ord l)) G inCut0 c).lv.maps
      (kernelFinal cfg (fun l H uf => fromUnionFind H uf (ord l)) G inCut0 c).ge c := by
    rw [← h2]
    show setVertexLocations C G.n _ _ _ (finalValue _ _ _) = _
    rw [hval]
  rw [← hr2] at hloc
  refine ⟨k1, isCactus_represents hc k1 hloc.1, hloc.2, fun hsz => k3 ?_⟩
  rw [hval] at h1
  rw [h1, Option.getD_some]
  exact hsz C h1

/-- **C37, whole call on a small graph (partial).**  `findAllMincuts` without a known value on a connected `graph_access` of 2 to 100
vertices, without parallel edges and without edges of weight zero: `viecut` computes the minimum cut, and if the run with the recursion
returns, it returns this value and a cactus whose cuts of this weight are exactly the minimum cuts of the input.  The assumptions about the
recursion are those of `C57_recursion_partial`. -/
theorem C37_small_run_partial (G : Graph) (hG : G.WF) (hs : G.Simple) (hp : ∀ u e, e ∈ G.edges u → 0 < e.2) (hn : 2 ≤ G.n)
    (h100 : G.n ≤ 100) (hb : 2 * (G.totalWeight + 1) < 2 ^ 32)
    (vcfg : VCfg) (cfg noiCfg : NOICfg) (hσ : ∀ l k x, (vcfg.lpShuffle l k x).Perm x) (hfitV : PQFits vcfg.noi.kind G.n G.totalWeight)
    (hfit : PQFits cfg.kind G.n (G.totalWeight + 1)) (hfitN : PQFits noiCfg.kind G.n (G.totalWeight + 1))
    (ordV ordVN ordM ord ordN : Nat → Nat → List Nat → List Nat) (hordV : ∀ l, IsOrder (ordV l)) (hordVN : ∀ l, IsOrder (ordVN l))
    (hordM : ∀ l, IsOrder (ordM l)) (hord : ∀ l, IsOrder (ord l)) (hordN : ∀ l, IsOrder (ordN l))
    (inCut0 : Nat → Bool) (V : Nat → Env)
    (hV : ∀ c, 0 < c → IsMinCut G.n G.wt c → EnvOk (V c) c ∧ Steps (V c) c ∧
      ∀ H : MGraph, (V c).okRed H = true → ((V c).red H).posSize = H.posSize ∧ ((V c).red H).origNodes = H.origNodes) (fuel : Nat)
    (hcon : ∀ S, ProperCut G.n S → 0 < cutValue G.n G.wt S) :
    ∃ c flags, viecutFinal vcfg (fun l H uf => fromUnionFind H uf (ordV l)) (fun l H uf => fromUnionFind H uf (ordVN l))
        (fun l H m r p => contractGraphA H m r p (ordM l)) G inCut0 = some (c, flags) ∧ IsMinCut G.n G.wt c ∧
      ∀ r, findAllRun cfg (fun l H uf => fromUnionFind H uf (ord l)) noiCfg (fun l H uf => fromUnionFind H uf (ordN l)) V fuel G flags c =
        some r → r.1 = c ∧ RepresentsMinCuts G r.2 r.2.pos c ∧ IsCactus r.2 c ∧ r.2.origNodes = G.n := by
  obtain ⟨c, flags, h1, _, _, h4⟩ := C12_viecut G hG hn (by omega) vcfg hσ hfitV ordV ordVN ordM hordV hordVN hordM inCut0
  have hmin := (h4 (by omega)).1
  obtain ⟨S, s1, s2⟩ := hmin.1
  have hc : 0 < c := by rw [← s2]; exact hcon S s1
  have hle : c ≤ G.totalWeight := by rw [← s2]; exact cutValue_le_total hG S
  obtain ⟨v1, v2, v3⟩ := hV c hc hmin
  refine ⟨c, flags, h1, hmin, fun r hr => ?_⟩
  have hv := (C37_run_partial G hG hs hp hn (by omega) cfg noiCfg hfit hfitN ord ordN hord hordN flags c hc (by omega) hmin V v1 v2 v3 fuel r
    hr).2.1 h100
  obtain ⟨a1, a2, a3, -⟩ := C37_run_cactus_partial G hG hs hp hn (by omega) cfg noiCfg hfit hfitN ord ordN hord hordN flags c hc (by omega)
    hmin V v1 v2 v3 fuel r hr hv
  exact ⟨hv, a1, a2, a3⟩

/-- The graph of `ringSample` meets the assumptions (those on the recursion are shown beside `C37_run_partial`): `viecut` finds `2`, and the
run with this value returns the cactus with seven vertices. -/
example :
    let cfg : NOICfg := ⟨.default, true, true, fun _ => 0⟩
    let con : Nat → Graph → UF → Graph × (Nat → Nat) := fun _ H uf => fromUnionFind H uf (fun _ l => l)
    let G := ringSample.toGraph
    G.n = 7 ∧ 2 * (G.totalWeight + 1) < 2 ^ 32 ∧
    ((viecutFinal ⟨cfg, fun _ _ => 0, fun _ _ l => l⟩ con con (fun _ H m r p => contractGraphA H m r p (fun _ l => l)) G (fun _ => false)).bind fun q =>
      (findAllRun cfg con cfg con (fun _ => ringEnv) 12 G q.2 q.1).map fun r => (q.1, r.1, r.2.n, r.2.origNodes)) = some (2, 2, 7, 7) := by
  decide +kernel

/-- **C44, whole run (partial).**  `findAllMincuts` followed by the search for the most balanced cut (cactus_mincut.h:67-192), on a
connected `graph_access` without parallel edges and without edges of weight zero, called with the minimum cut `c`.  If the run returns
`c` and a graph, the search returns a minimum cut such that no minimum cut of the input has a heavier lighter side, and exactly the edges
between its two sides.  Up to 100 vertices the returned value is always `c` (`C37_run_partial`).  What is assumed: the conditions of
`C57_recursion_partial`, and that the recursion leaves no vertices in the
lists behind that of the last vertex. -/
theorem C44_run_partial (G : Graph) (hG : G.WF) (hs : G.Simple) (hp : ∀ u e, e ∈ G.edges u → 0 < e.2) (hn : 2 ≤ G.n)
    (hb : G.totalWeight < 2 ^ 32) (cfg noiCfg : NOICfg)
    (hfit : PQFits cfg.kind G.n (G.totalWeight + 1)) (hfitN : PQFits noiCfg.kind G.n (G.totalWeight + 1))
    (ord ordN : Nat → Nat → List Nat → List Nat) (hord : ∀ l, IsOrder (ord l)) (hordN : ∀ l, IsOrder (ordN l))
    (inCut0 : Nat → Bool) (c : Nat) (hc : 0 < c) (hK : 2 * (c + 1) < 2 ^ 32) (hmin : IsMinCut G.n G.wt c) (V : Nat → Env) (hV : EnvOk (V c) c)
    (hS : Steps (V c) c)
    (hr : ∀ H : MGraph, (V c).okRed H = true → ((V c).red H).posSize = H.posSize ∧ ((V c).red H).origNodes = H.origNodes) (fuel : Nat)
    (hsz : ∀ C, flowMincut (V c) c fuel (MGraph.fromGraphAccess
      (kernelFinal cfg (fun l H uf => fromUnionFind H uf (ord l)) G inCut0 c).lv.cur) = some C →
        C.n ≤ C.contSize ∧ ∀ q, C.n ≤ q → q < C.contSize → C.cont q = [])
    (r : Nat × MGraph) (h : findAllRun cfg (fun l H uf => fromUnionFind H uf (ord l)) noiCfg (fun l H uf => fromUnionFind H uf (ordN l))
      V fuel G inCut0 c = some r) (hv : r.1 = c) (conductance : Bool) {start : Nat} (hst : start < r.2.n) (flags0 : Nat → Bool) :
    ∃ S edges, Balanced.findCutFromCactus G r.2 c conductance start flags0 = some (S, edges) ∧ ProperCut G.n S ∧ cutValue G.n G.wt S = c ∧
      (∀ S', ProperCut G.n S' → cutValue G.n G.wt S' = c →
        lighterSide G.n (fun v => if conductance then G.deg v else 1) S' ≤ lighterSide G.n (fun v => if conductance then G.deg v else 1) S) ∧
      ∀ u e, (u, e) ∈ edges ↔ u < G.n ∧ e < (G.edges u).length ∧ S u ≠ S ((G.edges u).getD e (0, 0)).1 := by
  obtain ⟨a1, a2, a3, a4⟩ := C37_run_cactus_partial G hG hs hp hn hb cfg noiCfg hfit hfitN ord ordN hord hordN inCut0 c hc hK hmin V hV hS hr
    fuel r h hv
  exact Balanced.C44_mostBalanced hG hmin hc a1 a2 a3 (a4 hsz) conductance hst flags0

/-- The graph of `ringSample` meets the assumptions (the remaining ones are shown beside `C37_run_partial`): the recursion leaves no lists
behind, and both objectives return one of the most balanced cuts. -/
example :
    let cfg : NOICfg := ⟨.default, true, true, fun _ => 0⟩
    let con : Nat → Graph → UF → Graph × (Nat → Nat) := fun _ H uf => fromUnionFind H uf (fun _ l => l)
    let G := ringSample.toGraph
    (flowMincut ringEnv 2 12 (MGraph.fromGraphAccess (kernelFinal cfg con G (fun _ => false) 2).lv.cur)).map (fun C => (C.contSize, C.n)) =
      some (6, 6) ∧
    (findAllRun cfg con cfg con (fun _ => ringEnv) 12 G (fun _ => false) 2).bind (fun r =>
      (Balanced.findCutFromCactus G r.2 2 false 0 (fun _ => false)).map fun q => (List.range 7).map q.1) =
      some [true, false, false, false, true, true, false] := by
  decide +kernel

end Cactus
end VieCut
