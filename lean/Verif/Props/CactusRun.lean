import Verif.Proof.CactusRun
import Verif.Proof.RecPick
import Verif.Props.Cactus
import Verif.Props.RecursiveCactus

/-!
# C37: a whole run of `findAllMincuts`, including the recursion
-/

namespace VieCut
namespace Cactus
open RecCactus

theorem two_of_proper {n : Nat} {X : Nat → Bool} (h : ProperCut n X) : 2 ≤ n := by
  obtain ⟨⟨u, hu, hu'⟩, v, hv, hv'⟩ := h
  by_contra hn
  have : u = v := by omega
  rw [this, hv'] at hu'
  exact Bool.noConfusion hu'

/-- **C37, whole run (partial).**  `findAllMincuts` on a connected `graph_access` without parallel edges and without edges of weight zero,
called with the minimum cut `c`, with `recursive_cactus` as it is in the code.  If the run returns: the returned value is that of some cut;
up to 100 vertices it is the minimum cut; whenever it is the minimum cut, the cuts of this weight of the returned graph are exactly the
minimum cuts of the input.  The assumptions about the recursion are those of `C57_recursion_partial`. -/
theorem C37_run_partial (G : Graph) (hG : G.WF) (hs : G.Simple) (hp : ∀ u e, e ∈ G.edges u → 0 < e.2) (hn : 2 ≤ G.n)
    (hb : G.totalWeight < 2 ^ 32) (cfg noiCfg : NOICfg)
    (hfit : PQFits cfg.kind G.n (G.totalWeight + 1)) (hfitN : PQFits noiCfg.kind G.n (G.totalWeight + 1))
    (ord ordN : Nat → Nat → List Nat → List Nat) (hord : ∀ l, IsOrder (ord l)) (hordN : ∀ l, IsOrder (ordN l))
    (inCut0 : Nat → Bool) (c : Nat) (hc : 0 < c) (hK : 2 * (c + 1) < 2 ^ 32) (hmin : IsMinCut G.n G.wt c) (V : Nat → Env) (hV : EnvOk (V c) c)
    (hS : Steps (V c) c)
    (hr : ∀ H : MGraph, (V c).okRed H = true → ((V c).red H).posSize = H.posSize ∧ ((V c).red H).origNodes = H.origNodes) (fuel : Nat)
    (r : Nat × MGraph) (h : findAllRun cfg (fun l H uf => fromUnionFind H uf (ord l)) noiCfg (fun l H uf => fromUnionFind H uf (ordN l))
      V fuel G inCut0 c = some r) :
    (∃ S, ProperCut G.n S ∧ cutValue G.n G.wt S = r.1) ∧ (G.n ≤ 100 → r.1 = c) ∧ (r.1 = c → RepresentsMinCuts G r.2 r.2.pos c) := by
  unfold findAllRun at h
  dsimp only at h
  obtain ⟨C, h1, h2⟩ := Option.map_eq_some_iff.1 h
  have key := findAll_spec (good := GoodG) (fun _ h => h.1) (x := G) ⟨⟨hG, hs⟩, hp⟩ hn hb cfg noiCfg hfit hfitN
    (fun l => fromUnionFind_ok_good (hord l)) (fun l => fromUnionFind_ok_good (hordN l)) inCut0 hc hmin
    (rc := fun K d => (flowMincut (V d) d fuel (MGraph.fromGraphAccess K)).getD C)
    (Q := True) (fun hval hgk hpk hmk => by
      rw [hval] at h1
      rw [h1, Option.getD_some]
      have hP : Piece (fun e => e < (kernelFinal cfg (fun l H uf => fromUnionFind H uf (ord l)) G inCut0 c).lv.cur.n)
          (MGraph.fromGraphAccess (kernelFinal cfg (fun l H uf => fromUnionFind H uf (ord l)) G inCut0 c).lv.cur) c :=
        piece_of_graph hgk (fun X hX => (hmk (two_of_proper hX)).2 X hX)
      have hC := C57_recursion_partial (V c) hV hS hc hK hP h1
      refine ⟨represents_of_cactus hgk hc hC, hC.ready, ?_, trivial⟩
      obtain ⟨-, f2, f3, -⟩ := MGraph.fromGraphAccess_spec hgk.1.1 hgk.1.2
      have hf := fromGraphAccess_frame hgk.1
      refine (flowMincut_sized (fun N H hH hk => ?_) ⟨?_, hf.2.2.1⟩ h1).1
      · obtain ⟨q1, q2⟩ := hr H hk
        exact ⟨by rw [q1]; exact hH.1, by rw [q2]; exact hH.2⟩
      · rw [f2.1, f3])
  have he : findAllMincuts cfg (fun l H uf => fromUnionFind H uf (ord l)) noiCfg (fun l H uf => fromUnionFind H uf (ordN l))
      (fun K d => (flowMincut (V d) d fuel (MGraph.fromGraphAccess K)).getD C) G inCut0 c = r := by
    unfold findAllMincuts
    dsimp only
    rw [h1]
    exact h2
  rw [he] at key
  exact ⟨key.1, key.2.1, fun hv => (key.2.2.1 hv).1⟩

/-- The graph of `ringSample` meets the assumptions.  Its kernel has six vertices, and the returned cactus is the cycle with a pendant vertex. -/
example :
    let cfg : NOICfg := ⟨.default, true, true, fun _ => 0⟩
    let con : Nat → Graph → UF → Graph × (Nat → Nat) := fun _ H uf => fromUnionFind H uf (fun _ l => l)
    let G := ringSample.toGraph
    G.WF ∧ G.Simple ∧ (∀ u e, e ∈ G.edges u → 0 < e.2) ∧ G.totalWeight < 2 ^ 32 ∧ PQFits .default G.n (G.totalWeight + 1) ∧ IsMinCut G.n G.wt 2 ∧
    EnvOk ringEnv 2 ∧ Steps ringEnv 2 ∧ (kernelFinal cfg con G (fun _ => false) 2).lv.cur.n = 6 ∧
    (findAllRun cfg con cfg con (fun _ => ringEnv) 12 G (fun _ => false) 2).map (fun r => (r.1, r.2.n, (List.range 7).map r.2.pos)) =
      some (2, 7, [5, 0, 3, 1, 2, 4, 6]) := by
  have hw : ringSample.toGraph.WF := Graph.wf_of_check (by decide +kernel)
  have hfit : PQFits .default ringSample.toGraph.n (ringSample.toGraph.totalWeight + 1) := by unfold PQFits; decide +kernel
  refine ⟨hw, by unfold Graph.Simple; decide +kernel, ?_, by decide +kernel, hfit, ?_, ?_, ⟨fun _ _ hp _ => ⟨hp, fun _ => Iff.rfl⟩,
    fun _ h => listed_of_check h⟩, by decide +kernel, by decide +kernel⟩
  · intro u e he
    by_cases hu : u < 7
    · have : ∀ u, u < 7 → ∀ e ∈ ringSample.toGraph.edges u, 0 < e.2 := by decide +kernel
      exact this u hu e he
    · have : ringSample.toGraph.edges u = [] := by
        unfold Graph.edges
        rw [List.getD_eq_getElem?_getD, List.getElem?_eq_none]
        · rfl
        · have : ringSample.toGraph.adj.length = 7 := by decide +kernel
          omega
      rw [this] at he
      simp at he
  · have h := C02_noi_exact ringSample.toGraph hw (by decide +kernel) (by decide +kernel) ⟨.default, true, true, fun _ => 0⟩
      (hfit.mono (le_refl _) (by decide +kernel)) (fun _ _ l => l) (fun _ _ l => List.Perm.refl l)
    have hv : noiMinimumCut ⟨.default, true, true, fun _ => 0⟩ (fun _ _ l => l) ringSample.toGraph = 2 := by decide +kernel
    rwa [hv] at h
  · exact ⟨fun _ => List.Perm.refl _, fun _ _ => List.Perm.refl _, fun _ => List.Perm.refl _, fun _ _ hp _ h => maximumWeightedFlowEdge_ok hp h,
      fun n => ⟨2 * n, le_refl _, ⟨(NH.sim n (2 * n)).lawful⟩⟩⟩

end Cactus
end VieCut
