import Verif.Proof.CactusRunMutable
import Verif.Props.CactusRunShape

/-!
# C37: a whole run of `findAllMincuts` on a `mutable_graph`
-/

namespace VieCut
namespace Cactus
open RecCactus

/-- **C37, whole run on `mutable_graph` (partial).**  `findAllMincuts` on a connected `mutable_graph` whose construction is finished (every
vertex is its own original vertex), without parallel edges and without edges of weight zero, called with the minimum cut `c`, with
`recursive_cactus` as it is in the code.  If the run returns: the returned value is that of some cut; up to 100 vertices it is the minimum
cut; whenever it is the minimum cut, the returned graph is a cactus with `original_nodes` set to the number of vertices of the input, its
cuts of this weight are exactly the minimum cuts of the input, and the stored lists are those of the positions if the recursion leaves no
vertices in the lists behind that of the last vertex.  The assumptions about the recursion are those of `C57_recursion_partial`. -/
theorem C37_mutable_run_partial (g : MGraph) (hg : g.Consistent) (hf : g.Fresh) (hs : g.NoParallel)
    (hp : ∀ u b, u < g.n → b < g.len u → 0 < (g.edge u b).weight) (hl : g.lastNode = g.n) (hsize : g.n ≤ g.contSize)
    (ho : g.origNodes = g.n) (hn : 2 ≤ g.n) (hb : g.toGraph.totalWeight < 2 ^ 32) (cfg noiCfg : NOICfg)
    (hfit : PQFits cfg.kind g.n (g.toGraph.totalWeight + 1)) (hfitN : PQFits noiCfg.kind g.n (g.toGraph.totalWeight + 1))
    (ord ordN : Nat → Nat → List Nat → List Nat) (hord : ∀ l, IsOrder (ord l)) (hordN : ∀ l, IsOrder (ordN l))
    (inCut0 : Nat → Bool) (c : Nat) (hc : 0 < c) (hK : 2 * (c + 1) < 2 ^ 32) (hmin : IsMinCut g.n g.toGraph.wt c) (V : Nat → Env)
    (hV : EnvOk (V c) c) (hS : Steps (V c) c)
    (hr : ∀ H : MGraph, (V c).okRed H = true → ((V c).red H).posSize = H.posSize ∧ ((V c).red H).origNodes = H.origNodes) (fuel : Nat)
    (r : Nat × MGraph) (h : findAllRunM cfg (fun l H uf => MGraph.fromUnionFindM H uf true (ord l)) noiCfg
      (fun l H uf => MGraph.fromUnionFindM H uf true (ordN l)) V fuel g inCut0 c = some r) :
    (∃ S, ProperCut g.n S ∧ cutValue g.n g.toGraph.wt S = r.1) ∧ (g.n ≤ 100 → r.1 = c) ∧
    (r.1 = c → RepresentsMinCuts g.toGraph r.2 r.2.pos c ∧ IsCactus r.2 c ∧ r.2.origNodes = g.n ∧
      ((∀ C, flowMincut (V c) c fuel (kernelFinal cfg (fun l H uf => MGraph.fromUnionFindM H uf true (ord l)) g inCut0 c).lv.cur = some C →
        C.n ≤ C.contSize ∧ ∀ q, C.n ≤ q → q < C.contSize → C.cont q = []) → ListsMatch r.2 g.n)) := by
  unfold findAllRunM at h
  dsimp only at h
  obtain ⟨C, h1, h2⟩ := Option.map_eq_some_iff.1 h
  have hN : (GraphLike.view g).n = g.n := MGraph.toGraph_n g
  have hgood : MGood g := ⟨(MGraph.consistent_iff).1 hg, hf, MGraph.simple_of_noParallel hs, hp, hl, hsize, ho⟩
  have he : findAllMincuts cfg (fun l H uf => MGraph.fromUnionFindM H uf true (ord l)) noiCfg
      (fun l H uf => MGraph.fromUnionFindM H uf true (ordN l)) (fun K d => (flowMincut (V d) d fuel K).getD C) g inCut0 c = r := by
    unfold findAllMincuts
    dsimp only
    rw [h1, hN]
    exact h2
  have key := findAll_spec (good := MGood) (fun _ h => simpleWF_of_mutable h.valid h.simple) (x := g) hgood (by rw [hN]; exact hn) hb cfg noiCfg
    (by rw [hN]; exact hfit) (by rw [hN]; exact hfitN)
    (fun l => fromUnionFindM_ok_good (hord l)) (fun l => fromUnionFindM_ok_good (hordN l)) inCut0 hc (by rw [hN]; exact hmin)
    (rc := fun K d => (flowMincut (V d) d fuel K).getD C)
    (Q := EdgesIn (fun w => w = c ∨ 2 * w = c) C) (fun hval hgk hpk hmk => by
      rw [hval] at h1
      rw [h1, Option.getD_some]
      have hKn : (kernelFinal cfg (fun l H uf => MGraph.fromUnionFindM H uf true (ord l)) g inCut0 c).lv.view.n =
        (kernelFinal cfg (fun l H uf => MGraph.fromUnionFindM H uf true (ord l)) g inCut0 c).lv.cur.n := MGraph.toGraph_n _
      have hP : Piece (fun e => e < (kernelFinal cfg (fun l H uf => MGraph.fromUnionFindM H uf true (ord l)) g inCut0 c).lv.cur.n)
          (kernelFinal cfg (fun l H uf => MGraph.fromUnionFindM H uf true (ord l)) g inCut0 c).lv.cur c :=
        piece_of_mutable hgk (fun X hX => by
          have := (hmk (by rw [hKn]; exact two_of_proper hX)).2 X
          rw [hKn] at this
          exact this hX)
      have hC := C57_recursion_partial (V c) hV hS hc hK hP h1
      refine ⟨represents_of_mutable hgk hC, hC.ready, ?_, hC.weights⟩
      rw [hKn]
      refine (flowMincut_sized (fun N H hH hk => ?_) ⟨?_, hgk.orig⟩ h1).1
      · obtain ⟨q1, q2⟩ := hr H hk
        exact ⟨by rw [q1]; exact hH.1, by rw [q2]; exact hH.2⟩
      · exact hgk.fresh.1.ge)
  rw [he, hN] at key
  refine ⟨key.1, key.2.1, fun hv => ?_⟩
  have hval : finalValue noiCfg (fun l H uf => MGraph.fromUnionFindM H uf true (ordN l))
      (kernelFinal cfg (fun l H uf => MGraph.fromUnionFindM H uf true (ord l)) g inCut0 c) = c := by
    rw [← h2] at hv
    exact hv
  obtain ⟨k1, -, k3, k4⟩ := key.2.2.1 hv
  have hloc := edgesIn_locations (Q := fun w => w = c ∨ 2 * w = c) (c := c) (Or.inl rfl) k4 g.n
    (kernelFinal cfg (fun l H uf => MGraph.fromUnionFindM H uf true (ord l)) g inCut0 c).lv.view.n
    (kernelFinal cfg (fun l H uf => MGraph.fromUnionFindM H uf true (ord l)) g inCut0 c).lv.maps
    (kernelFinal cfg (fun l H uf => MGraph.fromUnionFindM H uf true (ord l)) g inCut0 c).ge
  have hr2 : r.2 = setVertexLocations C g.n (kernelFinal cfg (fun l H uf => MGraph.fromUnionFindM H uf true (ord l)) g inCut0 c).lv.view.n
      (kernelFinal cfg (fun l H uf => MGraph.fromUnionFindM H uf true (ord l)) g inCut0 c).lv.maps
      (kernelFinal cfg (fun l H uf => MGraph.fromUnionFindM H uf true (ord l)) g inCut0 c).ge c := by
    rw [← h2]
    show setVertexLocations C g.n _ _ _ (finalValue _ _ _) = _
    rw [hval]
  rw [← hr2] at hloc
  refine ⟨k1, isCactus_represents hc k1 hloc.1, hloc.2, fun hsz => k3 ?_⟩
  rw [hval] at h1
  rw [h1, Option.getD_some]
  exact hsz C h1

/-- The `mutable_graph` `ringSample` meets the assumptions (those on the recursion are shown beside `C37_run_partial`), and the run returns a
cactus with seven vertices. -/
example :
    let cfg : NOICfg := ⟨.default, true, true, fun _ => 0⟩
    let con : Nat → MGraph → UF → MGraph × (Nat → Nat) := fun _ H uf => MGraph.fromUnionFindM H uf true (fun _ l => l)
    ringSample.Consistent ∧ ringSample.Fresh ∧ ringSample.NoParallel ∧ ringSample.lastNode = ringSample.n ∧ ringSample.n ≤ ringSample.contSize ∧
    ringSample.origNodes = ringSample.n ∧ (∀ u, u < ringSample.n → ∀ b, b < ringSample.len u → 0 < (ringSample.edge u b).weight) ∧
    (findAllRunM cfg con cfg con (fun _ => ringEnv) 12 ringSample (fun _ => false) 2).map (fun r => (r.1, r.2.n, (List.range 7).map r.2.pos)) =
      some (2, 7, [5, 0, 3, 1, 2, 4, 6]) := by
  refine ⟨ringSample_piece.consistent, by unfold MGraph.Fresh; decide +kernel, by decide +kernel, by decide +kernel, by decide +kernel, by decide +kernel,
    by decide +kernel, by decide +kernel⟩

/-- **C37, whole call on a small `mutable_graph` (partial).**  As `C37_small_run_partial`, for a connected `mutable_graph` of 2 to 100 vertices
whose construction is finished. -/
theorem C37_mutable_small_run_partial (g : MGraph) (hg : g.Consistent) (hf : g.Fresh) (hs : g.NoParallel)
    (hp : ∀ u b, u < g.n → b < g.len u → 0 < (g.edge u b).weight) (hl : g.lastNode = g.n) (hsize : g.n ≤ g.contSize)
    (ho : g.origNodes = g.n) (hn : 2 ≤ g.n) (h100 : g.n ≤ 100) (hb : 2 * (g.toGraph.totalWeight + 1) < 2 ^ 32)
    (vcfg : VCfg) (cfg noiCfg : NOICfg) (hσ : ∀ l k x, (vcfg.lpShuffle l k x).Perm x)
    (hfitV : PQFits vcfg.noi.kind g.n g.toGraph.totalWeight)
    (hfit : PQFits cfg.kind g.n (g.toGraph.totalWeight + 1)) (hfitN : PQFits noiCfg.kind g.n (g.toGraph.totalWeight + 1))
    (ordV ordVN ordM ord ordN : Nat → Nat → List Nat → List Nat) (hordV : ∀ l, IsOrder (ordV l)) (hordVN : ∀ l, IsOrder (ordVN l))
    (hordM : ∀ l, IsOrder (ordM l)) (hord : ∀ l, IsOrder (ord l)) (hordN : ∀ l, IsOrder (ordN l))
    (inCut0 : Nat → Bool) (V : Nat → Env)
    (hV : ∀ c, 0 < c → IsMinCut g.n g.toGraph.wt c → EnvOk (V c) c ∧ Steps (V c) c ∧
      ∀ H : MGraph, (V c).okRed H = true → ((V c).red H).posSize = H.posSize ∧ ((V c).red H).origNodes = H.origNodes) (fuel : Nat)
    (hcon : ∀ S, ProperCut g.n S → 0 < cutValue g.n g.toGraph.wt S) :
    ∃ c flags, viecutFinal vcfg (fun l H uf => MGraph.fromUnionFindM H uf true (ordV l))
        (fun l H uf => MGraph.fromUnionFindM H uf true (ordVN l))
        (fun l H m r p => MGraph.contractGraphM H m r p (ordM l)) g inCut0 = some (c, flags) ∧ IsMinCut g.n g.toGraph.wt c ∧
      ∀ r, findAllRunM cfg (fun l H uf => MGraph.fromUnionFindM H uf true (ord l)) noiCfg
          (fun l H uf => MGraph.fromUnionFindM H uf true (ordN l)) V fuel g flags c = some r →
        r.1 = c ∧ RepresentsMinCuts g.toGraph r.2 r.2.pos c ∧ IsCactus r.2 c ∧ r.2.origNodes = g.n := by
  obtain ⟨c, flags, h1, _, _, h4⟩ := C12_viecut_mutable g hg hf hn (by omega) vcfg hσ hfitV ordV ordVN ordM hordV hordVN hordM inCut0
  have hmin := (h4 (by omega)).1
  obtain ⟨S, s1, s2⟩ := hmin.1
  have hc : 0 < c := by rw [← s2]; exact hcon S s1
  have hle : c ≤ g.toGraph.totalWeight := by
    rw [← s2]
    have := cutValue_le_total (MGraph.consistent_iff.1 hg).wf S
    rwa [MGraph.toGraph_n] at this
  obtain ⟨v1, v2, v3⟩ := hV c hc hmin
  refine ⟨c, flags, h1, hmin, fun r hr => ?_⟩
  obtain ⟨-, a2, a3⟩ := C37_mutable_run_partial g hg hf hs hp hl hsize ho hn (by omega) cfg noiCfg hfit hfitN ord ordN hord hordN flags c hc
    (by omega) hmin V v1 v2 v3 fuel r hr
  obtain ⟨b1, b2, b3, -⟩ := a3 (a2 h100)
  exact ⟨a2 h100, b1, b2, b3⟩

/-- The `mutable_graph` `ringSample` meets the assumptions: `viecut` finds `2`, and the run with this value returns the cactus. -/
example :
    let cfg : NOICfg := ⟨.default, true, true, fun _ => 0⟩
    let con : Nat → MGraph → UF → MGraph × (Nat → Nat) := fun _ H uf => MGraph.fromUnionFindM H uf true (fun _ l => l)
    ((viecutFinal ⟨cfg, fun _ _ => 0, fun _ _ l => l⟩ con con (fun _ H m r p => MGraph.contractGraphM H m r p (fun _ l => l)) ringSample
      (fun _ => false)).bind fun q =>
      (findAllRunM cfg con cfg con (fun _ => ringEnv) 12 ringSample q.2 q.1).map fun r => (q.1, r.1, r.2.n, r.2.origNodes)) =
      some (2, 2, 7, 7) := by
  decide +kernel

end Cactus
end VieCut
