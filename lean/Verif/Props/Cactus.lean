import Verif.Proof.CactusValue
import Verif.Proof.CactusReference
import Verif.Props.Inexact
import Verif.Props.NOI

/-!
# C37: the graph returned by `findAllMincuts` represents every minimum cut

`recursive_cactus::flowMincut`, which computes the cactus of the kernel, is a parameter that meets `RCSpec`.
-/

namespace VieCut
namespace Cactus
open Function Finset

section generic
variable {γ : Type} [GraphLike γ]

/-- `findAllMincuts`, for both graph classes (`good` and `ContractOK` are instantiated below): called with the minimum cut `c`, it returns
the value of some cut, the minimum cut for up to 100 vertices; if the returned value is the minimum cut, the graph represents all minimum cuts. -/
theorem findAll_spec {good : γ → Prop} (hgood : ∀ x, good x → SimpleWF (GraphLike.view x)) {x : γ} (hx : good x)
    (hn : 2 ≤ (GraphLike.view x).n) (hb : (GraphLike.view x).totalWeight < 2 ^ 32) (cfg noiCfg : NOICfg)
    (hfit : PQFits cfg.kind (GraphLike.view x).n ((GraphLike.view x).totalWeight + 1))
    (hfitN : PQFits noiCfg.kind (GraphLike.view x).n ((GraphLike.view x).totalWeight + 1))
    {contract noiContract : Nat → γ → UF → γ × (Nat → Nat)} (hok : ∀ l, ContractOK good (contract l))
    (hokN : ∀ l, ContractOK good (noiContract l)) (inCut0 : Nat → Bool) {c : Nat} (hc : 0 < c)
    (hmin : IsMinCut (GraphLike.view x).n (GraphLike.view x).wt c) {rc : γ → Nat → MGraph} {Q : Prop}
    (hrc : finalValue noiCfg noiContract (kernelFinal cfg contract x inCut0 c) = c →
      good (kernelFinal cfg contract x inCut0 c).lv.cur → 0 < (kernelFinal cfg contract x inCut0 c).lv.view.n →
      (2 ≤ (kernelFinal cfg contract x inCut0 c).lv.view.n →
        IsMinCut (kernelFinal cfg contract x inCut0 c).lv.view.n (kernelFinal cfg contract x inCut0 c).lv.view.wt c) →
      RepresentsMinCuts (kernelFinal cfg contract x inCut0 c).lv.view (rc (kernelFinal cfg contract x inCut0 c).lv.cur c)
        (rc (kernelFinal cfg contract x inCut0 c).lv.cur c).pos c ∧
      (rc (kernelFinal cfg contract x inCut0 c).lv.cur c).lastNode = (rc (kernelFinal cfg contract x inCut0 c).lv.cur c).n ∧
      (kernelFinal cfg contract x inCut0 c).lv.view.n ≤ (rc (kernelFinal cfg contract x inCut0 c).lv.cur c).posSize ∧ Q) :
    let r := findAllMincuts cfg contract noiCfg noiContract rc x inCut0 c
    (∃ S, ProperCut (GraphLike.view x).n S ∧ cutValue (GraphLike.view x).n (GraphLike.view x).wt S = r.1) ∧
    ((GraphLike.view x).n ≤ 100 → r.1 = c) ∧
    (r.1 = c → RepresentsMinCuts (GraphLike.view x) r.2 r.2.pos c ∧
      r.2.posSize = max (GraphLike.view x).n (rc (kernelFinal cfg contract x inCut0 c).lv.cur c).posSize ∧
      (NoStale (rc (kernelFinal cfg contract x inCut0 c).lv.cur c) →
        ListsMatch r.2 (GraphLike.view x).n) ∧ Q) ∧
    (kernelFinal cfg contract x inCut0 c).lv.view.n ≤ (GraphLike.view x).n := by
  intro r
  generalize hG' : GraphLike.view x = G at *
  have hG : G.WF := by rw [← hG']; exact (hgood x hx).1
  have hmd : c ≤ G.minDegree := by
    obtain ⟨u, hu, he⟩ := exists_minDegree' (G := G) (by omega) (fun u hu => by
      rw [← hG.cut_singleton hu]
      exact lt_of_le_of_lt (cutValue_le_total hG _) (lt_trans hb (by norm_num)))
    rw [← he, ← hG.cut_singleton hu]
    exact hmin.2 _ (Graph.properCut_singleton hn hu)
  have hi := kernelInit_inv hG hn (lt_trans hb (by norm_num)) hx hG' hmin.1 hmd c cfg.save inCut0
  have hgn : 0 < G.n := by omega
  have hk : KInv good G c (kernelFinal cfg contract x inCut0 c) := by
    unfold kernelFinal
    exact kernelLoop_inv hgood hG hb hfit hok hc hmin hgn _ _ _ _ hi (fun _ => by simp [kernelInit])
  have hdm : (kernelFinal cfg contract x inCut0 c).lv.mincut = c :=
    le_antisymm (kernelLoop_le _ _ _ _ _ _) (hk.lvl.ge hmin)
  obtain ⟨v1, v2, v3⟩ := finalValue_spec hgood hG hb hfit hok hc hmin hgn hfitN hokN hk
  have hpos := KInv.pos hgn hk
  refine ⟨v3, ?_, ?_, ?_⟩
  · intro h100
    have hcond : 101 * (kernelInit cfg.save x inCut0 c).lv.view.n < 100 * (2 ^ 32 - 1) := by
      have : (kernelInit cfg.save x inCut0 c).lv.view.n = G.n := by rw [← hG']; rfl
      rw [this]; omega
    have hsm := kernelLoop_small hgood hG hb hfit hok hc hmin hgn (G.n + 1) 0 (2 ^ 32 - 1) (kernelInit cfg.save x inCut0 c) hi
      (fun _ => by simp [kernelInit]) (by
        have : (kernelInit cfg.save x inCut0 c).lv.view.n = G.n := by rw [← hG']; rfl
        omega) (by
        have : (kernelInit cfg.save x inCut0 c).lv.view.n = G.n := by rw [← hG']; rfl
        omega) hcond
    have hkf : kernelLoop cfg contract (G.n + 1) 0 (2 ^ 32 - 1) (kernelInit cfg.save x inCut0 c) =
        kernelFinal cfg contract x inCut0 c := by unfold kernelFinal; rw [hG']
    rw [hkf] at hsm
    show finalValue noiCfg noiContract (kernelFinal cfg contract x inCut0 c) = c
    generalize kernelFinal cfg contract x inCut0 c = k at *
    by_cases h1 : k.lv.view.n = 1
    · rw [v2 h1]; exact hdm
    · rcases hsm with h | ⟨u, hu, hdeg⟩
      · exact absurd h h1
      · obtain ⟨S, s1, s2⟩ := v3
        have hlow : c ≤ finalValue noiCfg noiContract k := by rw [← s2]; exact hmin.2 S s1
        have hup := (v1 (by omega)).2 _ (Graph.properCut_singleton (by omega) hu)
        rw [(hgood _ hk.lvl.ok).1.cut_singleton hu, hdeg, hdm] at hup
        omega
  · intro hv
    have hval : finalValue noiCfg noiContract (kernelFinal cfg contract x inCut0 c) = c := hv
    obtain ⟨r1, r2, r4, r5⟩ := hrc hval hk.lvl.ok hpos (fun h2 => by
      have := v1 h2
      rw [hval] at this
      exact this)
    obtain ⟨a1, a2, _, a3⟩ := setVertexLocations_spec hG hc hk hdm r1 r2 r4
    have hr2 : r.2 = setVertexLocations (rc (kernelFinal cfg contract x inCut0 c).lv.cur c) G.n
        (kernelFinal cfg contract x inCut0 c).lv.view.n (kernelFinal cfg contract x inCut0 c).lv.maps
        (kernelFinal cfg contract x inCut0 c).ge c := by
      have : r.2 = setVertexLocations (rc (kernelFinal cfg contract x inCut0 c).lv.cur
          (finalValue noiCfg noiContract (kernelFinal cfg contract x inCut0 c))) (GraphLike.view x).n
        (kernelFinal cfg contract x inCut0 c).lv.view.n (kernelFinal cfg contract x inCut0 c).lv.maps
        (kernelFinal cfg contract x inCut0 c).ge (finalValue noiCfg noiContract (kernelFinal cfg contract x inCut0 c)) := rfl
      rw [this, hval, hG']
    rw [hr2]
    exact ⟨a1, a2, a3, r5⟩
  · obtain ⟨ψ, hψ⟩ := hk.lvl.con
    exact hψ.le_n

/-- The same for a routine that meets `RCSpec`. -/
theorem findAll_specR {good : γ → Prop} (hgood : ∀ x, good x → SimpleWF (GraphLike.view x)) {x : γ} (hx : good x)
    (hn : 2 ≤ (GraphLike.view x).n) (hb : (GraphLike.view x).totalWeight < 2 ^ 32) (cfg noiCfg : NOICfg)
    (hfit : PQFits cfg.kind (GraphLike.view x).n ((GraphLike.view x).totalWeight + 1))
    (hfitN : PQFits noiCfg.kind (GraphLike.view x).n ((GraphLike.view x).totalWeight + 1))
    {contract noiContract : Nat → γ → UF → γ × (Nat → Nat)} (hok : ∀ l, ContractOK good (contract l))
    (hokN : ∀ l, ContractOK good (noiContract l)) (inCut0 : Nat → Bool) {c : Nat} (hc : 0 < c)
    (hmin : IsMinCut (GraphLike.view x).n (GraphLike.view x).wt c) {rc : γ → Nat → MGraph} (hrc : RCSpec good rc) :
    let r := findAllMincuts cfg contract noiCfg noiContract rc x inCut0 c
    (∃ S, ProperCut (GraphLike.view x).n S ∧ cutValue (GraphLike.view x).n (GraphLike.view x).wt S = r.1) ∧
    ((GraphLike.view x).n ≤ 100 → r.1 = c) ∧
    (r.1 = c → RepresentsMinCuts (GraphLike.view x) r.2 r.2.pos c ∧ ListsMatch r.2 (GraphLike.view x).n ∧
      r.2.posSize = (GraphLike.view x).n) := by
  obtain ⟨a1, a2, a3, a4⟩ := findAll_spec hgood hx hn hb cfg noiCfg hfit hfitN hok hokN inCut0 hc hmin (rc := rc)
    (Q := (rc (kernelFinal cfg contract x inCut0 c).lv.cur c).contSize = (rc (kernelFinal cfg contract x inCut0 c).lv.cur c).n ∧
      (rc (kernelFinal cfg contract x inCut0 c).lv.cur c).posSize = (kernelFinal cfg contract x inCut0 c).lv.view.n) (fun _ a b d => by
    obtain ⟨r1, r2, r3, r4⟩ := hrc _ c a hc b d
    exact ⟨r1, r2, r4.ge, r3, r4⟩)
  refine ⟨a1, a2, fun h => ?_⟩
  obtain ⟨b1, b2, b3, b4, b5⟩ := a3 h
  refine ⟨b1, b3 (noStale_of_eq b4), ?_⟩
  rw [b2, b5]
  exact max_eq_left a4

theorem findAll_value (cfg noiCfg : NOICfg) (contract noiContract : Nat → γ → UF → γ × (Nat → Nat)) (rc : γ → Nat → MGraph) (x : γ)
    (inCut0 : Nat → Bool) (c : Nat) : (findAllMincuts cfg contract noiCfg noiContract rc x inCut0 c).1 =
      finalValue noiCfg noiContract (kernelFinal cfg contract x inCut0 c) := rfl

end generic

/-- `findAllMincuts` on a connected `graph_access` without parallel edges, called with the minimum cut: the returned value is that of some cut; up to
100 vertices it is the minimum cut; whenever it is the minimum cut, the cuts of this weight of the returned graph are exactly the minimum cuts of the input, and
the lists of contained vertices agree with the positions. -/
theorem C37_partial (G : Graph) (hG : G.WF) (hs : G.Simple) (hn : 2 ≤ G.n) (hb : G.totalWeight < 2 ^ 32) (cfg noiCfg : NOICfg)
    (hfit : PQFits cfg.kind G.n (G.totalWeight + 1)) (hfitN : PQFits noiCfg.kind G.n (G.totalWeight + 1))
    (ord ordN : Nat → Nat → List Nat → List Nat) (hord : ∀ l, IsOrder (ord l)) (hordN : ∀ l, IsOrder (ordN l))
    (inCut0 : Nat → Bool) (c : Nat) (hc : 0 < c) (hmin : IsMinCut G.n G.wt c) (rc : Graph → Nat → MGraph)
    (hrc : RCSpec SimpleWF rc) :
    let r := findAllMincuts cfg (fun l H uf => fromUnionFind H uf (ord l)) noiCfg (fun l H uf => fromUnionFind H uf (ordN l)) rc G inCut0 c
    (∃ S, ProperCut G.n S ∧ cutValue G.n G.wt S = r.1) ∧ (G.n ≤ 100 → r.1 = c) ∧
    (r.1 = c → RepresentsMinCuts G r.2 r.2.pos c ∧ ListsMatch r.2 G.n ∧ r.2.posSize = G.n) :=
  findAll_specR (good := SimpleWF) (fun _ h => h) (x := G) ⟨hG, hs⟩ hn hb cfg noiCfg hfit hfitN
    (fun l => fromUnionFind_ok_simple (hord l)) (fun l => fromUnionFind_ok_simple (hordN l)) inCut0 hc hmin hrc

/-- The same on `mutable_graph`. -/
theorem C37_mutable_partial (g : MGraph) (hg : g.Consistent) (hf : g.Fresh) (hs : g.NoParallel) (hn : 2 ≤ g.n)
    (hb : g.toGraph.totalWeight < 2 ^ 32) (cfg noiCfg : NOICfg)
    (hfit : PQFits cfg.kind g.n (g.toGraph.totalWeight + 1)) (hfitN : PQFits noiCfg.kind g.n (g.toGraph.totalWeight + 1))
    (ord ordN : Nat → Nat → List Nat → List Nat) (hord : ∀ l, IsOrder (ord l)) (hordN : ∀ l, IsOrder (ordN l))
    (inCut0 : Nat → Bool) (c : Nat) (hc : 0 < c) (hmin : IsMinCut g.n g.toGraph.wt c) (rc : MGraph → Nat → MGraph)
    (hrc : RCSpec (fun g => g.Consistent ∧ g.Fresh ∧ g.NoParallel) rc) :
    let r := findAllMincuts cfg (fun l H uf => MGraph.fromUnionFindM H uf true (ord l)) noiCfg
      (fun l H uf => MGraph.fromUnionFindM H uf true (ordN l)) rc g inCut0 c
    (∃ S, ProperCut g.n S ∧ cutValue g.n g.toGraph.wt S = r.1) ∧ (g.n ≤ 100 → r.1 = c) ∧
    (r.1 = c → RepresentsMinCuts g.toGraph r.2 r.2.pos c ∧ ListsMatch r.2 g.n ∧ r.2.posSize = g.n) := by
  have hv := (MGraph.consistent_iff).1 hg
  have hN : (GraphLike.view g).n = g.n := MGraph.toGraph_n g
  have h := findAll_specR (good := fun g : MGraph => MGraph.Valid g ∧ MGraph.Fresh g ∧ MGraph.Simple g [])
    (fun x hx => simpleWF_of_mutable hx.1 hx.2.2) (x := g) ⟨hv, hf, MGraph.simple_of_noParallel hs⟩ (by rw [hN]; exact hn) hb cfg noiCfg
    (by rw [hN]; exact hfit) (by rw [hN]; exact hfitN) (fun l => fromUnionFindM_ok_simple (hord l))
    (fun l => fromUnionFindM_ok_simple (hordN l)) inCut0 hc (by rw [hN]; exact hmin) (rc := rc) (fun K c hK => hrc K c
      ⟨(MGraph.consistent_iff).2 hK.1, hK.2.1, MGraph.noParallel_of_simple hK.1 hK.2.2⟩)
  rw [hN] at h
  exact h

/-- `findAllMincuts` without a known value on a connected graph of at most 100 vertices: `viecut` computes the minimum cut, it is returned, and the
returned graph represents all minimum cuts. -/
theorem C37_small (G : Graph) (hG : G.WF) (hs : G.Simple) (hn : 2 ≤ G.n) (h100 : G.n ≤ 100) (hb : G.totalWeight < 2 ^ 32)
    (vcfg : VCfg) (cfg noiCfg : NOICfg) (hσ : ∀ l k x, (vcfg.lpShuffle l k x).Perm x) (hfitV : PQFits vcfg.noi.kind G.n G.totalWeight)
    (hfit : PQFits cfg.kind G.n (G.totalWeight + 1)) (hfitN : PQFits noiCfg.kind G.n (G.totalWeight + 1))
    (ordV ordVN ordM ord ordN : Nat → Nat → List Nat → List Nat) (hordV : ∀ l, IsOrder (ordV l)) (hordVN : ∀ l, IsOrder (ordVN l))
    (hordM : ∀ l, IsOrder (ordM l)) (hord : ∀ l, IsOrder (ord l)) (hordN : ∀ l, IsOrder (ordN l))
    (inCut0 : Nat → Bool) (rc : Graph → Nat → MGraph) (hrc : RCSpec SimpleWF rc)
    (hcon : ∀ S, ProperCut G.n S → 0 < cutValue G.n G.wt S) :
    ∃ c flags, viecutFinal vcfg (fun l H uf => fromUnionFind H uf (ordV l)) (fun l H uf => fromUnionFind H uf (ordVN l))
        (fun l H m r p => contractGraphA H m r p (ordM l)) G inCut0 = some (c, flags) ∧ IsMinCut G.n G.wt c ∧
      (findAllMincuts cfg (fun l H uf => fromUnionFind H uf (ord l)) noiCfg (fun l H uf => fromUnionFind H uf (ordN l)) rc G flags c).1 = c ∧
      RepresentsMinCuts G
        (findAllMincuts cfg (fun l H uf => fromUnionFind H uf (ord l)) noiCfg (fun l H uf => fromUnionFind H uf (ordN l)) rc G flags c).2
        (findAllMincuts cfg (fun l H uf => fromUnionFind H uf (ord l)) noiCfg (fun l H uf => fromUnionFind H uf (ordN l)) rc G flags c).2.pos c := by
  obtain ⟨c, flags, h1, _, _, h4⟩ := C12_viecut G hG hn (lt_trans hb (by norm_num)) vcfg hσ hfitV ordV ordVN ordM hordV hordVN hordM inCut0
  have hmin := (h4 (by omega)).1
  obtain ⟨S, s1, s2⟩ := hmin.1
  have hc : 0 < c := by rw [← s2]; exact hcon S s1
  have := C37_partial G hG hs hn hb cfg noiCfg hfit hfitN ord ordN hord hordN flags c hc hmin rc hrc
  exact ⟨c, flags, h1, hmin, this.2.1 h100, (this.2.2 (this.2.1 h100)).1⟩

/-- The reduction loop ends by its own condition: more than `n + 1` rounds change nothing. -/
theorem C37_terminates (G : Graph) (hG : G.WF) (hs : G.Simple) (hn : 2 ≤ G.n) (hb : G.totalWeight < 2 ^ 32) (cfg : NOICfg)
    (hfit : PQFits cfg.kind G.n (G.totalWeight + 1)) (ord : Nat → Nat → List Nat → List Nat) (hord : ∀ l, IsOrder (ord l))
    (inCut0 : Nat → Bool) (c : Nat) (hc : 0 < c) (hmin : IsMinCut G.n G.wt c) (j : Nat) :
    kernelLoop cfg (fun l H uf => fromUnionFind H uf (ord l)) (G.n + 1 + j) 0 (2 ^ 32 - 1) (kernelInit cfg.save G inCut0 c) =
    kernelFinal cfg (fun l H uf => fromUnionFind H uf (ord l)) G inCut0 c := by
  have hmd : c ≤ G.minDegree := by
    obtain ⟨u, hu, he⟩ := exists_minDegree' (G := G) (by omega) (fun u hu => by
      rw [← hG.cut_singleton hu]
      exact lt_of_le_of_lt (cutValue_le_total hG _) (lt_trans hb (by norm_num)))
    rw [← he, ← hG.cut_singleton hu]
    exact hmin.2 _ (Graph.properCut_singleton hn hu)
  exact kernelLoop_done (good := SimpleWF) (fun _ h => h) hG hb hfit (fun l => fromUnionFind_ok_simple (hord l)) hc hmin (by omega)
    (G.n + 1) j 0 (2 ^ 32 - 1) _
    (kernelInit_inv (good := SimpleWF) hG hn (lt_trans hb (by norm_num)) (x := G) ⟨hG, hs⟩ rfl hmin.1 hmd c cfg.save inCut0)
    (fun _ => by simp [kernelInit]) (Nat.lt_succ_self _)

/-- A cycle of `n` unit edges and a further vertex joined to vertex `0` by a unit edge. -/
def cycP (n : Nat) : Graph :=
  ⟨(List.range n).map (fun i => (if i = 0 then [(n, 1)] else []) ++ [((i + 1) % n, 1), ((i + n - 1) % n, 1)]) ++ [[(0, 1)]]⟩

/-- Non-vacuity: a cycle of ten unit edges with a pendant vertex meets the hypotheses with `c = 1`, and the assumption on `recursive_cactus` can be
met.  Here the kernel is one vertex, the pendant edge is put back, and the returned graph has two vertices. -/
example : RCSpec SimpleWF (fun x c => refRC x c) ∧ (cycP 10).WF ∧ (cycP 10).Simple ∧ (cycP 10).totalWeight < 2 ^ 32 ∧
    PQFits .default (cycP 10).n ((cycP 10).totalWeight + 1) ∧ IsMinCut (cycP 10).n (cycP 10).wt 1 := by
  have hw : (cycP 10).WF := Graph.wf_of_check (by decide +kernel)
  have hfit : PQFits .default (cycP 10).n ((cycP 10).totalWeight + 1) := by unfold PQFits; decide +kernel
  refine ⟨rcSpec_met (γ := Graph) (good := SimpleWF) (fun _ h => h.1), hw, ?_, by decide +kernel, hfit, ?_⟩
  · unfold Graph.Simple; decide +kernel
  · have h := C02_noi_exact (cycP 10) hw (by decide +kernel) (by decide +kernel) ⟨.default, true, true, fun _ => 0⟩
      (hfit.mono (le_refl _) (by decide +kernel)) (fun _ _ l => l) (fun _ _ l => List.Perm.refl l)
    have hv : noiMinimumCut ⟨.default, true, true, fun _ => 0⟩ (fun _ _ l => l) (cycP 10) = 1 := by decide +kernel
    rwa [hv] at h

example :
    let k := kernelFinal ⟨.default, true, true, fun _ => 0⟩ (fun _ H uf => fromUnionFind H uf (fun _ l => l)) (cycP 10) (fun _ => false) 1
    k.lv.cur.n = 1 ∧ (k.ge.flatMap fun x => x.2.map fun e => (x.1, e)) = [(0, 10, 0)] ∧
    (setVertexLocations { MGraph.start 1 with lastNode := 1 } 11 1 k.lv.maps k.ge 1).n = 2 ∧
    (List.range 11).map (setVertexLocations { MGraph.start 1 with lastNode := 1 } 11 1 k.lv.maps k.ge 1).pos =
      [0, 0, 0, 0, 0, 0, 0, 0, 0, 0, 1] := by
  decide +kernel

/-! ## The returned value can be too large -/

/-- If all degrees are even, so is every cut. -/
theorem cut_even {G : Graph} (hG : G.WF) (h : ∀ u, u < G.n → G.deg u % 2 = 0) (S : Nat → Bool) : cutValue G.n G.wt S % 2 = 0 := by
  have key : ∀ k, cutValue G.n G.wt (fun v => decide (v < k) && S v) % 2 = 0 := by
    intro k
    induction k with
    | zero => simp [cutValue]
    | succ k ih =>
      by_cases hk : k < G.n ∧ S k = true
      · have hf := cut_flip hG (fun v => decide (v < k) && S v) hk.1
        have he : update (fun v => decide (v < k) && S v) k (!(decide (k < k) && S k)) = fun v => decide (v < k + 1) && S v := by
          funext v
          by_cases hv : v = k
          · subst hv; simp [hk.2]
          · rw [update_of_ne hv]
            congr 1
            exact decide_eq_decide.2 (by omega)
        rw [he] at hf
        have := h k hk.1
        omega
      · rw [← ih]
        congr 1
        refine cutValue_congr fun v hv => ?_
        by_cases hvk : v = k
        · subst hvk
          have : S v = false := by
            cases hS : S v
            · rfl
            · exact absurd ⟨hv, hS⟩ hk
          simp [this]
        · congr 1
          exact decide_eq_decide.2 (by omega)
  rw [← key G.n]
  congr 1
  exact cutValue_congr fun v hv => by simp [hv]

set_option maxRecDepth 100000 in
theorem cycP_facts : (cycP 102).check = true ∧ (∀ u ∈ List.range 103, (((cycP 102).edges u).map (·.1)).Nodup) ∧ (cycP 102).n = 103 ∧
    (cycP 102).totalWeight < 1000 ∧ (∀ i ∈ List.range 101, 0 < (cycP 102).wt i (i + 1)) ∧ 0 < (cycP 102).wt 0 102 ∧ (cycP 102).deg 102 = 1 := by
  decide +kernel

theorem cycP_min : IsMinCut (cycP 102).n (cycP 102).wt 1 := by
  obtain ⟨h1, _, h3, _, h5, h6, h7⟩ := cycP_facts
  have hG := Graph.wf_of_check h1
  refine ⟨⟨_, Graph.properCut_singleton (u := 102) (by omega) (by omega), by rw [hG.cut_singleton (by omega), h7]⟩, ?_⟩
  intro S hS
  by_contra h0
  have h0 : cutValue (cycP 102).n (cycP 102).wt S = 0 := by omega
  have same : ∀ u v, u < 103 → v < 103 → 0 < (cycP 102).wt u v → S u = S v := by
    intro u v hu hv hw
    by_contra hne
    unfold cutValue at h0
    rw [h3] at h0
    rw [Finset.sum_eq_zero_iff] at h0
    rcases hsu : S u with _ | _
    · have := h0 v (by simpa using hv)
      rw [Finset.sum_eq_zero_iff] at this
      have := this u (by simpa using hu)
      rw [if_pos ⟨by rw [hsu] at hne; simpa using Ne.symm hne, hsu⟩, hG.wt_symm] at this
      omega
    · have := h0 u (by simpa using hu)
      rw [Finset.sum_eq_zero_iff] at this
      have := this v (by simpa using hv)
      rw [if_pos ⟨hsu, by rw [hsu] at hne; simpa using Ne.symm hne⟩] at this
      omega
  have hall : ∀ i, i < 102 → S i = S 0 := by
    intro i
    induction i with
    | zero => intro _; rfl
    | succ i ih =>
      intro hi
      rw [← same i (i + 1) (by omega) (by omega) (h5 i (by simp; omega)), ih (by omega)]
  obtain ⟨⟨u, hu, hu'⟩, v, hv, hv'⟩ := hS
  rw [h3] at hu hv
  have hone : ∀ i, i < 103 → S i = S 0 := by
    intro i hi
    by_cases h : i < 102
    · exact hall i h
    · have : i = 102 := by omega
      subst this
      exact (same 0 102 (by omega) (by omega) h6).symm
  rw [hone u hu, ← hone v hv, hv'] at hu'
  exact absurd hu' (by simp)

set_option maxRecDepth 100000 in
theorem cycP_kernel :
    (kernelFinal ⟨.default, true, true, fun _ => 0⟩ (fun _ H uf => fromUnionFind H uf (fun _ l => l)) (cycP 102) (fun _ => false) 1).lv.cur.n = 100 ∧
    ∀ u ∈ List.range 100, (kernelFinal ⟨.default, true, true, fun _ => 0⟩ (fun _ H uf => fromUnionFind H uf (fun _ l => l)) (cycP 102)
      (fun _ => false) 1).lv.cur.deg u = 2 := by
  decide +kernel

/-- The property fails beyond 100 vertices: for a cycle of 102 vertices with one pendant vertex, `findAllMincuts` called with the minimum cut 1
returns the value 2, whatever the final run of `noi_minimum_cut` chooses and whatever `recursive_cactus` does. -/
theorem C37_wrong_value (noiCfg : NOICfg) (hfitN : PQFits noiCfg.kind (cycP 102).n ((cycP 102).totalWeight + 1))
    (ordN : Nat → Nat → List Nat → List Nat) (hordN : ∀ l, IsOrder (ordN l)) (rc : Graph → Nat → MGraph) :
    IsMinCut (cycP 102).n (cycP 102).wt 1 ∧
    (findAllMincuts ⟨.default, true, true, fun _ => 0⟩ (fun _ H uf => fromUnionFind H uf (fun _ l => l)) noiCfg
      (fun l H uf => fromUnionFind H uf (ordN l)) rc (cycP 102) (fun _ => false) 1).1 = 2 := by
  obtain ⟨h1, h2, h3, h4, _⟩ := cycP_facts
  have hG := Graph.wf_of_check h1
  have hs : (cycP 102).Simple := by
    intro u hu
    exact h2 u (by rw [h3] at hu; simpa using hu)
  refine ⟨cycP_min, ?_⟩
  have hb : (cycP 102).totalWeight < 2 ^ 32 := lt_trans h4 (by norm_num)
  have hfit : PQFits .default (cycP 102).n ((cycP 102).totalWeight + 1) := by
    refine ⟨by omega, ?_⟩
    show 2 * (cycP 102).n < 2 ^ 32
    rw [h3]; norm_num
  have hmd : 1 ≤ (cycP 102).minDegree := by
    obtain ⟨u, hu, he⟩ := exists_minDegree' (G := cycP 102) (by omega) (fun u hu => by
      rw [← hG.cut_singleton hu]
      exact lt_of_le_of_lt (cutValue_le_total hG _) (lt_trans hb (by norm_num)))
    rw [← he, ← hG.cut_singleton hu]
    exact cycP_min.2 _ (Graph.properCut_singleton (by omega) hu)
  have hord : ∀ _ : Nat, IsOrder (fun _ l => l) := fun _ _ l => List.Perm.refl l
  have hi := kernelInit_inv (good := SimpleWF) hG (by omega) (lt_trans hb (by norm_num)) (x := cycP 102) ⟨hG, hs⟩ rfl cycP_min.1 hmd 1 true
    (fun _ => false)
  have hk : KInv SimpleWF (cycP 102) 1 (kernelFinal ⟨.default, true, true, fun _ => 0⟩
      (fun _ H uf => fromUnionFind H uf (fun _ l => l)) (cycP 102) (fun _ => false) 1) := by
    unfold kernelFinal
    exact kernelLoop_inv (good := SimpleWF) (fun _ h => h) hG hb hfit (fun l => fromUnionFind_ok_simple (hord l)) (by omega) cycP_min
      (by omega) _ _ _ _ hi (fun _ => by simp [kernelInit])
  obtain ⟨v1, _, _⟩ := finalValue_spec (good := SimpleWF) (fun _ h => h) hG hb (cfg := ⟨.default, true, true, fun _ => 0⟩) hfit (fun l => fromUnionFind_ok_simple (hord l)) (by omega)
    cycP_min (by omega) hfitN (fun l => fromUnionFind_ok_simple (hordN l)) hk
  rw [findAll_value]
  obtain ⟨q1, q2⟩ := cycP_kernel
  generalize kernelFinal ⟨.default, true, true, fun _ => 0⟩ (fun _ H uf => fromUnionFind H uf (fun _ l => l)) (cycP 102) (fun _ => false) 1 = k at *
  have hn : k.lv.view.n = 100 := q1
  have hd : ∀ u, u < k.lv.view.n → k.lv.view.deg u = 2 := fun u hu => q2 u (by rw [hn] at hu; simpa using hu)
  have hA : k.lv.view.WF := hk.lvl.ok.1
  obtain ⟨⟨T, t1, t2⟩, hle⟩ := v1 (by omega)
  have hev := cut_even hA (fun u hu => by rw [hd u hu]) T
  have hup := hle _ (Graph.properCut_singleton (u := 0) (by omega) (by omega))
  rw [hA.cut_singleton (by omega), hd 0 (by omega)] at hup
  obtain ⟨ψ, hψ⟩ := hk.lvl.con
  have hlow : 1 ≤ cutValue k.lv.view.n k.lv.view.wt T := hψ.min_le cycP_min.2 t1
  omega

end Cactus
end VieCut
