import Verif.Proof.VieCutAlg
import Verif.Proof.KargerStein
import Verif.Props.GraphAccess

/-! # C11, C12, C13, C36: contraction tests and inexact algorithms -/

namespace VieCut
open Finset Graph Function

/-! ## C11: Padberg-Rinaldi tests -/

/-- Tests 1 and 2, degrees below `2^32` (full property: all edge weights; see `C11_prTests12_truncation`).
The minimum cut `c` is below the bound.  In both modes contracting the marked pairs leaves the minimum cut value
unchanged, and every minimum cut `S` of the input is still a cut `T` of the contracted graph.  In the one-cut mode the
bound must not exceed any vertex degree. -/
theorem C11_prTests12_partial (G : Graph) (hG : G.WF) (h32 : ∀ u, u < G.n → G.deg u < 2 ^ 32) (limit c : Nat) (all : Bool)
    (hmin : IsMinCut G.n G.wt c) (hc : c < limit) (hdeg : all = true ∨ ∀ u, u < G.n → limit ≤ G.deg u)
    (ord : Nat → List Nat → List Nat) (hord : IsOrder ord) :
    IsMinCut (fromUnionFind G (prTests12 G limit all) ord).1.n (fromUnionFind G (prTests12 G limit all) ord).1.wt c ∧
    ∀ S, ProperCut G.n S → cutValue G.n G.wt S = c →
      ∃ T : Nat → Bool, ∀ u, u < G.n → T ((fromUnionFind G (prTests12 G limit all) ord).2 u) = S u := by
  obtain ⟨i1, i2⟩ := prTests12_inv hG limit all
  obtain ⟨c1, _, c3⟩ := fromUnionFind_spec hG i1 i2 ord hord
  have hr : ∀ S, ProperCut G.n S → cutValue G.n G.wt S = c → Respects (prTests12 G limit all) S := fun S hS hv =>
    prTests12_spec hG h32 hS (fun T hT => by rw [hv]; exact hmin.2 T hT) (by omega) hdeg
  have hk : ∀ S, ProperCut G.n S → cutValue G.n G.wt S = c → ∀ u v, u < G.n → v < G.n →
      (fromUnionFind G (prTests12 G limit all) ord).2 u = (fromUnionFind G (prTests12 G limit all) ord).2 v → S u = S v :=
    fun S hS hv u v hu hv' he => hr S hS hv u v ((c3 u v hu hv').1 he)
  refine ⟨?_, ?_⟩
  · obtain ⟨S, s1, s2⟩ := hmin.1
    exact c1.isMinCut hmin s1 (le_of_eq s2) (hk S s1 s2)
  · intro S s1 s2
    obtain ⟨T, t, _⟩ := c1.push (hk S s1 s2)
    exact ⟨T, t⟩

/-- Tests 3 and 4 for graphs without parallel edges (full property: all graphs; see `C11_prTests34_parallel`): the
minimum cut value is unchanged.  In the mode that looks for all cuts every minimum cut survives; then no condition on
the degrees is needed. -/
theorem C11_prTests34_partial (G : Graph) (hG : G.WF) (hs : G.Simple) (limit c : Nat) (all : Bool)
    (hmin : IsMinCut G.n G.wt c) (hc : c < limit) (hdeg : all = true ∨ ∀ u, u < G.n → limit ≤ G.deg u)
    (ord : Nat → List Nat → List Nat) (hord : IsOrder ord) :
    IsMinCut (fromUnionFind G (prTests34 G limit all) ord).1.n (fromUnionFind G (prTests34 G limit all) ord).1.wt c ∧
    (all = true → ∀ S, ProperCut G.n S → cutValue G.n G.wt S = c →
      ∃ T : Nat → Bool, ∀ u, u < G.n → T ((fromUnionFind G (prTests34 G limit all) ord).2 u) = S u) := by
  obtain ⟨i1, i2⟩ := prTests34_inv hG limit all
  obtain ⟨c1, _, c3⟩ := fromUnionFind_spec hG i1 i2 ord hord
  have hex : all = true → ∀ S, ProperCut G.n S → cutValue G.n G.wt S = c → ∀ u v, u < G.n → v < G.n →
      (fromUnionFind G (prTests34 G limit all) ord).2 u = (fromUnionFind G (prTests34 G limit all) ord).2 v →
      S u = S v := by
    intro ha S s1 s2
    subst ha
    have hr := (PRClosed.prTests34 hG (Or.inl hs)
      (prClosed_all hG s1 (fun T hT => by rw [s2]; exact hmin.2 T hT) (limit := limit) (by omega))).1
    exact fun u v hu hv he => hr u v ((c3 u v hu hv).1 he)
  refine ⟨?_, ?_⟩
  · obtain ⟨S, s1, s2⟩ := id hmin.1
    cases all with
    | true => exact c1.isMinCut hmin s1 (le_of_eq s2) (hex rfl S s1 s2)
    | false =>
      obtain ⟨T, t1, t2, t3⟩ := (PRClosed.prTests34 hG (Or.inl hs)
        (prClosed_one hG (hdeg.resolve_left (by simp)) ⟨S, s1, le_of_eq s2⟩ hc)).1
      exact c1.isMinCut hmin t1 t2 (fun u v hu hv he => t3 u v ((c3 u v hu hv).1 he))
  · intro ha S s1 s2
    obtain ⟨T, t, _⟩ := c1.push (hex ha S s1 s2)
    exact ⟨T, t⟩

/-- Non-vacuity: on the sample graph (minimum cut 3, minimum degree 5) tests 1 and 2 leave three classes and tests 3 and
4 leave four. -/
example : sampleGraph.WF ∧ sampleGraph.Simple ∧ (∀ u ∈ List.range sampleGraph.n, 5 ≤ sampleGraph.deg u ∧
      sampleGraph.deg u < 2 ^ 32) ∧ (prTests12 sampleGraph 5 false).cnt = 3 ∧ (prTests12 sampleGraph 5 true).cnt = 3 ∧
    (prTests34 sampleGraph 5 false).cnt = 4 ∧ (prTests34 sampleGraph 5 true).cnt = 4 := by
  refine ⟨sampleGraph_wf, ?_, by decide, by decide +kernel, by decide +kernel, by decide +kernel, by decide +kernel⟩
  have : ∀ u ∈ List.range sampleGraph.n, ((sampleGraph.edges u).map (·.1)).Nodup := by decide
  intro u hu; exact this u (by simpa using hu)

/-- A path `0 - 1 - 2 - 3` whose outer edges have weight `2^32 - 1` and whose middle edge has weight 1. -/
def truncGraph : Graph := ⟨[[(1, 2 ^ 32 - 1)], [(0, 2 ^ 32 - 1), (2, 1)], [(1, 1), (3, 2 ^ 32 - 1)], [(2, 2 ^ 32 - 1)]]⟩

/-- The property fails for tests 1 and 2 when a degree reaches `2^32`: the degree is stored in 32 bits. -/
theorem C11_prTests12_truncation : ∃ G : Graph, G.WF ∧ G.Simple ∧ ∃ limit, (∀ u, u < G.n → limit ≤ G.deg u) ∧
    IsMinCut G.n G.wt 1 ∧ 1 < limit ∧
    ¬ IsMinCut (fromUnionFind G (prTests12 G limit false) (fun _ l => l)).1.n
      (fromUnionFind G (prTests12 G limit false) (fun _ l => l)).1.wt 1 := by
  refine ⟨truncGraph, Graph.wf_of_check (by decide +kernel), ?_, 2 ^ 32 - 1, ?_, ⟨⟨fun u => u == 0 || u == 1, ?_, ?_⟩,
    cuts_ge_of_check (by decide +kernel)⟩, by decide, ?_⟩
  · have : ∀ u ∈ List.range truncGraph.n, ((truncGraph.edges u).map (·.1)).Nodup := by decide
    intro u hu; exact this u (by simpa using hu)
  · have : ∀ u ∈ List.range truncGraph.n, 2 ^ 32 - 1 ≤ truncGraph.deg u := by decide +kernel
    intro u hu; exact this u (by simpa using hu)
  · exact ⟨⟨0, by decide, rfl⟩, ⟨2, by decide, rfl⟩⟩
  · decide +kernel
  · intro h
    have h2 := isMinCut_two_le h
    have h1 : (fromUnionFind truncGraph (prTests12 truncGraph (2 ^ 32 - 1) false) (fun _ l => l)).1.n = 1 := by
      decide +kernel
    omega

/-- Two parallel edges between `1` and `2`. -/
def parGraph : Graph :=
  ⟨[[(1, 1), (2, 1), (3, 10)], [(0, 1), (2, 1), (2, 1), (4, 10)], [(0, 1), (1, 1), (1, 1)], [(0, 10)], [(1, 10)]]⟩

/-- The property fails for tests 3 and 4 when there are parallel edges: their weight is counted repeatedly against the
same edge of the other vertex. -/
theorem C11_prTests34_parallel : ∃ G : Graph, G.WF ∧ ∃ limit, (∀ u, u < G.n → limit ≤ G.deg u) ∧
    IsMinCut G.n G.wt 2 ∧ 2 < limit ∧
    ¬ IsMinCut (fromUnionFind G (prTests34 G limit false) (fun _ l => l)).1.n
      (fromUnionFind G (prTests34 G limit false) (fun _ l => l)).1.wt 2 := by
  refine ⟨parGraph, Graph.wf_of_check (by decide +kernel), 3, ?_, ⟨⟨fun u => u == 0 || u == 3, ?_, ?_⟩,
    cuts_ge_of_check (by decide +kernel)⟩, by decide, ?_⟩
  · have : ∀ u ∈ List.range parGraph.n, 3 ≤ parGraph.deg u := by decide +kernel
    intro u hu; exact this u (by simpa using hu)
  · exact ⟨⟨0, by decide, rfl⟩, ⟨2, by decide, rfl⟩⟩
  · decide +kernel
  · rintro ⟨⟨S, s1, s2⟩, _⟩
    have h3 : ∀ S, ProperCut (fromUnionFind parGraph (prTests34 parGraph 3 false) (fun _ l => l)).1.n S →
        3 ≤ cutValue (fromUnionFind parGraph (prTests34 parGraph 3 false) (fun _ l => l)).1.n
          (fromUnionFind parGraph (prTests34 parGraph 3 false) (fun _ l => l)).1.wt S :=
      cuts_ge_of_check (by decide +kernel)
    have := h3 S s1
    omega

/-! ## C12: results are values of cuts -/

/-- `padberg_rinaldi` on `graph_access`: the result is the value of a cut, at most the minimum degree; with `save_cut`
the node-in-cut flags describe such a cut. -/
theorem C12_padberg (G : Graph) (hG : G.WF) (hn : 2 ≤ G.n) (hb : G.totalWeight < 2 ^ 64) (save : Bool)
    (ord : Nat → Nat → List Nat → List Nat) (hord : ∀ l, IsOrder (ord l)) (inCut0 : Nat → Bool) :
    (∃ S, ProperCut G.n S ∧
      cutValue G.n G.wt S = (prFinal save (fun l H uf => fromUnionFind H uf (ord l)) G inCut0).mincut) ∧
    (prFinal save (fun l H uf => fromUnionFind H uf (ord l)) G inCut0).mincut ≤ G.minDegree ∧
    (save = true → ProperCut G.n (prFinal save (fun l H uf => fromUnionFind H uf (ord l)) G inCut0).inCut ∧
      cutValue G.n G.wt (prFinal save (fun l H uf => fromUnionFind H uf (ord l)) G inCut0).inCut =
        (prFinal save (fun l H uf => fromUnionFind H uf (ord l)) G inCut0).mincut) := by
  obtain ⟨h1, h2⟩ := LvlInv.init (good := Graph.WF) hG (G := G) rfl hG hn hb save inCut0
  obtain ⟨k1, k2⟩ := prLoop_inv hG hb (fun l => fromUnionFind_ok (hord l)) (save := save) (G.n + 1) 0 (G.n + 1) _ h1
  exact ⟨k1.attained, k1.le, fun hs => (k2 hs (h2 hs)).flags⟩

/-- On graphs without parallel edges and with total weight below `2^32` the result is the minimum cut if the
algorithm contracts the graph to at most two vertices. -/
theorem C12_padberg_exact (G : Graph) (hG : G.WF) (hs : G.Simple) (hn : 2 ≤ G.n) (hb : G.totalWeight < 2 ^ 32)
    (save : Bool) (ord : Nat → Nat → List Nat → List Nat) (hord : ∀ l, IsOrder (ord l)) (inCut0 : Nat → Bool)
    (h2 : (prFinal save (fun l H uf => fromUnionFind H uf (ord l)) G inCut0).cur.n ≤ 2) :
    IsMinCut G.n G.wt (prFinal save (fun l H uf => fromUnionFind H uf (ord l)) G inCut0).mincut := by
  have hi := (LvlInv.init (good := SimpleWF) ⟨hG, hs⟩ (G := G) rfl hG hn (by omega) save inCut0).1
  obtain ⟨k1, _⟩ := prLoop_inv hG (by omega) (fun l => fromUnionFind_ok_simple (hord l)) (save := save) (G.n + 1) 0
    (G.n + 1) _ hi
  refine ⟨k1.attained, ?_⟩
  intro S hS
  -- a minimum cut exists
  obtain ⟨c, hc⟩ : ∃ c, IsMinCut G.n G.wt c := by
    have hne : ∃ c, ∃ S, ProperCut G.n S ∧ cutValue G.n G.wt S = c := ⟨_, S, hS, rfl⟩
    classical
    exact ⟨Nat.find hne, Nat.find_spec hne, fun T hT => Nat.find_min' hne ⟨T, hT, rfl⟩⟩
  have hk := prLoop_kept hG hb (fun x hx => hx.2) (fun l => fromUnionFind_ok_simple (hord l)) (save := save) (k := c)
    (G.n + 1) 0 (G.n + 1) _ hi (Or.inr hc)
  have := k1.kept_final hc hk h2
  rw [show (prFinal save (fun l H uf => fromUnionFind H uf (ord l)) G inCut0).mincut = c from this]
  exact hc.2 S hS

/-- The loop of `padberg_rinaldi` ends by its own condition: running it with more fuel changes nothing. -/
theorem C12_padberg_terminates (G : Graph) (save : Bool) (ord : Nat → Nat → List Nat → List Nat) (inCut0 : Nat → Bool)
    (k : Nat) : prLoop save (fun l H uf => fromUnionFind H uf (ord l)) (G.n + 1 + k) 0 (G.n + 1) (noiInit save G inCut0) =
    prFinal save (fun l H uf => fromUnionFind H uf (ord l)) G inCut0 :=
  prLoop_done (G.n + 1) k 0 (G.n + 1) _ (le_refl _)

/-- `padberg_rinaldi` on `mutable_graph`, which is contracted in place: the result is the value of a cut of the input. -/
theorem C12_padberg_mutable (g : MGraph) (hg : g.Consistent) (hf : g.Fresh) (hn : 2 ≤ g.n)
    (hb : g.toGraph.totalWeight < 2 ^ 64) (ord : Nat → Nat → List Nat → List Nat) (hord : ∀ l, IsOrder (ord l)) :
    (∃ S, ProperCut g.n S ∧ cutValue g.n g.toGraph.wt S =
      (prFinal false (fun l H uf => MGraph.fromUnionFindM H uf false (ord l)) g (fun _ => false)).mincut) ∧
    (prFinal false (fun l H uf => MGraph.fromUnionFindM H uf false (ord l)) g (fun _ => false)).mincut
      ≤ g.toGraph.minDegree := by
  have hv := (MGraph.consistent_iff).1 hg
  have hi := (LvlInv.init (good := fun g : MGraph => MGraph.Valid g ∧ MGraph.Located g ∧ MGraph.HasRep g)
    (x := g) ⟨hv, hf.located, hf.hasRep⟩ rfl hv.wf (by rw [← MGraph.toGraph_n g] at hn; exact hn) hb false
    (fun _ => false)).1
  obtain ⟨k1, _⟩ := prLoop_inv hv.wf hb (fun l => fromUnionFindM_inplace_ok (hord l)) (save := false)
    (g.toGraph.n + 1) 0 (g.toGraph.n + 1) _ hi
  obtain ⟨S, s1, s2⟩ := k1.attained
  refine ⟨⟨S, ?_, ?_⟩, k1.le⟩
  · rwa [MGraph.toGraph_n g] at s1
  · rw [← MGraph.toGraph_n g]; exact s2

/-- Non-vacuity: the sample graph is contracted to two vertices and the minimum cut 3 is found. -/
example : (prFinal true (fun _ H uf => fromUnionFind H uf (fun _ l => l)) sampleGraph (fun _ => false)).mincut = 3 ∧
    (prFinal true (fun _ H uf => fromUnionFind H uf (fun _ l => l)) sampleGraph (fun _ => false)).cur.n ≤ 2 := by
  decide +kernel

/-- `viecut` on `graph_access`, for all random choices of label propagation: it returns the value of a cut, at most the
minimum degree.  Up to 10000 vertices the result is the minimum cut and the saved flags describe it. -/
theorem C12_viecut (G : Graph) (hG : G.WF) (hn : 2 ≤ G.n) (hb : G.totalWeight < 2 ^ 64) (cfg : VCfg)
    (hσ : ∀ l k x, (cfg.lpShuffle l k x).Perm x) (hfit : PQFits cfg.noi.kind G.n G.totalWeight)
    (ord ordN ordM : Nat → Nat → List Nat → List Nat) (hord : ∀ l, IsOrder (ord l)) (hordN : ∀ l, IsOrder (ordN l))
    (hordM : ∀ l, IsOrder (ordM l)) (inCut0 : Nat → Bool) :
    ∃ v flags, viecutFinal cfg (fun l H uf => fromUnionFind H uf (ord l)) (fun l H uf => fromUnionFind H uf (ordN l))
        (fun l H m r p => contractGraphA H m r p (ordM l)) G inCut0 = some (v, flags) ∧
      (∃ S, ProperCut G.n S ∧ cutValue G.n G.wt S = v) ∧ v ≤ G.minDegree ∧
      (G.n ≤ 10000 → IsMinCut G.n G.wt v ∧
        (cfg.noi.save = true → ProperCut G.n flags ∧ cutValue G.n G.wt flags = v)) := by
  obtain ⟨r, h1, h2, h3, h4⟩ := viecutFinal_spec (good := Graph.WF) hG hn hb hσ hfit
    (fun l => fromUnionFind_ok (hord l)) (fun l => fromUnionFind_ok (hordN l)) (fun l => contractGraphA_ok (hordM l))
    (x := G) hG rfl inCut0
  exact ⟨r.1, r.2, h1, h2, h3, h4⟩

/-- `viecut` on `mutable_graph`. -/
theorem C12_viecut_mutable (g : MGraph) (hg : g.Consistent) (hf : g.Fresh) (hn : 2 ≤ g.n)
    (hb : g.toGraph.totalWeight < 2 ^ 64) (cfg : VCfg) (hσ : ∀ l k x, (cfg.lpShuffle l k x).Perm x)
    (hfit : PQFits cfg.noi.kind g.n g.toGraph.totalWeight)
    (ord ordN ordM : Nat → Nat → List Nat → List Nat) (hord : ∀ l, IsOrder (ord l)) (hordN : ∀ l, IsOrder (ordN l))
    (hordM : ∀ l, IsOrder (ordM l)) (inCut0 : Nat → Bool) :
    ∃ v flags, viecutFinal cfg (fun l H uf => MGraph.fromUnionFindM H uf true (ord l))
        (fun l H uf => MGraph.fromUnionFindM H uf true (ordN l))
        (fun l H m r p => MGraph.contractGraphM H m r p (ordM l)) g inCut0 = some (v, flags) ∧
      (∃ S, ProperCut g.n S ∧ cutValue g.n g.toGraph.wt S = v) ∧ v ≤ g.toGraph.minDegree ∧
      (g.n ≤ 10000 → IsMinCut g.n g.toGraph.wt v ∧
        (cfg.noi.save = true → ProperCut g.n flags ∧ cutValue g.n g.toGraph.wt flags = v)) := by
  have hv := (MGraph.consistent_iff).1 hg
  have hN := MGraph.toGraph_n g
  obtain ⟨r, h1, h2, h3, h4⟩ := viecutFinal_spec (good := fun g : MGraph => MGraph.Valid g ∧ MGraph.Fresh g) hv.wf
    (by rw [hN]; exact hn) hb hσ (by rw [hN]; exact hfit)
    (fun l => fromUnionFindM_ok (hord l)) (fun l => fromUnionFindM_ok (hordN l)) (fun l => contractGraphM_ok (hordM l))
    (x := g) ⟨hv, hf⟩ rfl inCut0
  rw [hN] at h2 h4
  exact ⟨r.1, r.2, h1, h2, h3, h4⟩

/-- The coarsening loop of `viecut` ends by its own condition. -/
theorem C12_viecut_terminates (G : Graph) (hG : G.WF) (hn : 2 ≤ G.n) (hb : G.totalWeight < 2 ^ 64) (cfg : VCfg)
    (hσ : ∀ l k x, (cfg.lpShuffle l k x).Perm x) (ord ordM : Nat → Nat → List Nat → List Nat)
    (hord : ∀ l, IsOrder (ord l)) (hordM : ∀ l, IsOrder (ordM l)) (inCut0 : Nat → Bool) (k : Nat) :
    viecutLoop cfg (fun l H uf => fromUnionFind H uf (ord l)) (fun l H m r p => contractGraphA H m r p (ordM l))
      (G.n + 1 + k) 0 none (noiInit cfg.noi.save G inCut0) =
    viecutLoop cfg (fun l H uf => fromUnionFind H uf (ord l)) (fun l H m r p => contractGraphA H m r p (ordM l))
      (G.n + 1) 0 none (noiInit cfg.noi.save G inCut0) :=
  viecutLoop_done hG hb hσ (fun l => fromUnionFind_ok (hord l)) (fun l => contractGraphA_ok (hordM l)) (G.n + 1) k 0 none
    _ (LvlInv.init (good := Graph.WF) hG rfl hG hn hb cfg.noi.save inCut0).1 (le_refl _)

/-- One round of coarsening, for a graph of any size: label propagation, the trivial cut search and the
tests produce a graph each of whose cuts is a cut of the input of the same value. -/
theorem C12_viecut_round (G : Graph) (hG : G.WF) (hn : 2 ≤ G.n) (hb : G.totalWeight < 2 ^ 64) (cfg : VCfg)
    (hσ : ∀ l k x, (cfg.lpShuffle l k x).Perm x) (ord ordM : Nat → Nat → List Nat → List Nat)
    (hord : ∀ l, IsOrder (ord l)) (hordM : ∀ l, IsOrder (ordM l)) (inCut0 : Nat → Bool) :
    ∃ s n, viecutStep cfg (fun l H uf => fromUnionFind H uf (ord l)) (fun l H m r p => contractGraphA H m r p (ordM l)) 0
        (noiInit cfg.noi.save G inCut0) = some (s, n) ∧
      (∃ φ : Nat → Nat, (∀ u, u < G.n → φ u < s.cur.n) ∧
        ∀ T, cutValue s.cur.n s.cur.wt T = cutValue G.n G.wt (fun u => T (φ u))) ∧
      (∃ S, ProperCut G.n S ∧ cutValue G.n G.wt S = s.mincut) ∧ (2 ≤ s.cur.n → ∀ u, u < s.cur.n → s.mincut ≤ s.cur.deg u) := by
  obtain ⟨r, h1, h2, _⟩ := viecutStep_inv hG hb hσ (fun l => fromUnionFind_ok (hord l))
    (fun l => contractGraphA_ok (hordM l)) (lvl := 0) (LvlInv.init (good := Graph.WF) hG rfl hG hn hb cfg.noi.save inCut0).1
  obtain ⟨φ, hφ⟩ := h2.con
  exact ⟨r.1, r.2, h1, ⟨φ, hφ.lt, hφ.cut⟩, h2.attained, h2.mindeg⟩

/-- Non-vacuity: a round on the sample graph contracts everything and finds the cut of value 3. -/
example : ((viecutStep ⟨⟨.default, true, true, fun _ => 0⟩, fun _ _ => 0, fun _ _ l => l⟩
      (fun _ H uf => fromUnionFind H uf (fun _ l => l)) (fun _ H m r p => contractGraphA H m r p (fun _ l => l)) 0
      (noiInit true sampleGraph (fun _ => false))).map fun r => (r.1.cur.n, r.1.mincut)) = some (1, 3) := by
  decide +kernel

/-! ## C13: Matula's approximation -/

/-- `matula_approx` on `graph_access`: the result is the value of a cut, at least the minimum cut `c` and at most
`2 c + 1`, and exact for `c = 0`; with `save_cut` the flags describe a cut of that value. -/
theorem C13_matula (G : Graph) (hG : G.WF) (hn : 2 ≤ G.n) (hb : G.totalWeight < 2 ^ 64) (cfg : NOICfg)
    (hfit : PQFits cfg.kind G.n (if cfg.limited then G.minDegree else G.totalWeight))
    (ord : Nat → Nat → List Nat → List Nat) (hord : ∀ l, IsOrder (ord l)) (inCut0 : Nat → Bool) (c : Nat)
    (hc : IsMinCut G.n G.wt c) :
    (∃ S, ProperCut G.n S ∧
      cutValue G.n G.wt S = (matulaFinal cfg (fun l H uf => fromUnionFind H uf (ord l)) G inCut0).mincut) ∧
    c ≤ (matulaFinal cfg (fun l H uf => fromUnionFind H uf (ord l)) G inCut0).mincut ∧
    (matulaFinal cfg (fun l H uf => fromUnionFind H uf (ord l)) G inCut0).mincut ≤ 2 * c + 1 ∧
    (c = 0 → (matulaFinal cfg (fun l H uf => fromUnionFind H uf (ord l)) G inCut0).mincut = 0) ∧
    (cfg.save = true →
      ProperCut G.n (matulaFinal cfg (fun l H uf => fromUnionFind H uf (ord l)) G inCut0).inCut ∧
      cutValue G.n G.wt (matulaFinal cfg (fun l H uf => fromUnionFind H uf (ord l)) G inCut0).inCut =
        (matulaFinal cfg (fun l H uf => fromUnionFind H uf (ord l)) G inCut0).mincut) := by
  obtain ⟨h1, h2⟩ := LvlInv.init (good := Graph.WF) hG (G := G) rfl hG hn hb cfg.save inCut0
  obtain ⟨k1, k2, k3, k4⟩ := matulaLoop_inv hG hb (cfg := cfg) hfit (fun l => fromUnionFind_ok (hord l)) G.n 0 _ h1
    (le_refl _)
  have hk := k4 c (Or.inr hc)
  have hm : (matulaFinal cfg (fun l H uf => fromUnionFind H uf (ord l)) G inCut0) =
    matulaLoop cfg (fun l H uf => fromUnionFind H uf (ord l)) G.n 0 (noiInit cfg.save G inCut0) := rfl
  rw [hm]
  refine ⟨k1.attained, k1.ge hc, ?_, ?_, fun hs => (k2 hs (h2 hs)).flags⟩
  · rcases hk with hk | hk
    · exact hk.2
    · rcases Nat.eq_zero_or_pos (matulaLoop cfg (fun l H uf => fromUnionFind H uf (ord l)) G.n 0
        (noiInit cfg.save G inCut0)).mincut with h0 | h0
      · omega
      · have := k1.kept_final hc hk (by omega); omega
  · intro hc0
    rcases hk with hk | hk
    · omega
    · by_contra h0
      have := k1.kept_final hc hk (by omega); omega

/-- `matula_approx` on `mutable_graph`, which is contracted in place (value only). -/
theorem C13_matula_mutable (g : MGraph) (hg : g.Consistent) (hf : g.Fresh) (hn : 2 ≤ g.n)
    (hb : g.toGraph.totalWeight < 2 ^ 64) (cfg : NOICfg) (_hns : cfg.save = false)
    (hfit : PQFits cfg.kind g.n (if cfg.limited then g.toGraph.minDegree else g.toGraph.totalWeight))
    (ord : Nat → Nat → List Nat → List Nat) (hord : ∀ l, IsOrder (ord l)) (c : Nat)
    (hc : IsMinCut g.n g.toGraph.wt c) :
    c ≤ (matulaFinal cfg (fun l H uf => MGraph.fromUnionFindM H uf false (ord l)) g (fun _ => false)).mincut ∧
    (matulaFinal cfg (fun l H uf => MGraph.fromUnionFindM H uf false (ord l)) g (fun _ => false)).mincut ≤ 2 * c + 1 ∧
    (c = 0 → (matulaFinal cfg (fun l H uf => MGraph.fromUnionFindM H uf false (ord l)) g (fun _ => false)).mincut = 0) := by
  have hv := (MGraph.consistent_iff).1 hg
  rw [← MGraph.toGraph_n g] at hc hn hfit
  have h1 := (LvlInv.init (good := fun g : MGraph => MGraph.Valid g ∧ MGraph.Located g ∧ MGraph.HasRep g)
    (x := g) ⟨hv, hf.located, hf.hasRep⟩ rfl hv.wf hn hb cfg.save (fun _ => false)).1
  obtain ⟨k1, k2, k3, k4⟩ := matulaLoop_inv hv.wf hb (cfg := cfg) hfit (fun l => fromUnionFindM_inplace_ok (hord l))
    g.toGraph.n 0 _ h1 (le_refl _)
  have hk := k4 c (Or.inr hc)
  unfold matulaFinal
  refine ⟨k1.ge hc, ?_, ?_⟩
  · rcases hk with hk | hk
    · exact hk.2
    · by_cases h0 : (matulaLoop cfg (fun l H uf => MGraph.fromUnionFindM H uf false (ord l)) g.toGraph.n 0
        (noiInit cfg.save g fun _ => false)).mincut = 0
      · exact le_trans (le_of_eq h0) (Nat.zero_le _)
      · have := k1.kept_final hc hk (by omega)
        exact le_trans (le_of_eq this) (by omega)
  · intro hc0
    rcases hk with hk | hk
    · omega
    · by_contra h0
      have := k1.kept_final hc hk (by
        by_contra hgt
        exact k3 ⟨by omega, Nat.pos_of_ne_zero h0⟩)
      exact h0 (this.trans hc0)

/-- Two complete graphs on four vertices joined by one edge. -/
def twoK4 : Graph :=
  ⟨[[(1, 1), (2, 1), (3, 1), (4, 1)], [(0, 1), (2, 1), (3, 1)], [(0, 1), (1, 1), (3, 1)], [(0, 1), (1, 1), (2, 1)],
    [(0, 1), (5, 1), (6, 1), (7, 1)], [(4, 1), (6, 1), (7, 1)], [(4, 1), (5, 1), (7, 1)], [(4, 1), (5, 1), (6, 1)]]⟩

/-- The additional `1` in the bound is needed: the result can be three times the minimum cut, although the algorithm
is documented as a `(2+ε)`-approximation. -/
theorem C13_matula_tight : ∃ G : Graph, G.WF ∧ IsMinCut G.n G.wt 1 ∧
    (matulaFinal ⟨.default, true, false, fun _ => 0⟩ (fun _ H uf => fromUnionFind H uf (fun _ l => l)) G
      (fun _ => false)).mincut = 3 := by
  refine ⟨twoK4, Graph.wf_of_check (by decide +kernel), ⟨⟨fun u => decide (u < 4), ?_, by decide +kernel⟩,
    cuts_ge_of_check (by decide +kernel)⟩, by decide +kernel⟩
  exact ⟨⟨0, by decide, rfl⟩, ⟨4, by decide, rfl⟩⟩

/-- Non-vacuity: the sample graph meets the hypotheses. -/
example : sampleGraph.WF ∧ PQFits .bstack sampleGraph.n (if true then sampleGraph.minDegree else sampleGraph.totalWeight) ∧
    (matulaFinal ⟨.bstack, true, true, fun _ => 0⟩ (fun _ H uf => fromUnionFind H uf (fun _ l => l)) sampleGraph
      (fun _ => false)).mincut = 5 :=
  ⟨sampleGraph_wf, by unfold PQFits; decide, by decide +kernel⟩

/-! ## C36: Karger-Stein -/

/-- Whatever the random numbers: if `ks_minimum_cut` returns, the result is the value of a cut of the input. -/
theorem C36_ks_attained (G : Graph) (hG : G.WF) (hn : 2 ≤ G.n) (hb : G.totalWeight < 2 ^ 64 - 1)
    (cfg : Nat → Nat → NOICfg) (hfit : ∀ i p, PQFits (cfg i p).kind G.n G.totalWeight) (rnd : Nat → Nat → Nat)
    (ord : Nat → Nat → Nat → Nat → List Nat → List Nat) (hord : ∀ i p l, IsOrder (ord i p l)) (sf optimal : Nat)
    (hopt : optimal < 2 ^ 64 - 1) (v : Nat) (h : ksMinimumCut cfg rnd ord sf optimal G = some v) :
    (∃ S, ProperCut G.n S ∧ cutValue G.n G.wt S = v) ∧ ∀ c, IsMinCut G.n G.wt c → c ≤ v := by
  obtain ⟨S, s1, s2⟩ := ksLoop_attained hG hn (by omega) hfit hord (G.n + 1) 0 (2 ^ 64 - 1) v h (Or.inr ⟨rfl, hopt, hb⟩)
  exact ⟨⟨S, s1, s2⟩, fun c hc => by rw [← s2]; exact hc.2 S s1⟩

/-- Non-vacuity: the sample graph with some random stream. -/
example : ksMinimumCut (fun _ _ => ⟨.default, true, true, fun _ => 0⟩) (fun s k => 5 * s + 3 * k) (fun _ _ _ _ l => l) 50 0
    sampleGraph = some 3 := by decide +kernel

/-- One edge and three isolated vertices. -/
def sparseGraph : Graph := ⟨[[(1, 1)], [(0, 1)], [], [], []]⟩

theorem sparse_edges {a b w : Nat} (h : (b, w) ∈ sparseGraph.edges a) : a < 2 ∧ b < 2 := by
  have ha := lt_n_of_edge h
  have : ∀ a ∈ List.range 5, ∀ e ∈ sparseGraph.edges a, a < 2 ∧ e.1 < 2 := by decide
  exact this a (List.mem_range.2 ha) _ h

/-- On a graph that is not connected the algorithm need not return: two contractions are requested where only one is
possible, so no number of random draws suffices. -/
theorem C36_disconnected_diverges : ∃ G : Graph, G.WF ∧ 2 ≤ G.n ∧ ∀ cfg rnd ord sf,
    ksMinimumCut cfg rnd ord sf 0 G = none := by
  refine ⟨sparseGraph, Graph.wf_of_check (by decide), by decide, ?_⟩
  intro cfg rnd ord sf
  have hp : ksPartition sparseGraph true (rnd 0) sf = none := by
    by_contra hne
    obtain ⟨uf, huf⟩ := Option.ne_none_iff_exists'.1 hne
    have hG : sparseGraph.WF := Graph.wf_of_check (by decide)
    have h := ksSample_inv hG (rnd := rnd 0) (P := fun uf => ∀ x, 2 ≤ x → ∀ y, uf.root x = uf.root y → x = y)
      (by
        intro uf hu hs hP a b w hw x hx y hxy
        obtain ⟨h1, h2⟩ := sparse_edges hw
        have hs' : uf.size = 5 := hs
        rw [(union_root hu (l := a) (r := b) (by omega) (by omega)).2.2] at hxy
        have hxa : uf.root x ≠ uf.root a := fun h => by have := hP x hx a h; omega
        rw [if_neg hxa] at hxy
        split at hxy
        · have := hP x hx b hxy; omega
        · exact hP x hx y hxy) sf 0 2 (UF.mk' 5) uf huf ⟨UF.init_inv _, rfl⟩ (by decide)
      (by
        intro x _ y hxy
        have : ∀ x, (UF.mk' 5).root x = x := fun x => UF.rootOf_root (by simp [UF.mk'])
        rwa [this, this] at hxy)
    obtain ⟨h1, h2, h3, h4⟩ := h
    have hs : uf.size = 5 := h2
    have hcard := UF.image_root_card h1
    rw [hs, h3] at hcard
    have hsub : ({uf.root 0, uf.root 2, uf.root 3, uf.root 4} : Finset Nat) ⊆ (range 5).image uf.root := by
      intro z hz
      simp only [Finset.mem_insert, Finset.mem_singleton] at hz
      rcases hz with rfl | rfl | rfl | rfl <;> exact mem_image_of_mem _ (by simp)
    have h4' : ({uf.root 0, uf.root 2, uf.root 3, uf.root 4} : Finset Nat).card = 4 := by
      have n1 : uf.root 2 ≠ uf.root 0 := fun h => by have := h4 2 (by omega) 0 h; omega
      have n2 : uf.root 3 ≠ uf.root 0 := fun h => by have := h4 3 (by omega) 0 h; omega
      have n3 : uf.root 4 ≠ uf.root 0 := fun h => by have := h4 4 (by omega) 0 h; omega
      have n4 : uf.root 2 ≠ uf.root 3 := fun h => by have := h4 2 (by omega) 3 h; omega
      have n5 : uf.root 2 ≠ uf.root 4 := fun h => by have := h4 2 (by omega) 4 h; omega
      have n6 : uf.root 3 ≠ uf.root 4 := fun h => by have := h4 3 (by omega) 4 h; omega
      rw [Finset.card_insert_of_notMem, Finset.card_insert_of_notMem, Finset.card_insert_of_notMem, Finset.card_singleton]
      · simpa using n6
      · simp [n4, n5]
      · simp [n1.symm, n2.symm, n3.symm]
    have := card_le_card hsub
    have h5 : (UF.mk' 5).cnt = 5 := rfl
    omega
  have hn : sparseGraph.n = 5 := rfl
  unfold ksMinimumCut
  rw [hn]
  unfold ksLoop
  rw [if_pos (by rw [hn]; decide), hn]
  unfold ksRecurse
  rw [hp]
  rfl

end VieCut
