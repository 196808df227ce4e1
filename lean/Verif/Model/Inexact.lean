import Verif.Model.NOIMutable
import Verif.Model.PRTests
import Verif.Model.Tools
import Verif.Model.Random

/-!
# Models of the inexact global minimum cut algorithms

`padberg_rinaldi.h`, `matula_approx.h`, `viecut.h`, `ks_minimum_cut.h`, `lib/coarsening/label_propagation.h` and
`contraction::findTrivialCuts`.
-/

namespace VieCut
open Function

/-- `graphs.push_back(H); cut = updateCut(graphs, cut);` where `φ` is the partition index stored in the previous last
graph (e.g. padberg_rinaldi.h:57-58). -/
def pushLevel {γ : Type} [GraphLike γ] (save : Bool) (s : NOIState γ) (r : γ × (Nat → Nat)) : NOIState γ :=
  let maps := s.maps ++ [r.2]
  let u := updateCut save (GraphLike.view r.1) maps s.mincut s.inCut
  { cur := r.1, maps := maps, mincut := u.1, inCut := u.2 }

/-! ### `padberg_rinaldi` -/

/-- Loop body of `padberg_rinaldi::perform_minimum_cut` (padberg_rinaldi.h:54-63). -/
def prStep {γ : Type} [GraphLike γ] (save : Bool) (contract : Nat → γ → UF → γ × (Nat → Nat)) (lvl : Nat)
    (s : NOIState γ) : NOIState γ :=
  let s := pushLevel save s (contract (2 * lvl) s.cur (prTests34 s.view s.mincut false))
  pushLevel save s (contract (2 * lvl + 1) s.cur (prTests12 s.view s.mincut false))

/-- The loop (padberg_rinaldi.h:52-64): `while (n > 2 && n < last_nodes)`. -/
def prLoop {γ : Type} [GraphLike γ] (save : Bool) (contract : Nat → γ → UF → γ × (Nat → Nat)) :
    Nat → Nat → Nat → NOIState γ → NOIState γ
  | 0, _, _, s => s
  | f + 1, lvl, last, s =>
    if s.view.n > 2 ∧ s.view.n < last then
      prLoop save contract f (lvl + 1) s.view.n (prStep save contract lvl s)
    else s

/-- Final state of `padberg_rinaldi::perform_minimum_cut` (padberg_rinaldi.h:42-74); `n + 1` rounds suffice
(`C12_padberg_terminates`). -/
def prFinal {γ : Type} [GraphLike γ] (save : Bool) (contract : Nat → γ → UF → γ × (Nat → Nat)) (x : γ)
    (inCut0 : Nat → Bool) : NOIState γ :=
  prLoop save contract ((GraphLike.view x).n + 1) 0 ((GraphLike.view x).n + 1) (noiInit save x inCut0)

/-! ### `matula_approx` -/

/-- Loop body of `matula_approx::perform_minimum_cut` (matula_approx.h:54-63): the bound is
`std::max(mincut / 2, 1)`. -/
def matulaStep {γ : Type} [GraphLike γ] (cfg : NOICfg) (contract : Nat → γ → UF → γ × (Nat → Nat)) (lvl : Nat)
    (s : NOIState γ) : NOIState γ :=
  let bound := max (s.mincut / 2) 1
  let P := selectPQ cfg.kind cfg.limited s.view.n bound s.view.maxDegree
  pushLevel cfg.save s
    (contract lvl s.cur (capforest P.toPQ cfg.limited s.view bound (cfg.rnd lvl % s.view.n)))

/-- The loop (matula_approx.h:53-63). -/
def matulaLoop {γ : Type} [GraphLike γ] (cfg : NOICfg) (contract : Nat → γ → UF → γ × (Nat → Nat)) :
    Nat → Nat → NOIState γ → NOIState γ
  | 0, _, s => s
  | f + 1, lvl, s =>
    if s.view.n > 2 ∧ s.mincut > 0 then matulaLoop cfg contract f (lvl + 1) (matulaStep cfg contract lvl s) else s

/-- Final state of `matula_approx::perform_minimum_cut` (matula_approx.h:44-69). -/
def matulaFinal {γ : Type} [GraphLike γ] (cfg : NOICfg) (contract : Nat → γ → UF → γ × (Nat → Nat)) (x : γ)
    (inCut0 : Nat → Bool) : NOIState γ :=
  matulaLoop cfg contract (GraphLike.view x).n 0 (noiInit cfg.save x inCut0)

/-! ### `label_propagation` -/

/-- Local variables of `propagate_labels` (label_propagation.h:37-47) and the number of calls of
`random_functions::next()` so far. -/
structure LPState where
  cluster : Nat → Nat
  hash : Nat → Nat × Nat
  draws : Nat

/-- Body of the loop over the edges of `n` (label_propagation.h:66-83): the state is extended by `max_block` and
`max_value`.  Sums are unbounded (total weight below `2^64`). -/
def lpEdge (rnd : Nat → Nat) (n : Nat) (st : LPState × Nat × Nat) (e : Nat × Nat) : LPState × Nat × Nat :=
  let block := st.1.cluster e.1
  let hash := if (st.1.hash block).2 ≠ n then update st.1.hash block (0, n) else st.1.hash
  let hash := update hash block ((hash block).1 + e.2, (hash block).2)
  let v := (hash block).1
  if v > st.2.2 then ({ st.1 with hash := hash }, block, v)
  else if v = st.2.2 then
    if rnd st.1.draws % 2 = 1 then ({ st.1 with hash := hash, draws := st.1.draws + 1 }, block, v)
    else ({ st.1 with hash := hash, draws := st.1.draws + 1 }, st.2)
  else ({ st.1 with hash := hash }, st.2)

/-- Body of the loop over the vertices (label_propagation.h:61-85). -/
def lpNode (G : Graph) (rnd perm : Nat → Nat) (s : LPState) (node : Nat) : LPState :=
  let n := perm node
  let st := (G.edges n).foldl (lpEdge rnd n) (s, s.cluster n, 0)
  { st.1 with cluster := update st.1.cluster n st.2.1 }

/-- `propagate_labels(G)` (label_propagation.h:35-90): two rounds over the vertices, permuted by
`permutate_vector_local` (`σ`: its calls of `std::shuffle`). -/
def propagateLabels (G : Graph) (rnd : Nat → Nat) (σ : Nat → List Nat → List Nat) : Nat → Nat :=
  let perm := Rand.local' σ true (List.replicate G.n 0)
  ((List.range 2).foldl (fun s _ => (List.range G.n).foldl (lpNode G rnd (fun i => perm.getD i 0)) s)
    { cluster := fun i => i, hash := fun _ => (0, 0), draws := 0 }).cluster

/-! ### `findTrivialCuts` -/

/-- Conversion to `int` (32 bits, two's complement). -/
def i32 (x : Int) : Int := Int.bmod x (2 ^ 32)

/-- Degree difference of one vertex and its contribution to the block degree (contract_graph.h:94-104). -/
def ftDegree (mapping : Nat → Nat) (p : Nat) (st : Int × Int) (e : Nat × Nat) : Int × Int :=
  if mapping e.1 = p then (st.1 + (e.2 : Int), st.2) else (st.1 - (e.2 : Int), st.2 + (e.2 : Int))

/-- Loop over the vertices of a block (contract_graph.h:91-112): `block_degree`, `improve` and the index and name of the
best vertex (the C++ variables are uninitialised instead of `none`). -/
def ftScan (G : Graph) (mapping : Nat → Nat) (p : Nat) (st : Int × Int × Option (Nat × Nat)) (vi : Nat × Nat) :
    Int × Int × Option (Nat × Nat) :=
  let d := (G.edges vi.1).foldl (ftDegree mapping p) (0, st.1)
  if st.2.1 > d.1 then (d.2, d.1, some (vi.2, vi.1)) else (d.2, st.2)

/-- The loop of `findTrivialCuts` (contract_graph.h:84-128).  `size < log2(n)` is `2^size < n`.  Every round either
advances `p` or creates a block, so `2 n` rounds suffice (`ftLoop_done`). -/
def ftLoop (G : Graph) : Nat → Nat → (Nat → Nat) → List (List Nat) → Int → (Nat → Nat) × List (List Nat)
  | 0, _, mapping, rev, _ => (mapping, rev)
  | f + 1, p, mapping, rev, target =>
    if p < rev.length then
      let blk := rev.getD p []
      if 2 ^ blk.length < G.n then
        let sc := blk.zipIdx.foldl (ftScan G mapping p) (0, 0, none)
        match sc.2.2 with
        | none => ftLoop G f (p + 1) mapping rev target
        | some (idx, best) =>
          if sc.2.1 < 0 ∧ sc.1 + sc.2.1 < target ∧ blk.length > 1 then
            ftLoop G f p (update mapping best rev.length) (rev.set p (blk.eraseIdx idx) ++ [[best]])
              (i32 (sc.1 + sc.2.1))
          else ftLoop G f (p + 1) mapping rev target
      else ftLoop G f (p + 1) mapping rev target
    else (mapping, rev)

/-- `contraction::findTrivialCuts(G, &mapping, &reverse_mapping, cut)` (contract_graph.h:75-131). -/
def findTrivialCuts (G : Graph) (mapping : Nat → Nat) (rev : List (List Nat)) (cut : Nat) :
    (Nat → Nat) × List (List Nat) :=
  ftLoop G (2 * G.n) 0 mapping rev (i32 cut)

/-! ### `viecut` -/

/-- Everything a run of `viecut` cannot control, per level: random numbers and shuffles of label propagation. -/
structure VCfg where
  noi : NOICfg
  lpRnd : Nat → Nat → Nat
  lpShuffle : Nat → Nat → List Nat → List Nat

/-- `viecut` stops coarsening at this size (viecut.h:70). -/
def viecutThreshold : Nat := 10000

/-- `contraction::contractGraph(G, mapping, reverse_mapping)` for `graph_access` (contract_graph.h:236-242); `pidx`
are the partition indices of `G`, which stay as they are. -/
def contractGraphA (G : Graph) (mapping : Nat → Nat) (rev : List (List Nat)) (pidx : Nat → Nat)
    (ord : Nat → List Nat → List Nat) : Graph × (Nat → Nat) :=
  (contractSparse G mapping rev ord, pidx)

/-- `contraction::contractGraph(G, mapping, reverse_mapping, copy = true)` for `mutable_graph`
(contract_graph.h:160-208), `reverse_mapping` listing vertices of a fresh graph.  Contracting vertex sets sets the
partition indices to the positions in the new graph (contract_graph.h:196-200), rebuilding leaves `pidx`. -/
def MGraph.contractGraphM (g : MGraph) (mapping : Nat → Nat) (rev : List (List Nat)) (pidx : Nat → Nat)
    (ord : Nat → List Nat → List Nat) : MGraph × (Nat → Nat) :=
  if rev.length * 2 > g.n then
    let H := g.contractVertexsets rev ord
    (H.resetContained, fun v => H.pos v)
  else (contractSparseM g.toGraph mapping rev ord, pidx)

/-- Loop body of `viecut::perform_minimum_cut` (viecut.h:73-107); also returns the number of vertices of the last
graph but one.  The partition index of the first contraction is the one written by `remap_cluster`, without
the changes made by `findTrivialCuts`.  `none`: out-of-range cluster number. -/
def viecutStep {γ : Type} [GraphLike γ] (cfg : VCfg) (contract : Nat → γ → UF → γ × (Nat → Nat))
    (contractMap : Nat → γ → (Nat → Nat) → List (List Nat) → (Nat → Nat) → γ × (Nat → Nat)) (lvl : Nat) (s : NOIState γ) :
    Option (NOIState γ × Nat) :=
  (remapCluster s.view.n (propagateLabels s.view (cfg.lpRnd lvl) (cfg.lpShuffle lvl))).map fun mr =>
    let t := findTrivialCuts s.view (fun v => mr.1.getD v 0) mr.2 s.mincut
    let s := pushLevel cfg.noi.save s (contractMap (3 * lvl) s.cur t.1 t.2 (fun v => mr.1.getD v 0))
    let s := pushLevel cfg.noi.save s (contract (3 * lvl + 1) s.cur (prTests12 s.view s.mincut false))
    (pushLevel cfg.noi.save s (contract (3 * lvl + 2) s.cur (prTests34 s.view s.mincut false)), s.view.n)

/-- The loop (viecut.h:70-107); `prev` is the size of `graphs[graphs.size() - 2]` (`none` for `graphs.size() == 1`). -/
def viecutLoop {γ : Type} [GraphLike γ] (cfg : VCfg) (contract : Nat → γ → UF → γ × (Nat → Nat))
    (contractMap : Nat → γ → (Nat → Nat) → List (List Nat) → (Nat → Nat) → γ × (Nat → Nat)) :
    Nat → Nat → Option Nat → NOIState γ → Option (NOIState γ)
  | 0, _, _, s => some s
  | f + 1, lvl, prev, s =>
    if s.view.n > viecutThreshold ∧ (∀ p ∈ prev, s.view.n < p) then
      (viecutStep cfg contract contractMap lvl s).bind fun r =>
        viecutLoop cfg contract contractMap f (lvl + 1) (some r.2) r.1
    else some s

/-- Return value of `viecut::perform_minimum_cut` (viecut.h:54-122) and the node-in-cut flags of the input: the final
exact run works on the last graph and sets that graph's flags, which are the input's flags only if no coarsening
took place. -/
def viecutFinal {γ : Type} [GraphLike γ] (cfg : VCfg) (contract contractN : Nat → γ → UF → γ × (Nat → Nat))
    (contractMap : Nat → γ → (Nat → Nat) → List (List Nat) → (Nat → Nat) → γ × (Nat → Nat)) (x : γ) (inCut0 : Nat → Bool) :
    Option (Nat × (Nat → Bool)) :=
  (viecutLoop cfg contract contractMap ((GraphLike.view x).n + 1) 0 none (noiInit cfg.noi.save x inCut0)).map fun s =>
    if s.view.n > 1 then
      let t := noiFinal cfg.noi contractN s.cur s.inCut
      (min s.mincut t.mincut, if s.maps.isEmpty then t.inCut else s.inCut)
    else (s.mincut, s.inCut)

/-! ### `ks_minimum_cut` -/

/-- Body of the loop over the edges in `recurse` (ks_minimum_cut.h:170-189); the state is `uf` and `currentN`. -/
def ksHeavyEdge (G : Graph) (n : Nat) (st : UF × Nat) (e : Nat × Nat) : UF × Nat :=
  if e.1 > n ∧ st.2 > 2 ∧
      (e.2 > G.minDegree ∨ u64 (e.2 * 2) > u32 (G.deg n) ∨ u64 (e.2 * 2) > u32 (G.deg e.1)) then
    let (a, uf1) := st.1.find n
    let (b, uf2) := uf1.find e.1
    if a ≠ b then ((uf2.union a b).2, st.2 - 1) else (uf2, st.2)
  else st

/-- The edges in the order of their ids, with their sources (`getEdgeSource`, `getEdgeTarget`). -/
def edgeList (G : Graph) : List (Nat × Nat) := (List.range G.n).flatMap fun u => (G.edges u).map fun e => (u, e.1)

/-- The sampling loop of `sample_contractible` (ks_minimum_cut.h:98-106): `none` when `fuel` random numbers do not
suffice, or when there is no edge (division by zero). -/
def ksSample (G : Graph) (rnd : Nat → Nat) : Nat → Nat → Nat → UF → Option UF
  | 0, _, need, uf => if need = 0 then some uf else none
  | f + 1, i, need, uf =>
    if need = 0 then some uf
    else if (edgeList G).length = 0 then none
    else
      let e := (edgeList G).getD (rnd i % (edgeList G).length) (0, 0)
      let r := uf.union e.1 e.2
      ksSample G rnd f (i + 1) (if r.1 then need - 1 else need) r.2

/-- The partition built by one call of `recurse` (ks_minimum_cut.h:160-193); `currentN * 0.4` is rounded down
(exact for `double` as long as the product is). -/
def ksPartition (G : Graph) (top : Bool) (rnd : Nat → Nat) (fuel : Nat) : Option UF :=
  let st := if top then (UF.mk' G.n, G.n) else
    (List.range G.n).foldl (fun st n => (G.edges n).foldl (ksHeavyEdge G n) st) (UF.mk' G.n, G.n)
  ksSample G rnd fuel 0 (min (st.2 * 2 / 5) (st.2 - 2)) st.1

/-- `recurse` (ks_minimum_cut.h:158-229), value only.  `rnd seed` is the stream of `std::mt19937_64(seed)`;
`ord`/`cfg` may differ from call to call (indexed by the path of calls).  `none`: not enough fuel. -/
def ksRecurse (cfg : Nat → NOICfg) (rnd : Nat → Nat → Nat) (ord : Nat → Nat → Nat → List Nat → List Nat) (sf : Nat) :
    Nat → Nat → Bool → Nat → Graph → Option Nat
  | 0, _, _, _, _ => none
  | f + 1, path, top, iter, G =>
    (ksPartition G top (rnd iter) sf).bind fun uf =>
      let G2 := (fromUnionFind G uf (ord path 0)).1
      if G2.n > 50 then
        (ksRecurse cfg rnd ord sf f (2 * path + 1) false iter G2).bind fun w1 =>
          (ksRecurse cfg rnd ord sf f (2 * path + 2) false (iter + 9273) G2).map fun w2 => min w1 w2
      else some (noiMinimumCut (cfg path) (fun l => ord path (l + 1)) G2)

/-- Loop of `perform_minimum_cut` (ks_minimum_cut.h:57-77): iterations `i, i+1, …` while `2^i < n` and
`mincut > optimal`. -/
def ksLoop (cfg : Nat → Nat → NOICfg) (rnd : Nat → Nat → Nat) (ord : Nat → Nat → Nat → Nat → List Nat → List Nat)
    (sf optimal : Nat) (G : Graph) : Nat → Nat → Nat → Option Nat
  | 0, _, _ => none
  | f + 1, i, mincut =>
    if 2 ^ i < G.n ∧ mincut > optimal then
      (ksRecurse (cfg i) rnd (ord i) sf (G.n + 1) 0 true i G).bind fun c =>
        ksLoop cfg rnd ord sf optimal G f (i + 1) (min mincut c)
    else some mincut

/-- `ks_minimum_cut::perform_minimum_cut` (ks_minimum_cut.h:50-83), value only. -/
def ksMinimumCut (cfg : Nat → Nat → NOICfg) (rnd : Nat → Nat → Nat)
    (ord : Nat → Nat → Nat → Nat → List Nat → List Nat) (sf optimal : Nat) (G : Graph) : Option Nat :=
  ksLoop cfg rnd ord sf optimal G (G.n + 1) 0 (2 ^ 64 - 1)

end VieCut
