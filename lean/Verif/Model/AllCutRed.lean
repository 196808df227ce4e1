import Verif.Model.NOIMutable
import Verif.Model.PRTests

/-!
# Model of `lib/algorithms/global_mincut/cactus/all_cut_local_red.h` and of the reductions at the start of
`recursive_cactus::internalRecursiveCactus`

Weights are 64-bit unsigned integers (`u64`).  The graph is a `mutable_graph`, of which the tests see the adjacency lists.
-/

namespace VieCut
namespace AllRed
open Function

/-- Local variables of `allCutsPrTests12` (all_cut_local_red.h:32-38). -/
structure Loc12 where
  uf : UF
  deg : Nat → Nat

/-- Body of the loop over the edges of `n` (all_cut_local_red.h:41-58). -/
def edge12 (limit n : Nat) (s : Loc12) (e : Nat × Nat) : Loc12 :=
  let (target, uf1) := s.uf.find e.1
  let (source, uf2) := uf1.find n
  if target ≠ source ∧ (e.2 > limit ∨ u64 (2 * e.2) > s.deg source ∨ u64 (2 * e.2) > s.deg target) ∧ s.deg source > limit ∧
      s.deg target > limit then
    let w := u64 (s.deg source + s.deg target + (2 ^ 64 - u64 (2 * e.2)))
    { uf := (uf2.union source target).2, deg := update (update s.deg source w) target w }
  else { s with uf := uf2 }

/-- `allCutsPrTests12(G, limit)` (all_cut_local_red.h:30-62). -/
def prTests12 (G : Graph) (limit : Nat) : UF :=
  ((List.range G.n).foldl (fun s n => (G.edges n).foldl (edge12 limit n) s) { uf := UF.mk' G.n, deg := fun n => G.deg n }).uf

/-- Local variables of `allCutsPrTests34` (all_cut_local_red.h:66-69).  `marked[x]` is `none` for `UNDEFINED_EDGE`, otherwise an index into
an adjacency list. -/
structure Loc34 where
  uf : UF
  marked : Nat → Option Nat
  finished : Nat → Bool
  contracted : Nat → Bool

/-- `uf.Union(n, tgt); contracted[n] = true; contracted[tgt] = true` (all_cut_local_red.h:118-120, 125-127). -/
def Loc34.merge (s : Loc34) (n t : Nat) : Loc34 :=
  { s with uf := (s.uf.union n t).2, contracted := update (update s.contracted n true) t true }

/-- Marking loop (all_cut_local_red.h:76-81). -/
def mark34 (n : Nat) (m : Nat → Option Nat) (e : (Nat × Nat) × Nat) : Nat → Option Nat :=
  if e.1.1 > n then update m e.1.1 (some e.2) else m

/-- Body of the loop over the edges `e2` of `tgt` (all_cut_local_red.h:95-122); the second component of the state is `wgt_sum`. -/
def tri34 (G : Graph) (limit n t w1 : Nat) (st : Loc34 × Nat) (e2 : Nat × Nat) : Loc34 × Nat :=
  match st.1.marked e2.1 with
  | none => st
  | some i =>
    if i ≥ (G.edges n).length then st
    else
      let w2 := e2.2
      let w3 := ((G.edges n).getD i (0, 0)).2
      let contractible := decide (u64 (2 * u64 (w1 + w3)) > G.deg n) && decide (u64 (2 * u64 (w1 + w2)) > G.deg t) &&
        decide (G.deg n > limit) && decide (G.deg t > limit)
      (if contractible && !st.1.contracted n && !st.1.contracted t then st.1.merge n t else st.1, u64 (st.2 + min w2 w3))

/-- Body of the loop over the edges `e1` of `n` (all_cut_local_red.h:84-131). -/
def edge34 (G : Graph) (limit n : Nat) (s : Loc34) (e1 : Nat × Nat) : Loc34 :=
  if s.finished e1.1 then { s with marked := update s.marked e1.1 none }
  else
    let s := { s with finished := update s.finished e1.1 true }
    if e1.1 > n then
      let st := (G.edges e1.1).foldl (tri34 G limit n e1.1 e1.2) (s, e1.2)
      let s := if st.2 > limit then st.1.merge n e1.1 else st.1
      { s with marked := update s.marked e1.1 none }
    else s

/-- Body of the loop over the vertices (all_cut_local_red.h:71-132). -/
def node34 (G : Graph) (limit : Nat) (s : Loc34) (n : Nat) : Loc34 :=
  if s.finished n then s
  else
    (G.edges n).foldl (edge34 G limit n)
      { s with finished := update s.finished n true, marked := (G.edges n).zipIdx.foldl (mark34 n) s.marked }

/-- `allCutsPrTests34(G, weight_limit)` (all_cut_local_red.h:64-134). -/
def prTests34 (G : Graph) (limit : Nat) : UF :=
  ((List.range G.n).foldl (node34 G limit)
    { uf := UF.mk' G.n, marked := fun _ => none, finished := fun _ => false, contracted := fun _ => false }).uf

/-- The three reductions of one round (recursive_cactus.h:123-129); `contraction::fromUnionFind` contracts in place. -/
def round (cfg : NOICfg) (ord : Nat → Nat → List Nat → List Nat) (mincut lvl : Nat) (g : MGraph) : MGraph :=
  let P := selectPQ cfg.kind cfg.limited g.n (mincut + 1) g.toGraph.maxDegree
  let g := (g.fromUnionFindM (capforest P.toPQ cfg.limited g.toGraph (mincut + 1) (cfg.rnd lvl % g.n)) false (ord (3 * lvl))).1
  let g := (g.fromUnionFindM (prTests12 g.toGraph mincut) false (ord (3 * lvl + 1))).1
  (g.fromUnionFindM (prTests34 g.toGraph mincut) false (ord (3 * lvl + 2))).1

/-- `while (previous > G->n())` (recursive_cactus.h:118-130). -/
def loop (cfg : NOICfg) (ord : Nat → Nat → List Nat → List Nat) (mincut : Nat) : Nat → Nat → Nat → MGraph → MGraph
  | 0, _, _, g => g
  | f + 1, lvl, prev, g => if prev > g.n then loop cfg ord mincut f (lvl + 1) g.n (round cfg ord mincut lvl g) else g

/-- All rounds; `n + 2` suffice (`C43_terminates`).  `previous` starts with `UNDEFINED_NODE`. -/
def reduce (cfg : NOICfg) (ord : Nat → Nat → List Nat → List Nat) (mincut : Nat) (g : MGraph) : MGraph :=
  loop cfg ord mincut (g.n + 2) 0 (2 ^ 32 - 1) g

end AllRed
end VieCut
