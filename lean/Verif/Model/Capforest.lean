import Verif.Model.Graph
import Verif.Model.UnionFind
import Verif.Model.PQInterface

/-!
# Model of `noi_minimum_cut::modified_capforest`
(lib/algorithms/global_mincut/noi_minimum_cut.h:123-198)
-/

namespace VieCut

/-- Local variables of `modified_capforest` (noi_minimum_cut.h:125-131): `pq`, `visited`, `seen`, `r_v`, `uf`. -/
structure CFState (P : PQ) where
  pq : P.σ
  visited : Nat → Bool
  seen : Nat → Bool
  r : Nat → Nat
  uf : UF

/-- Conversion of a key argument to `Gain = uint32_t` (common/definitions.h: `typedef NodeWeight Gain`). -/
def toGain (k : Nat) : Nat := k % 2 ^ 32

/-- Body of the inner loop with limiting (noi_minimum_cut.h:143-169).  `e` is `(tgt, weight)`. -/
def scanEdgeLimited (P : PQ) (mincut cur : Nat) (s : CFState P) (e : Nat × Nat) : CFState P :=
  let tgt := e.1
  if s.visited tgt then s
  else
    let increase := decide (s.r tgt < mincut) || mincut == 0
    let uf := if increase && decide (s.r tgt + e.2 ≥ mincut) then (s.uf.union cur tgt).2 else s.uf
    let r := Function.update s.r tgt (s.r tgt + e.2)
    let newRv := min (r tgt) mincut
    if s.seen tgt then
      { s with uf := uf, r := r,
               pq := if increase && !s.visited tgt then P.increaseKey s.pq tgt (toGain newRv) else s.pq }
    else
      { s with uf := uf, r := r, seen := Function.update s.seen tgt true,
               pq := P.insert s.pq tgt (toGain newRv) }

/-- Body of the inner loop with `disable_limiting` (noi_minimum_cut.h:171-193). -/
def scanEdgeUnlimited (P : PQ) (mincut cur : Nat) (s : CFState P) (e : Nat × Nat) : CFState P :=
  let tgt := e.1
  if s.visited tgt then s
  else
    let uf := if s.r tgt < mincut then
        (if s.r tgt + e.2 ≥ mincut then (s.uf.union cur tgt).2 else s.uf) else s.uf
    let r := Function.update s.r tgt (s.r tgt + e.2)
    if s.seen tgt then
      { s with uf := uf, r := r,
               pq := if !s.visited tgt then P.increaseKey s.pq tgt (toGain (r tgt)) else s.pq }
    else
      { s with uf := uf, r := r, seen := Function.update s.seen tgt true,
               pq := P.insert s.pq tgt (toGain (r tgt)) }

/-- Dispatch on `configuration::disable_limiting` (noi_minimum_cut.h:142, 170). -/
def scanEdge (P : PQ) (limited : Bool) (mincut cur : Nat) (s : CFState P) (e : Nat × Nat) : CFState P :=
  if limited then scanEdgeLimited P mincut cur s e else scanEdgeUnlimited P mincut cur s e

/-- One iteration of the outer loop (noi_minimum_cut.h:139-195). -/
def scanNode (P : PQ) (limited : Bool) (G : Graph) (mincut : Nat) (s : CFState P) : CFState P :=
  let (cur, pq') := P.deleteMax s.pq
  (G.edges cur).foldl (scanEdge P limited mincut cur)
    { s with pq := pq', visited := Function.update s.visited cur true }

/-- Outer loop `while (!pq->empty())` (noi_minimum_cut.h:139-195); fuel = number of iterations allowed.
`capforest_finishes` shows that `n` iterations always empty the queue. -/
def cfLoop (P : PQ) (limited : Bool) (G : Graph) (mincut : Nat) : Nat → CFState P → CFState P
  | 0, s => s
  | f + 1, s => if P.empty s.pq then s else cfLoop P limited G mincut f (scanNode P limited G mincut s)

/-- State before the loop (noi_minimum_cut.h:125-137); `start` is `random_functions::next() % n`. -/
def cfInit (P : PQ) (G : Graph) (start : Nat) : CFState P :=
  { pq := P.insert P.init start 0, visited := fun _ => false, seen := fun _ => false,
    r := fun _ => 0, uf := UF.mk' G.n }

/-- Final state of `modified_capforest`. -/
def cfFinal (P : PQ) (limited : Bool) (G : Graph) (mincut start : Nat) : CFState P :=
  cfLoop P limited G mincut G.n (cfInit P G start)

/-- `modified_capforest(G, mincut)` (noi_minimum_cut.h:123-198): the returned union-find. -/
def capforest (P : PQ) (limited : Bool) (G : Graph) (mincut start : Nat) : UF :=
  (cfFinal P limited G mincut start).uf

end VieCut
