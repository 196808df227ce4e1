import Verif.Model.MutableGraph
import Mathlib.Data.List.Dedup

/-!
# Model of the local search on multiterminal cuts

`lib/algorithms/multicut/local_search.h`: `gainLocalSearch`, `flowBetweenBlocks`, `flowLocalSearch`, `improveSolution`.

`G` gives the rows of `original_graph` (`G.edges n` lists target and weight of the edges of `n`), `sol` the current
solution, `fixed` the vector `fixed_vertex`, `k` the number of blocks.  Configuration `inexact = false`, so
`movedToNewBlock` is not modelled.  Random permutations are arguments.  Weights and gains are unbounded integers.
-/

namespace VieCut
open Function

namespace LocalSearch

/-- `blockwgt[b]` (local_search.h:236-243): weight of the edges of `n` into block `b`. -/
def blockWgt (G : Graph) (sol : Nat → Nat) (n b : Nat) : Nat :=
  (((G.edges n).filter (fun e => sol e.1 == b)).map (·.2)).sum

/-- `maxBlockID`, `maxBlockWgt` (local_search.h:245-255). -/
def maxBlock (k own : Nat) (wgt : Nat → Nat) : Nat × Nat :=
  (List.range k).foldl (fun m i => if i ≠ own then (if wgt i > m.2 then (i, wgt i) else m) else m) (0, 0)

/-- Locals of `gainLocalSearch` (local_search.h:222-227); `none` in `next` is the block `UNDEFINED_NODE`. -/
structure GState where
  sol : Nat → Nat
  next : Nat → Option (Nat × Int)
  bnd : Nat → Bool
  imp : Int

/-- Forget the cached moves of the neighbours of `n` and put them back into the boundary (local_search.h:282-286,
288-292, 306-310). -/
def touch (G : Graph) (n : Nat) (s : GState) : GState :=
  (G.edges n).foldl (fun s e => { s with next := update s.next e.1 none, bnd := update s.bnd e.1 true }) s

/-- Body of the loop looking for a joint move of `n` and a neighbour (local_search.h:265-294); the flag is
`!notDoublemoved`. -/
def pairStep (G : Graph) (n mb : Nat) (gain : Int) (s : GState × Bool) (e : Nat × Nat) : GState × Bool :=
  match s.1.next e.1 with
  | none => s
  | some (b, g) =>
    let movegain := g + gain + 2 * (e.2 : Int)
    if s.1.sol e.1 = s.1.sol n ∧ b = mb ∧ movegain > 0 ∧ movegain > gain then
      let s1 := { s.1 with sol := update (update s.1.sol n mb) e.1 mb, imp := s.1.imp + movegain }
      let s2 := touch G n s1
      (touch G e.1 { s2 with next := update s2.next e.1 none }, true)
    else s

/-- Loop body of `gainLocalSearch` (local_search.h:231-314). -/
def gainStep (k : Nat) (fixed : Nat → Bool) (G : Graph) (s : GState) (n : Nat) : GState :=
  if fixed n ∨ s.bnd n = false then s
  else
    let own := s.sol n
    let mx := maxBlock k own (blockWgt G s.sol n)
    let s1 := if mx.2 ≠ 0 then { s with bnd := update s.bnd n false } else s
    let gain : Int := mx.2 - blockWgt G s.sol n own
    let r := (G.edges n).foldl (pairStep G n mx.1 gain) (s1, false)
    if r.2 then r.1
    else if gain ≥ 0 then touch G n { r.1 with sol := update r.1.sol n mx.1, imp := r.1.imp + gain }
    else { r.1 with next := update r.1.next n (some (mx.1, gain)) }

/-- `gainLocalSearch` (local_search.h:220-316): the new solution and the reported improvement; `perm` is the random
permutation of the vertices. -/
def gainLocalSearch (k : Nat) (fixed : Nat → Bool) (G : Graph) (perm : List Nat) (sol : Nat → Nat) : (Nat → Nat) × Int :=
  let s := perm.foldl (gainStep k fixed G) ⟨sol, fun _ => none, fun _ => true, 0⟩
  (s.sol, s.imp)

/-! ### Flows between two blocks -/

/-- `solution[n] == term1 || solution[n] == term2`. -/
def inPair (sol : Nat → Nat) (a b v : Nat) : Bool := sol v == a || sol v == b

/-- `mapping` and `id` (local_search.h:58-69); only the entries of vertices of the two blocks are used. -/
def mapping (N : Nat) (fixed : Nat → Bool) (sol : Nat → Nat) (a b : Nat) : (Nat → Nat) × Nat :=
  (List.range N).foldl (fun s n =>
    if inPair sol a b n = false then s
    else if fixed n then (update s.1 n (if sol n = a then 0 else 1), s.2)
    else (update s.1 n s.2, s.2 + 1)) (fun _ => 0, 2)

/-- The edges looked at (local_search.h:75-85): those of the two blocks, seen from the end with the smaller id, except
edges between fixed vertices. -/
def pairEdges (N : Nat) (G : Graph) (sol : Nat → Nat) (a b : Nat) (m : Nat → Nat) : List (Nat × Nat × Nat) :=
  (List.range N).flatMap fun n =>
    if inPair sol a b n then
      ((G.edges n).filter fun e => inPair sol a b e.1 && decide (m n < m e.1) && decide (2 ≤ m e.1)).map
        fun e => (n, e.1, e.2)
    else []

/-- `sol_weight` (local_search.h:87-90). -/
def solWeight (sol : Nat → Nat) (L : List (Nat × Nat × Nat)) : Nat :=
  ((L.filter fun x => sol x.2.1 != sol x.1).map fun x => x.2.2).sum

/-- Weight collected in `edgesToFixed0` / `edgesToFixed1` for vertex `x` (local_search.h:92-106). -/
def fixedWgt (m : Nat → Nat) (L : List (Nat × Nat × Nat)) (i x : Nat) : Nat :=
  ((L.filter fun e => m e.1 == i && m e.2.1 == x).map fun e => e.2.2).sum

/-- The keys of `edgesToFixed0` / `edgesToFixed1`, each once. -/
def fixedKeys (m : Nat → Nat) (L : List (Nat × Nat × Nat)) (i : Nat) : List Nat :=
  ((L.filter fun e => m e.1 == i).map fun e => m e.2.1).dedup

/-- The flow graph (local_search.h:70, 91-118).  `ord i` is the iteration order of the `i`-th `unordered_map`. -/
def flowGraph (id : Nat) (m : Nat → Nat) (L : List (Nat × Nat × Nat)) (ord : Nat → List Nat → List Nat) : MGraph :=
  let g0 := (L.filter fun e => decide (2 ≤ m e.1)).foldl (fun g e => g.newEdgeOrder (m e.1) (m e.2.1) e.2.2)
    (MGraph.start id)
  let g1 := (ord 0 (fixedKeys m L 0)).foldl (fun g x => g.newEdgeOrder x 0 (fixedWgt m L 0 x)) g0
  (ord 1 (fixedKeys m L 1)).foldl (fun g x => g.newEdgeOrder x 1 (fixedWgt m L 1 x)) g1

/-- `flowBetweenBlocks` (local_search.h:50-159): the new solution and `improvement`.  `flow` stands for
`solve_max_flow_min_cut(G, {0, 1}, 0, true)`.  The branch that ends the program ("DIFFERENT") is not modelled: it is not
taken if the source set contains 0 and not 1. -/
def flowBetweenBlocks (N : Nat) (fixed : Nat → Bool) (G : Graph) (ord : Nat → List Nat → List Nat)
    (flow : MGraph → Nat × List Nat) (a b : Nat) (sol : Nat → Nat) : (Nat → Nat) × Int :=
  let mi := mapping N fixed sol a b
  let L := pairEdges N G sol a b mi.1
  let fs := flow (flowGraph mi.2 mi.1 L ord)
  ((List.range N).foldl (fun s n =>
      if inPair s a b n then update s n (if fs.2.contains (mi.1 n) then a else b) else s) sol,
    (solWeight sol L : Int) - fs.1)

/-- `flowLocalSearch` (local_search.h:161-218) for the block pairs `pairs`: the pairs whose connectivity has changed, in
random order, up to the timeout.  Which pairs are tried is left open. -/
def flowLocalSearch (N : Nat) (fixed : Nat → Bool) (G : Graph) (ord : Nat → List Nat → List Nat)
    (flow : MGraph → Nat × List Nat) (pairs : List (Nat × Nat)) (sol : Nat → Nat) : (Nat → Nat) × Int :=
  pairs.foldl (fun s ab =>
    let r := flowBetweenBlocks N fixed G ord flow ab.1 ab.2 s.1
    (r.1, s.2 + r.2)) (sol, 0)

/-- The loops `while (change_found)` of `improveSolution` (local_search.h:322-331, 335-345, 349-358); round `i` is
`round i`.  `none` means that `fuel` rounds were not enough. -/
def rounds (round : Nat → (Nat → Nat) → (Nat → Nat) × Int) : Nat → Nat → (Nat → Nat) → Int → Option ((Nat → Nat) × Int)
  | 0, _, _, _ => none
  | fuel + 1, i, sol, total =>
    let r := round i sol
    if r.2 > 0 then rounds round fuel (i + 1) r.1 (total + r.2) else some (r.1, total + r.2)

/-- `improveSolution` (local_search.h:319-362).  `perm1 i`, `perm2 i` are the permutations and `pairs i` the block pairs
of the `i`-th rounds. -/
def improveSolution (fuel k N : Nat) (fixed : Nat → Bool) (G : Graph) (ord : Nat → List Nat → List Nat)
    (flow : MGraph → Nat × List Nat) (perm1 perm2 : Nat → List Nat) (pairs : Nat → List (Nat × Nat)) (sol : Nat → Nat) :
    Option ((Nat → Nat) × Int) :=
  (rounds (fun i s => gainLocalSearch k fixed G (perm1 i) s) fuel 0 sol 0).bind fun r1 =>
  (rounds (fun i s => flowLocalSearch N fixed G ord flow (pairs i) s) fuel 0 r1.1 r1.2).bind fun r2 =>
  rounds (fun i s => gainLocalSearch k fixed G (perm2 i) s) fuel 0 r2.1 r2.2

end LocalSearch
end VieCut
