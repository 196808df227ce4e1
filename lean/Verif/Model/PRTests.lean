import Verif.Model.Graph
import Verif.Model.UnionFind

/-!
# Model of `lib/coarsening/contraction_tests.h`

Machine arithmetic is explicit: `u32`/`u64` are the conversions to `NodeWeight`/`NodeID` and `EdgeWeight`
(lib/common/definitions.h:25-37).
-/

namespace VieCut
open Function

/-- Conversion to a 32-bit unsigned integer. -/
def u32 (x : Nat) : Nat := x % 2 ^ 32

/-- Conversion to a 64-bit unsigned integer. -/
def u64 (x : Nat) : Nat := x % 2 ^ 64

/-- Local variables of `prTests12` (contraction_tests.h:59-61). -/
structure PR12 where
  uf : UF
  contracted : Nat → Bool

/-- `contracted[n] = true; contracted[t] = true; uf.Union(a, b)` (contraction_tests.h:71-73, 82-84, 87-89). -/
def PR12.mark (s : PR12) (n t a b : Nat) : PR12 :=
  { uf := (s.uf.union a b).2, contracted := update (update s.contracted n true) t true }

/-- Body of the loop over the edges of `n` (contraction_tests.h:64-92).  `all` is `find_all_cuts`; the degrees are
stored in the 32-bit variables `n_wgt` and `t_wgt`. -/
def pr12Edge (G : Graph) (limit : Nat) (all : Bool) (n : Nat) (s : PR12) (e : Nat × Nat) : PR12 :=
  let nWgt := u32 (G.deg n)
  let (target, uf1) := s.uf.find e.1
  let tWgt := u32 (G.deg e.1)
  let (source, uf2) := uf1.find n
  let s : PR12 := { s with uf := uf2 }
  let s := if e.2 ≥ limit then s.mark n e.1 source target else s
  if !all || (decide (nWgt ≥ limit) && decide (tWgt ≥ limit)) then
    let s := if decide (u64 (2 * e.2) > nWgt) && (!all || !s.contracted n) then s.mark n e.1 n e.1 else s
    if decide (u64 (2 * e.2) > tWgt) && (!all || !s.contracted e.1) then s.mark n e.1 n e.1 else s
  else s

/-- `prTests12(G, limit, find_all_cuts)` (contraction_tests.h:55-97). -/
def prTests12 (G : Graph) (limit : Nat) (all : Bool) : UF :=
  ((List.range G.n).foldl (fun s n => (G.edges n).foldl (pr12Edge G limit all n) s)
    { uf := UF.mk' G.n, contracted := fun _ => false }).uf

/-- Local variables of `prTests34` (contraction_tests.h:103-108).  `marked[x]` is `none` for
`(UNDEFINED_NODE, UNDEFINED_EDGE)`; otherwise the marking vertex and the weight of the marking edge (the code stores the
edge and looks its weight up when needed, the graph does not change in between). -/
structure PR34 where
  uf : UF
  marked : Nat → Option (Nat × Nat)
  finished : Nat → Bool
  contracted : Nat → Bool

/-- `uf.Union(n, tgt); contracted[n] = true; contracted[tgt] = true` (contraction_tests.h:164-166, 171-173). -/
def PR34.merge (s : PR34) (n t : Nat) : PR34 :=
  { s with uf := (s.uf.union n t).2, contracted := update (update s.contracted n true) t true }

/-- Marking loop (contraction_tests.h:115-120). -/
def pr34Mark (n : Nat) (m : Nat → Option (Nat × Nat)) (e : Nat × Nat) : Nat → Option (Nat × Nat) :=
  if e.1 > n then update m e.1 (some (n, e.2)) else m

/-- Body of the loop over the edges `e2` of `tgt` (contraction_tests.h:134-168); the second component of the state is
`wgt_sum`. -/
def pr34Tri (G : Graph) (limit : Nat) (all : Bool) (n t w1 : Nat) (st : PR34 × Nat) (e2 : Nat × Nat) : PR34 × Nat :=
  match st.1.marked e2.1 with
  | none => st
  | some (m, w3) =>
    if m ≠ n then st
    else
      let w2 := e2.2
      let one := !all && decide (u64 (2 * u64 (w1 + w3)) ≥ G.deg n) && decide (u64 (2 * u64 (w1 + w2)) ≥ G.deg t)
      let allc := all && decide (u64 (2 * u64 (w1 + w3)) > G.deg n) && decide (u64 (2 * u64 (w1 + w2)) > G.deg t)
        && decide (G.deg n ≥ limit) && decide (G.deg t ≥ limit)
      (if (one || allc) && !st.1.contracted n && !st.1.contracted t then st.1.merge n t else st.1,
        u64 (st.2 + min w2 w3))

/-- Body of the loop over the edges `e1` of `n` (contraction_tests.h:122-179). -/
def pr34Edge (G : Graph) (limit : Nat) (all : Bool) (n : Nat) (s : PR34) (e1 : Nat × Nat) : PR34 :=
  if s.finished e1.1 then { s with marked := update s.marked e1.1 none }
  else
    let s := { s with finished := update s.finished e1.1 true }
    if e1.1 > n then
      let st := (G.edges e1.1).foldl (pr34Tri G limit all n e1.1 e1.2) (s, e1.2)
      let s := if st.2 ≥ limit then st.1.merge n e1.1 else st.1
      { s with marked := update s.marked e1.1 none }
    else s

/-- Body of the loop over the vertices (contraction_tests.h:110-180). -/
def pr34Node (G : Graph) (limit : Nat) (all : Bool) (s : PR34) (n : Nat) : PR34 :=
  if s.finished n then s
  else
    (G.edges n).foldl (pr34Edge G limit all n)
      { s with finished := update s.finished n true, marked := (G.edges n).foldl (pr34Mark n) s.marked }

/-- `prTests34(G, weight_limit, find_all_cuts)` (contraction_tests.h:99-184). -/
def prTests34 (G : Graph) (limit : Nat) (all : Bool) : UF :=
  ((List.range G.n).foldl (pr34Node G limit all)
    { uf := UF.mk' G.n, marked := fun _ => none, finished := fun _ => false, contracted := fun _ => false }).uf

/-- `findHeavyEdges` (contraction_tests.h:186-196). -/
def findHeavyEdges (G : Graph) (uf : UF) (limit : Nat) : UF :=
  (List.range G.n).foldl (fun u n => (G.edges n).foldl (fun u e => if e.2 > limit then (u.union n e.1).2 else u) u) uf

/-- Innermost loop of `findHeavyTriangles` (contraction_tests.h:217-232): the first edge of `n` to `tgt2` is used.
`sort3` (lines 27-52) takes its arguments by value and changes nothing. -/
def heavyTri (G : Graph) (limit n t w1 : Nat) (marked : Nat → Bool) (u : UF) (e2 : Nat × Nat) : UF :=
  if marked e2.1 && (G.edges n).any (fun e3 => e3.1 == e2.1) && decide (u64 (w1 + e2.2) > limit) then
    ((u.union n t).2.union n e2.1).2
  else u

/-- Body of the loop over the edges `e1` of `n` (contraction_tests.h:211-236). -/
def heavyEdge1 (G : Graph) (limit n : Nat) (s : (Nat → Bool) × UF) (e1 : Nat × Nat) : (Nat → Bool) × UF :=
  if e1.1 > n then (update s.1 e1.1 false, (G.edges e1.1).foldl (heavyTri G limit n e1.1 e1.2 s.1) s.2) else s

/-- `findHeavyTriangles` (contraction_tests.h:198-238). -/
def findHeavyTriangles (G : Graph) (uf : UF) (limit : Nat) : UF :=
  ((List.range G.n).foldl (fun s n =>
    (G.edges n).foldl (heavyEdge1 G limit n)
      ((G.edges n).foldl (fun m e => if e.1 > n then update m e.1 true else m) s.1, s.2)) (fun _ => false, uf)).2

end VieCut
