import Verif.Model.Multicut

/-!
# Model of `lib/algorithms/misc/find_articulation_points.h`

The search for articulation points with an explicit stack, and the reduction that merges what an articulation point
separates from all terminals.  The graph is given by `adj u`, the targets of the edges of `u` in iteration order.
A `std::stack` and `path` are lists whose head is the top (the back); a `std::queue` is a list whose head is the front.
-/

namespace VieCut
open Function

/-- Data members (find_articulation_points.h:216-224) except the stack.  Numbers are unbounded (fewer than `2^32 - 1`
vertices). -/
structure APState where
  visited : Nat → Bool
  disc : Nat → Nat
  parent : Nat → Nat
  low : Nat → Nat
  points : List Nat
  step : Nat

namespace APState

/-- `UNDEFINED_NODE` (definitions.h:40). -/
def undef : Nat := 2 ^ 32 - 1

/-- The constructor (find_articulation_points.h:27-33). -/
def init : APState :=
  { visited := fun _ => false, disc := fun _ => undef, parent := fun _ => undef, low := fun _ => undef, points := [],
    step := 0 }

/-- Body of the loop over the edges of `b` in `backtrackTo` (find_articulation_points.h:168-178). -/
def finishStep (b : Nat) (s : APState) (t : Nat) : APState :=
  if s.parent t = b then
    { s with
      low := update s.low b (min (s.low b) (s.low t))
      points := if s.parent b ≠ b ∧ update s.low b (min (s.low b) (s.low t)) t ≥ s.disc b then s.points ++ [b]
        else s.points }
  else if t ≠ s.parent b then { s with low := update s.low b (min (s.low b) (s.disc t)) }
  else s

/-- `backtrackTo` (find_articulation_points.h:162-181) with `q = parent[n]`, which the loop does not change.  Returns
the rest of the path. -/
def backtrack (adj : Nat → List Nat) (q : Nat) : List Nat → APState → List Nat × APState
  | [], s => ([], s)
  | b :: path, s => if b = q then (b :: path, s) else backtrack adj q path ((adj b).foldl (finishStep b) s)

/-- `path.emplace_back(n)` up to `lowest[n] = step` (find_articulation_points.h:197-200). -/
def enter (n : Nat) (s : APState) : APState :=
  { s with visited := update s.visited n true, step := s.step + 1, disc := update s.disc n (s.step + 1),
           low := update s.low n (s.step + 1) }

/-- Body of the loop that pushes the neighbours (find_articulation_points.h:203-207). -/
def pushStep (n : Nat) (r : List Nat × APState) (t : Nat) : List Nat × APState :=
  if r.2.visited t = false then (t :: r.1, { r.2 with parent := update r.2.parent t n }) else r

/-- The while loop of `findAllArticulationPointsInCC` (find_articulation_points.h:187-209); `none` if the number of
iterations exceeds the fuel.  Returns the path and the state. -/
def loop (adj : Nat → List Nat) : Nat → List Nat → List Nat → APState → Option (List Nat × APState)
  | _, [], path, s => some (path, s)
  | 0, _ :: _, _, _ => none
  | f + 1, n :: st, path, s =>
    if s.visited n then loop adj f st path s
    else
      let r := backtrack adj (s.parent n) path s
      let r' := (adj n).foldl (pushStep n) (st, r.2.enter n)
      loop adj f r'.1 (n :: r.1) r'.2

/-- Number of pushes that suffices: one for the start and one per edge entry. -/
def fuel (n : Nat) (adj : Nat → List Nat) : Nat := 1 + ((List.range n).map fun v => (adj v).length).sum

/-- `findAllArticulationPointsInCC` (find_articulation_points.h:183-214). -/
def component (n : Nat) (adj : Nat → List Nat) (v : Nat) (s : APState) : Option APState :=
  let s1 := { s with parent := update s.parent v v }
  (loop adj (fuel n adj) [v] [] s1).map fun r => (backtrack adj (r.2.parent v) r.1 r.2).2

/-- `findAllArticulationPoints` for the first `k` vertices (find_articulation_points.h:35-42). -/
def outer (n : Nat) (adj : Nat → List Nat) : Nat → Option APState
  | 0 => some init
  | k + 1 => (outer n adj k).bind fun s => if s.visited k = false then component n adj k s else some s

/-- `findAllArticulationPoints` (find_articulation_points.h:35-42): the object after the call; the result of the call is
whether `points` is not empty. -/
def findAll (n : Nat) (adj : Nat → List Nat) : Option APState := outer n adj n

/-! ### Merging what an articulation point separates from the terminals -/

/-- The walk to the root (find_articulation_points.h:53-71, 88-105): `on_right` and the vertex where the walk ends;
`none` if the number of iterations exceeds the fuel. -/
def walk (s : APState) (n : Nat) : Nat → Nat → Option (Bool × Nat)
  | 0, _ => none
  | f + 1, t =>
    if t = n then some (true, t)
    else if s.parent t = n then some (decide (s.low t ≥ s.disc n), t)
    else if s.parent t = t then some (false, t)
    else walk s n f (s.parent t)

/-- Number of terminals on the right (find_articulation_points.h:49-73). -/
def countRight (s : APState) (N n : Nat) : List Nat → Option Nat
  | [] => some 0
  | t :: ts => (walk s n (N + 1) t).bind fun r => (countRight s N n ts).map fun k => k + if r.1 then 1 else 0

/-- Locals of the contraction: `contracted`, the queue and the union-find. -/
structure Side where
  con : Nat → Bool
  q : List Nat
  uf : UF

/-- The loop over the edges of the articulation point (find_articulation_points.h:84-112). -/
def seeds (s : APState) (N n : Nat) (invert : Bool) : List Nat → Side → Option Side
  | [], r => some r
  | t0 :: ts, r => (walk s n (N + 1) t0).bind fun w =>
      seeds s N n invert ts
        (if w.1 ≠ invert then ⟨update r.con w.2 true, r.q ++ [w.2], (r.uf.union n w.2).2⟩ else r)

/-- Body of the loop over the edges of `v` (find_articulation_points.h:118-123). -/
def spreadStep (v : Nat) (r : Side) (t : Nat) : Side :=
  if r.con t = false then ⟨update r.con t true, r.q ++ [t], (r.uf.union v t).2⟩ else r

/-- The while loop over the queue (find_articulation_points.h:114-125); `none` if the number of iterations exceeds the
fuel. -/
def spread (adj : Nat → List Nat) : Nat → Side → Option Side
  | f, r =>
    match r.q, f with
    | [], _ => some r
    | _ :: _, 0 => none
    | v :: q, f + 1 => spread adj f ((adj v).foldl (spreadStep v) { r with q := q })

/-- The loop body of `terminalsOnBothSides` for articulation point `n` (find_articulation_points.h:49-151): `none` if the
program exits or does not return; otherwise the union-find and whether something is to be contracted. -/
def pointStep (N : Nat) (adj : Nat → List Nat) (ts : List Nat) (s : APState) (r : UF × Bool) (n : Nat) :
    Option (UF × Bool) :=
  (countRight s N n ts).bind fun sum =>
    if sum = 0 ∨ sum = ts.length then
      (seeds s N n (decide (sum = ts.length)) (adj n) ⟨update (fun _ => false) n true, [], r.1⟩).bind fun r1 =>
        (spread adj ((adj n).length + N) r1).bind fun r2 =>
          if ts.any (fun t => r2.con t && decide (t ≠ n)) then none else some (r2.uf, true)
    else some r

/-- `terminalsOnBothSides` (find_articulation_points.h:44-159): outer `none` if the program exits or does not return,
inner `none` for `std::nullopt`. -/
def bothSides (N : Nat) (adj : Nat → List Nat) (ts : List Nat) (s : APState) : Option (Option UF) :=
  (s.points.foldlM (pointStep N adj ts s) (UF.mk' N, false)).map fun r => if r.2 then some r.1 else none

end APState

/-- The targets of the edges of `u` (`edges_of`, `getEdgeTarget`; mutable_graph.h). -/
def MGraph.targets (g : MGraph) (u : Nat) : List Nat := (List.range (g.len u)).map fun e => (g.edge u e).target

namespace Problem

/-- The pass in `kernelization` (kernelization_criteria.h:89-96); `none` if the program exits or does not return. -/
def articulationPass (ots : List Nat) (ord : Nat → List Nat → List Nat) (p : Problem) : Option Problem :=
  (APState.findAll p.graph.n p.graph.targets).bind fun s =>
    if s.points = [] then some p
    else (APState.bothSides p.graph.n p.graph.targets p.tpos s).map fun r =>
      match r with
      | some uf => p.contractIfImproved ots ord uf
      | none => p

end Problem
end VieCut
