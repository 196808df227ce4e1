import Verif.Model.Graph
import Mathlib.Logic.Function.Iterate

/-!
# Model of the choice of the terminals in `lib/algorithms/multicut/multiterminal_cut.h`

Random numbers and the results of `top_k_degrees` (Model/Tools) are parameters.  `none` as an entry of a mapping is
`UNDEFINED_NODE`.
-/

namespace VieCut
namespace Terminals
open Function

/-- `terminalMapping(G->n(), UNDEFINED_NODE)` (multiterminal_cut.h:163, 396). -/
def noTerminal : Nat → Option Nat := fun _ => none

/-! ### Areas around the terminals -/

/-- Local variables of the loops around one terminal (multiterminal_cut.h:172-175). -/
structure Area where
  queue : List Nat
  map : Nat → Option Nat
  size : Nat

/-- Loop body for one edge to `tgt` (multiterminal_cut.h:181-188).  The loop is entered with `curr_blocksize < bfs_size`
and left as soon as this fails, so the test at the end of the body is made at its beginning. -/
def areaEdge (bfs i : Nat) (s : Area) (tgt : Nat) : Area :=
  if bfs ≤ s.size then s
  else if s.map tgt = none then { queue := s.queue ++ [tgt], map := update s.map tgt (some i), size := s.size + 1 }
  else s

/-- One iteration of the while loop (multiterminal_cut.h:177-190); no change after the end of the loop. -/
def areaStep (G : Graph) (bfs i : Nat) (s : Area) : Area :=
  match s.queue with
  | [] => s
  | v :: q => if bfs ≤ s.size then s else ((G.edges v).map (·.1)).foldl (areaEdge bfs i) { s with queue := q }

/-- The body of the loop over the terminals (multiterminal_cut.h:170-191) for terminal number `i` at vertex `t`.  The
while loop makes at most `n` iterations (`C48_loop_ends`). -/
def area (G : Graph) (bfs : Nat) (map : Nat → Option Nat) (ti : Nat × Nat) : Nat → Option Nat :=
  ((areaStep G bfs ti.2)^[G.n] { queue := [ti.1], map := update map ti.1 (some ti.2), size := 1 }).map

/-- `addSurroundingAreaToTerminals` (multiterminal_cut.h:159-194). -/
def surround (G : Graph) (bfs : Nat) (terminals : List Nat) : Nat → Option Nat :=
  let map := terminals.zipIdx.foldl (fun (m : Nat → Option Nat) ti => update m ti.1 (some ti.2)) noTerminal
  if 1 < bfs then terminals.zipIdx.foldl (area G bfs) map else map

/-! ### Distant terminals -/

/-- Local variables of the search in `distantTerminals` (multiterminal_cut.h:329-330, 340); `last` is the vertex taken from
the queue most recently. -/
structure Search where
  queue : List Nat
  found : Nat → Bool
  last : Nat

/-- Loop body for one edge to `v` (multiterminal_cut.h:343-347). -/
def searchEdge (s : Search) (v : Nat) : Search :=
  if s.found v then s else { s with queue := s.queue ++ [v], found := update s.found v true }

/-- One iteration of the while loop (multiterminal_cut.h:339-354); no change after the end of the loop. -/
def searchStep (G : Graph) (s : Search) : Search :=
  match s.queue with
  | [] => s
  | v :: q => ((G.edges v).map (·.1)).foldl searchEdge { s with queue := q, last := v }

/-- The start of the search (multiterminal_cut.h:329-337). -/
def searchInit (starts : List Nat) : Search := { queue := starts, found := fun v => decide (v ∈ starts), last := 0 }

/-- The vertex that the search finds last (multiterminal_cut.h:329-354).  The while loop takes every start vertex and every
other vertex at most once from the queue (`C49_loop_ends`). -/
def farthest (G : Graph) (starts : List Nat) : Nat := ((searchStep G)^[G.n + starts.length] (searchInit starts)).last

/-- `distantTerminals` (multiterminal_cut.h:324-357) for the random vertex `r` and `k = distant_terminals`. -/
def distant (G : Graph) (r k : Nat) : List Nat :=
  (List.range k).foldl (fun ts _ => ts ++ [farthest G (r :: ts)]) []

/-! ### Terminals given by the user -/

/-- `terminalsByID` (multiterminal_cut.h:359-374): `args` are the results of `std::stoi`, `none` if it throws.  A negative
number becomes a number of 32 bits. -/
def byID (n : Nat) (args : List (Option Int)) : List Nat :=
  args.filterMap fun a => a.bind fun x => if (x % 2 ^ 32).toNat < n then some (x % 2 ^ 32).toNat else none

/-- `presetFileTerminals` (multiterminal_cut.h:376-390). -/
def preset (k : Nat) (v : List Nat) : List (Option Nat) := v.map fun x => if x = k then none else some x

/-- The number of vertices that is given to every terminal (multiterminal_cut.h:50-55, 398-403); `pct` is
`preset_percentage`, a whole number here. -/
def blockSize (n k pct : Nat) : Nat := max (n / k * pct / 100) 1

/-- `orderFileTerminals` (multiterminal_cut.h:392-414) with the contents of the two files, which need `n` entries. -/
def order (n k size : Nat) (v o : List Nat) : Option (Nat → Option Nat) :=
  if n ≤ v.length ∧ n ≤ o.length then
    some ((List.range k).foldl (fun m i => (List.range n).foldl
      (fun m x => if v.getD x 0 = i ∧ o.getD x 0 ≤ size then update m x (some i) else m) m) noTerminal)
  else none

/-- `setOriginalTerminals` without a partition file (multiterminal_cut.h:40-48): the chosen terminals; the list of an option
that is not set is empty. -/
def choose (topK randomK distantK byIds : List Nat) : List Nat :=
  let ts := if randomK ≠ [] then randomK else topK
  let ts := if distantK ≠ [] then distantK else ts
  if ts = [] then byIds else ts

end Terminals
end VieCut
