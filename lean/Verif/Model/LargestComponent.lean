import Verif.Model.TemporalIO
import Verif.Model.SCC
import Mathlib.Logic.Function.Basic

/-!
# Model of the program that cuts a dynamic graph down to its largest component (app/temporal_largest_cc.cpp)
-/

namespace VieCut
namespace LargestComponent
open GraphIO TemporalIO Function

/-- `compsizes` (temporal_largest_cc.cpp:54-57): the number of vertices of component `c`, `comp` being the vector `components`.  The counting
loop is written as the length of a list. -/
def compSize (n : Nat) (comp : Nat → Nat) (c : Nat) : Nat := ((List.range n).filter fun v => comp v = c).length

/-- `std::max_element` over `compsizes` (temporal_largest_cc.cpp:59-60): the first largest component. -/
def maxComp (ct : Nat) (size : Nat → Nat) : Nat := (List.range ct).foldl (fun b c => if size b < size c then c else b) 0

/-- One iteration of the loop that numbers the vertices (temporal_largest_cc.cpp:66-71): `maxCompID` and `mCCtr`. -/
def numberStep (comp : Nat → Nat) (mc : Nat) (st : (Nat → Nat) × Nat) (i : Nat) : (Nat → Nat) × Nat :=
  if comp i = mc then (update st.1 i st.2, st.2 + 1) else st

/-- `maxCompID` and `mCCtr` after the loop (temporal_largest_cc.cpp:62-71). -/
def number (n : Nat) (comp : Nat → Nat) (mc : Nat) : (Nat → Nat) × Nat := (List.range n).foldl (numberStep comp mc) (fun _ => 0, 1)

/-- `f << c` for a number with sign. -/
def decInt (w : Int) : List Char := if w < 0 then '-' :: dec w.natAbs else dec w.natAbs

/-- The file that is written (temporal_largest_cc.cpp:73-84) for the events `events` of a graph with `n` vertices and `ct` components.  The
components, which come from `strong_components`, are a parameter. -/
def writeLargest (n ct : Nat) (comp : Nat → Nat) (events : List Event) : List Char :=
  let mc := maxComp ct (compSize n comp)
  let ids := (number n comp mc).1
  events.flatMap fun e =>
    if comp e.source = mc ∧ comp e.target = mc then
      dec (ids e.source) ++ ' ' :: (dec (ids e.target) ++ ' ' :: (decInt e.weight ++ ' ' :: dec e.time)) ++ ['\n']
    else []

/-- The graph of the program (temporal_largest_cc.cpp:41-46).  The weight is converted to `EdgeWeight` (64 bits, unsigned). -/
def build (n : Nat) (events : List Event) : MGraph :=
  events.foldl (fun g e => g.newEdgeOrder e.source e.target (e.weight % 2 ^ 64).toNat) (MGraph.start n)

/-- The program (temporal_largest_cc.cpp:41-85) from the events on.  `to_graph_access` (line 47) is left out: it copies the adjacency lists. -/
def program (n : Nat) (events : List Event) : Option (List Char) :=
  (sccGraph (build n events).toGraph).map fun r => writeLargest n r.2 (fun v => (r.1 v).getD 0) events

end LargestComponent
end VieCut
