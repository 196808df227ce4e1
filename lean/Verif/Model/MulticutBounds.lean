import Verif.Model.Multicut

/-!
# Model of the bounds computed from flows

`lib/algorithms/multicut/maximum_flow.h`: `maximumSTFlow` and `maximumIsolatingFlow`.  The flow computations are inputs
(`push_relabel` is modelled in Model/PushRelabel).  In parallel mode the code stores the result of the `j`-th future as
block `j` instead of the block of the terminal it belongs to; only the sequential assignment is modelled.
-/

namespace VieCut
open Function

namespace Problem

/-- `maxVolIsoBlock` (maximum_flow.h:225-271): the source set of the flow of terminal `i`, or the terminal alone if
its flow is still valid. -/
def isoBlocks (flow : Nat → List Nat) (p : Problem) : List (List Nat) :=
  p.terminals.zipIdx.map fun ti => if ti.1.invalid then flow ti.2 else [ti.1.position]

/-- `maximum`, `sum`, `max_index` (maximum_flow.h:275-277). -/
structure IsoSum where
  maximum : Nat := 0
  sum : Nat := 0
  maxIndex : Nat := 0

/-- Body of the loop over the terminals (maximum_flow.h:279-290). -/
def isoSumStep (ots : List Nat) (p : Problem) (s : IsoSum) (t : Terminal) : IsoSum :=
  let deg := p.graph.wdeg (p.at' (ots.getD t.origId 0))
  let s1 := if deg > s.maximum then { s with maxIndex := t.origId, maximum := deg } else s
  { s1 with sum := s1.sum + deg }

/-- The loops that set the partition indices (maximum_flow.h:292-300, also 47-55): all vertices get block `b`, then
the vertex of the `l`-th original terminal gets block `l`. -/
def partIndices (ots : List Nat) (b : Nat) (p : Problem) : Nat → Nat :=
  ots.zipIdx.foldl (fun f ol => update f (p.at' ol.1) ol.2)
    ((List.range p.graph.n).foldl (fun f v => update f v b) p.graph.part)

/-- `maximum_flow::maximumIsolatingFlow` (maximum_flow.h:202-306). -/
def maximumIsolatingFlow (ots : List Nat) (ord : Nat → List Nat → List Nat) (flow : Nat → List Nat) (p : Problem) :
    Problem :=
  let p1 := p.setTerminals ots
  let p2 := contractIsolatingBlocks ord (p1.isoBlocks flow)
    { p1 with terminals := p1.terminals.map fun t => { t with invalid := false } }
  let s := p2.terminals.foldl (isoSumStep ots p2) {}
  setTerminals ots { p2 with
    graph := { p2.graph with part := p2.partIndices ots s.maxIndex }
    upper := (p2.deleted : Int) + s.sum - s.maximum
    lower := (p2.deleted : Int) + ((s.sum + 1) / 2 : Nat) }

/-- `maximum_flow::maximumSTFlow` (maximum_flow.h:32-62); `flow` and `block` are the results of the flow algorithm. -/
def maximumSTFlow (ots : List Nat) (flow : Int) (block : List Nat) (p : Problem) : Problem :=
  match p.terminals with
  | t0 :: t1 :: _ =>
    { p with
      graph := { p.graph with part := block.foldl (fun f v => update f v t0.origId) (p.partIndices ots t1.origId) }
      upper := flow + p.deleted }
  | _ => p

end Problem
end VieCut
