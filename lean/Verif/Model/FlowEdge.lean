import Verif.Model.RecursiveCactus
import Verif.Model.Tools

/-!
# Model of the choice of a flow edge in `recursive_cactus`
(lib/algorithms/global_mincut/cactus/recursive_cactus.h:142-152, 486-612)

`rnd` is the random vertex.  `none` is `exit(1)` or an access outside a vector.
-/

namespace VieCut
namespace RecCactus

/-- `maximumFlowEdge` (recursive_cactus.h:510-542) with `deg := G.len`, and `maximumWeightedFlowEdge` (recursive_cactus.h:544-576) with
`deg := G.wdeg`.  Without a vertex that has contents and edges, `edges_of(UNDEFINED_NODE)` is read. -/
def heavyFlowEdge (deg : Nat → Nat) (rnd : Nat) (G : MGraph) : Option (Nat × Nat) :=
  (heaviest deg (fun n => !(G.cont n).isEmpty) (List.range G.n)).map fun s =>
    match heaviest (fun e => deg (G.edge s e).target) (fun e => !(G.cont (G.edge s e).target).isEmpty) (List.range (G.len s)) with
    | none => findFlowEdge rnd G
    | some e => (s, e)

/-- The loop of `centralFlowEdge` that walks from the last vertex towards the start (recursive_cactus.h:492-498); the first number is `d`. -/
def upLoop (r : BFS) (stop : Nat) : Nat → Nat → Option Nat
  | 0, v => some v
  | d + 1, v => if d + 1 > stop then (if r.dist v ≠ d + 1 then none else (r.parent v).bind (upLoop r stop d)) else some v

/-- `centralFlowEdge` (recursive_cactus.h:486-508). -/
def centralFlowEdge (rnd : Nat) (G : MGraph) : Option (Nat × Nat) :=
  let v1 := (bfsDistances G.toGraph rnd).last
  let r := bfsDistances G.toGraph v1
  let D := r.dist r.last
  (upLoop r ((D + 1) / 2) D r.last).bind fun v =>
    (r.parent v).bind fun p => ((List.range (G.len v)).find? fun e => (G.edge v e).target == p).map fun e => (v, e)

/-- The choice of the flow edge for the configured rule `es` (recursive_cactus.h:137-152): source, number of the edge, target.  For an
unknown rule the three variables keep the value 0. -/
def flowEdge (es : String) (rnd : Nat) (G : MGraph) : Option (Nat × Nat × Nat) :=
  let out := fun (q : Nat × Nat) => (q.1, q.2, (G.edge q.1 q.2).target)
  if es = "heavy" then (heavyFlowEdge G.len rnd G).map out
  else if es = "heavy_weighted" ∨ es = "" ∨ es = "heavy_vertex" then (heavyFlowEdge G.wdeg rnd G).map out
  else if es = "central" then (centralFlowEdge rnd G).map out
  else if es = "random" then some (out (findFlowEdge rnd G))
  else some (0, 0, 0)

end RecCactus
end VieCut
