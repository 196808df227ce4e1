import Verif.Model.HeavyEdges
import Verif.Model.GraphModification

/-!
# Model of the recursion of `recursive_cactus`
(lib/algorithms/global_mincut/cactus/recursive_cactus.h: `recursiveCactus`, `internalRecursiveCactus`, `mergeCactusWithComponent`)

The flow vertices, the iteration orders of hash containers and the reductions that are made at depths divisible by ten are
parameters (`Env`).  Every flow is computed under a new problem id, so flows of earlier computations are not read and are not
kept in the model.  `none` is `exit(1)`, a loop that does not end, or a recursion that is deeper than the fuel.
-/

namespace VieCut
namespace RecCactus
open Function STCactus HeavyEdges GraphModification

/-- What the recursion depends on: the queue and the relabelling schedule of the flow computation, the choice `(s, e)` of an
edge, the iteration orders, the reductions (recursive_cactus.h:118-130) and the bounds for loops.  `okRed` and `okST` are ghosts: a
run in which they are false for the argument of the reductions or of `findSTCactus` has no result; in the code they are always true. -/
structure Env where
  P : PQ
  trigger : Nat → Bool
  pick : MGraph → Nat × Nat
  ordM : List (Nat × List Nat) → List (Nat × List Nat)
  ord : Nat → List Nat → List Nat
  ordC : List Nat → List Nat
  red : MGraph → MGraph
  flowFuel : Nat
  mergeFuel : Nat
  okRed : MGraph → Bool := fun _ => true
  okST : MGraph → Bool := fun _ => true

/-- A maximum flow from `s` to `t` and the strongly connected components of its residual graph (recursive_cactus.h:153-159, 171-173):
the value, the labels, their number, the sizes of the components. -/
def flowClasses (V : Env) (G : MGraph) (s t : Nat) : Option (Int × (Nat → Nat) × Nat × List Nat) :=
  let c : PushRelabel.Cfg := { g := G, ts := [s, t], src := s }
  (PushRelabel.mainLoop V.P c V.trigger V.flowFuel (PushRelabel.globalRelabel V.P c true (PushRelabel.init V.P c))).bind fun r =>
    (sccMutable (storeFlow G r.1.flow 0) (some 0)).map fun q => (r.1.excess t, fun x => (q.1 x).getD 0, q.2.1, q.2.2)

/-- `containedVertices(n)[0]` of the first vertex `n` with contents for which `p` holds (recursive_cactus.h:227-229, 236-238, 279-289). -/
def base (G : MGraph) (p : Nat → Bool) : Option Nat :=
  (((List.range G.n).filter fun n => p n && !(G.cont n).isEmpty).head?).map fun n => (G.cont n).headD 0

/-- Body of the loop that distributes the original vertices (recursive_cactus.h:223-245); `contained[n]` is `num n`. -/
def smallVertex (G : MGraph) (num : Nat → Nat) (h : MGraph) (n : Nat) : MGraph :=
  (G.cont n).foldl (fun h c => addMember h (num n) c) h

/-- Body of the loop that inserts the edges (recursive_cactus.h:247-264). -/
def smallEdges (G : MGraph) (num : Nat → Nat) (size : Nat) (h : MGraph) (n : Nat) : MGraph :=
  if num n ≠ size then
    let s := (List.range (G.len n)).foldl (fun (s : MGraph × Nat) e =>
      let t := (G.edge n e).target
      let w := (G.edge n e).weight
      if num t = size then (s.1, s.2 + w)
      else if num n < num t then (s.1.newEdge (num n) (num t) w, s.2) else s) (h, 0)
    if s.2 > 0 then s.1.newEdge (num n) size s.2 else s.1
  else h

/-- The graph of a small component: everything else is one vertex, the last one (recursive_cactus.h:212-265). -/
def smallGraph (G : MGraph) (lab : Nat → Nat) (c size : Nat) : MGraph :=
  let num := fun n => if lab n = c then ((List.range n).filter fun m => lab m = c).length else size
  let h := setOriginalNodes (MGraph.start (size + 1)) G.origNodes
  let h := { h with cont := fun p => if p < size + 1 then [] else h.cont p }
  let h := (List.range G.n).foldl (smallVertex G num) h
  ((List.range G.n).foldl (smallEdges G num size) h).finishConstruction

/-- The graph of a component in which everything else is one vertex (recursive_cactus.h:208-291). -/
def componentGraph (V : Env) (G : MGraph) (lab : Nat → Nat) (c size : Nat) : MGraph :=
  if 2 * size ≤ G.n then smallGraph G lab c size
  else G.contractVertexSet (V.ordC ((List.range G.n).filter fun n => lab n ≠ c))

/-- `mergeCactusWithComponent` (recursive_cactus.h:201-301); `rc` is the recursive call. -/
def mergeComponent (V : Env) (mincut : Nat) (rc : MGraph → Option MGraph) (G : MGraph) (lab : Nat → Nat) (sizes : List Nat) (ST : MGraph)
    (c : Nat) : Option MGraph :=
  (rc (componentGraph V G lab c (sizes.getD c 0))).bind fun ni =>
    (base G fun n => lab n = c).bind fun inside =>
      (base G fun n => lab n ≠ c).bind fun outside =>
        mergeGraphs V.mergeFuel ST (ST.pos inside) ni (ni.pos outside) mincut

/-- Two components, one of which is a vertex of the degree of the minimum cut: it is contracted into its neighbour, and put back as a
leaf (recursive_cactus.h:174-199). -/
def leafCase (mincut : Nat) (rc : MGraph → Option MGraph) (G : MGraph) (s e t : Nat) : Option MGraph :=
  let ctr := if G.wdeg s = mincut then s else t
  let other := if ctr = s then t else s
  let inCtr := G.cont ctr
  let inOther := G.cont other
  let G1 := G.contractEdge s e
  let v := G1.pos (inCtr.headD 0)
  (rc (setMembers G1 v inOther)).map fun ret =>
    let other := ret.pos (inOther.headD 0)
    let new := ret.lastNode
    setMembers (ret.newEmptyNode.newEdge other new mincut) new inCtr

/-- `recursiveCactus` around the call `inner` of `internalRecursiveCactus` (recursive_cactus.h:99-108). -/
def recursive (V : Env) (mincut : Nat) (inner : MGraph → Option MGraph) (G : MGraph) : Option MGraph :=
  let r := removeHeavyEdges mincut V.ordM V.ord G
  let y := contractCycleEdges mincut r.1
  (inner y.1).bind fun C => (reInsertCycles mincut C y.2).map fun C => reInsertVertices mincut C r.2

/-- `internalRecursiveCactus` (recursive_cactus.h:110-199).  The numbers are fuel and depth. -/
def internal (V : Env) (mincut : Nat) : Nat → Nat → MGraph → Option MGraph
  | 0, _, _ => none
  | fuel + 1, depth, G0 =>
    let G := if depth % 10 = 0 then V.red G0 else G0
    if depth % 10 = 0 ∧ V.okRed G0 = false then none
    else if G.n = 1 ∨ G.numEdges = 0 then some G
    else
      let rc := recursive V mincut (internal V mincut fuel (depth + 1))
      let s := (V.pick G).1
      let e := (V.pick G).2
      let t := (G.edge s e).target
      (flowClasses V G s t).bind fun q =>
        if q.1 > mincut then rc (G.contractEdge s e)
        else if G.n = 2 then some G
        else if q.2.2.1 = 2 ∧ (G.wdeg s = mincut ∨ G.wdeg t = mincut) then leafCase mincut rc G s e t
        else if V.okST G = false then none
        else
          (findSTCactus mincut q.2.1 G s q.2.2.1).bind fun ST =>
            ((List.range q.2.2.1).filter (fun c => 2 * q.2.2.2.getD c 0 ≤ G.n) ++
              (List.range q.2.2.1).filter (fun c => ¬ 2 * q.2.2.2.getD c 0 ≤ G.n)).foldlM
              (mergeComponent V mincut rc G q.2.1 q.2.2.2) ST

/-- `flowMincut` (recursive_cactus.h:64-80) for one graph. -/
def flowMincut (V : Env) (mincut fuel : Nat) (G : MGraph) : Option MGraph := recursive V mincut (internal V mincut fuel 0) G

/-- The first vertex with the largest degree among those that satisfy `p`, as in the loops of `maximumWeightedFlowEdge`
(recursive_cactus.h:549-555, 560-568).  The largest degree so far is kept in 32 bits (`NodeWeight`). -/
def heaviest (deg : Nat → Nat) (p : Nat → Bool) (l : List Nat) : Option Nat :=
  (l.foldl (fun (b : Nat × Option Nat) n => if deg n > b.1 ∧ p n then (deg n % 2 ^ 32, some n) else b) (0, none)).2

/-- `maximumWeightedFlowEdge` (recursive_cactus.h:544-576), the default choice; without a neighbour that has contents
`findFlowEdge` is used, a random choice, here the first edge (the full function is `heavyFlowEdge` in Model/FlowEdge). -/
def maximumWeightedFlowEdge (G : MGraph) : Nat × Nat :=
  let s := (heaviest G.wdeg (fun n => !(G.cont n).isEmpty) (List.range G.n)).getD 0
  (s, (heaviest (fun e => G.wdeg (G.edge s e).target) (fun e => !(G.cont (G.edge s e).target).isEmpty) (List.range (G.len s))).getD 0)

/-- The first number from `i` on, cyclically among `n` numbers, that satisfies `p`. -/
def firstFrom (p : Nat → Bool) (n i : Nat) : Nat := (((List.range n).map fun j => (i + j) % n).find? p).getD 0

/-- `findFlowEdge` (recursive_cactus.h:578-612) with the random start vertex `start`: the first vertex with contents that has a neighbour
with contents, and the first such neighbour. -/
def findFlowEdge (start : Nat) (G : MGraph) : Nat × Nat :=
  let full := fun s e => !(G.cont (G.edge s e).target).isEmpty
  let s := firstFrom (fun s => !(G.cont s).isEmpty && (List.range (G.len s)).any (full s)) G.n start
  (s, ((List.range (G.len s)).find? (full s)).getD 0)

end RecCactus
end VieCut
