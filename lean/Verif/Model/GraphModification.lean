import Verif.Model.STCactus

/-!
# Model of `lib/algorithms/global_mincut/cactus/graph_modification.h`

Two cactuses are glued together at a vertex, and vertices that hold nothing and are not needed are removed.  `none` is `exit(1)` or a
loop that does not end.  Logging and assertions are left out.
-/

namespace VieCut
namespace GraphModification
open Function STCactus

/-- Body of the loop over the vertices of `G2` (graph_modification.h:41-56). -/
def mergeVertex (G2 : MGraph) (v1 v2 : Nat) (h : MGraph) (i : Nat) : MGraph :=
  if i = v2 then (G2.cont i).foldl (fun h c => if h.pos c = v1 then addMember h v1 c else h) h
  else setMembers h.newEmptyNode h.lastNode (G2.cont i)

/-- The vertex of the result for a vertex `n ≠ v2` of `G2` (graph_modification.h:59, 65). -/
def shift (n1 v2 n : Nat) : Nat := n + n1 - if n > v2 then 1 else 0

/-- Body of the loop over the edges of a vertex of `G2` (graph_modification.h:62-68). -/
def mergeEdge (G2 : MGraph) (n1 v1 v2 n : Nat) (h : MGraph) (e : Nat) : MGraph :=
  let r := G2.edge n e
  if r.target ≠ v2 then h.newEdge (if n = v2 then v1 else shift n1 v2 n) (shift n1 v2 r.target) r.weight else h

/-- `mergeGraphs` up to the call of `canonizeCactus`, for graphs with more than one vertex (graph_modification.h:39-70). -/
def glue (G1 : MGraph) (v1 : Nat) (G2 : MGraph) (v2 : Nat) : MGraph :=
  let g := (List.range G2.n).foldl (mergeVertex G2 v1 v2) { G1 with cont := update G1.cont v1 [] }
  (List.range G2.n).foldl (fun h n => (List.range (G2.len n)).foldl (mergeEdge G2 G1.n v1 v2 n) h) g

/-- The neighbours of `v` over edges of weight `mincut`, with the edge (graph_modification.h:79-86). -/
def treeNeighbors (g : MGraph) (v mincut : Nat) : List (Nat × Nat) :=
  ((List.range (g.len v)).filter (fun e => (g.edge v e).weight = mincut)).map fun e => ((g.edge v e).target, e)

/-- The neighbours of `v` over other edges (graph_modification.h:87-92). -/
def cycleNeighbors (g : MGraph) (v mincut : Nat) : List Nat :=
  ((List.range (g.len v)).filter (fun e => (g.edge v e).weight ≠ mincut)).map fun e => (g.edge v e).target

/-- `junctions` before the division: the sum of the weights (graph_modification.h:93). -/
def edgeSum (g : MGraph) (v : Nat) : Nat := ((List.range (g.len v)).map fun e => (g.edge v e).weight).sum

/-- The targets of the edges of `n` in order. -/
def targets (g : MGraph) (n : Nat) : List Nat := (List.range (g.len n)).map fun e => (g.edge n e).target

/-- The search for a vertex of `nbrs` (graph_modification.h:120-146).  The queue is a list.  `seen` marks `vertex` only, so vertices
are visited again and again.  When an edge to a vertex of `nbrs` is found the queue is emptied, so what was put into it does not
matter.  With an empty queue nothing was found, and the loop around it would start the same search again: `none`. -/
def search (g : MGraph) (vertex : Nat) (nbrs : List Nat) : Nat → List Nat → Option Nat
  | 0, _ => none
  | _ + 1, [] => none
  | fuel + 1, n :: q =>
    match (targets g n).find? (fun t => t ∈ nbrs) with
    | some t => some t
    | none => search g vertex nbrs fuel (q ++ (targets g n).filter (fun t => t ≠ vertex))

/-- `pairs` (graph_modification.h:109-150).  The first number bounds the rounds. -/
def pairUp (g : MGraph) (vertex fuel : Nat) : Nat → List Nat → Option (List (Nat × Nat))
  | rounds + 1, p :: q :: r :: l =>
    (search g vertex (q :: r :: l) fuel [p]).bind fun t =>
      (pairUp g vertex fuel rounds ((q :: r :: l).erase t)).map fun ps => (p, t) :: ps
  | 0, _ :: _ :: _ :: _ => none
  | _, [p, q] => some [(p, q)]
  | _, _ => some []

/-- A new empty vertex between the two vertices of a pair (graph_modification.h:155-161). -/
def addBetween (mincut : Nat) (s : MGraph × List Nat) (p : Nat × Nat) : MGraph × List Nat :=
  let u := s.1.lastNode
  (((s.1.newEmptyNode.newEdgeOrder u p.1 (mincut / 2)).newEdgeOrder u p.2 (mincut / 2)), s.2 ++ [u])

/-- `canonizeCactus(cactus, vertex, mincut)` (graph_modification.h:76-173), without the returned Boolean. -/
def canonizeCactus (fuel : Nat) (g : MGraph) (vertex mincut : Nat) : Option MGraph :=
  let tree := treeNeighbors g vertex mincut
  let cyc := cycleNeighbors g vertex mincut
  if edgeSum g vertex % mincut ≠ 0 then none
  else if edgeSum g vertex / mincut = 2 ∧ tree ≠ [] then some (g.contractEdge vertex (tree.headD (0, 0)).2)
  else if edgeSum g vertex / mincut = 3 then
    (pairUp g vertex fuel cyc.length cyc).map fun pairs =>
      let s := pairs.foldl (addBetween mincut) (g, [])
      let nodes := s.2 ++ tree.map (·.1)
      let a := nodes.getD 0 0
      let b := nodes.getD 1 0
      let d := nodes.getD 2 0
      ((((s.1.newEdgeOrder a b (mincut / 2)).newEdgeOrder a d (mincut / 2)).newEdgeOrder b d (mincut / 2)).deleteVertex vertex)
  else some g

/-- `mergeGraphs(G1, v1, G2, v2, mincut)` (graph_modification.h:27-74). -/
def mergeGraphs (fuel : Nat) (G1 : MGraph) (v1 : Nat) (G2 : MGraph) (v2 mincut : Nat) : Option MGraph :=
  if G2.n = 1 then some G1
  else if G1.n = 1 then some G2
  else
    let g := glue G1 v1 G2 v2
    if (g.cont v1).isEmpty then canonizeCactus fuel g v1 mincut else some g

/-- `isCNCR(G, mincut)` (graph_modification.h:175-208).  `num` is a 32-bit number in the code. -/
def isCNCR (g : MGraph) (mincut : Nat) : Bool :=
  (List.range g.n).all fun v =>
    !(g.cont v).isEmpty ||
      (edgeSum g v % mincut == 0 && edgeSum g v / mincut != 3 && (edgeSum g v / mincut != 2 || 4 ≤ g.len v))

end GraphModification
end VieCut
