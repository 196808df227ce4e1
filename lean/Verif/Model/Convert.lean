import Verif.Model.GraphAccess
import Verif.Model.MutableHistory

/-!
# Model of the graph class conversions and the serialisation of `lib/data_structure/mutable_graph.h`
-/

namespace VieCut
namespace MGraph
open Function

/-- Body of the inner loop of `from_graph_access` (mutable_graph.h:804-821); the second component is
`last_incident`, with `none` for `UNDEFINED_NODE`. -/
def fgaEdge (u : Nat) (s : MGraph × (Nat → Option Nat)) (e : Nat × Nat) : MGraph × (Nat → Option Nat) :=
  if s.2 e.1 = some u then
    match (List.range (s.1.len u)).find? (fun e2 => (s.1.edge u e2).target == e.1) with
    | some e2 => (s.1.setEdgeWeight u e2 ((s.1.edge u e2).weight + e.2), s.2)
    | none => s
  else (s.1.newEdge u e.1 e.2, update s.2 e.1 (some u))

/-- `from_graph_access` (mutable_graph.h:797-826) on the view of the `graph_access`. -/
def fromGraphAccess (G : Graph) : MGraph :=
  ((List.range G.n).foldl (fun s u => (G.edges u).foldl (fgaEdge u) (s.1.newNode, s.2))
    (start G.n, fun _ => none)).1.finishConstruction

/-- `to_graph_access` (mutable_graph.h:828-840): rebuilds the graph vertex by vertex; `new_edge` with weight 1
followed by `setEdgeWeight` on the returned id. -/
def toGraphAccess (g : MGraph) : Option CSR :=
  ((List.range g.n).foldl (fun h v => (g.toGraph.edges v).foldl (CSR.copyEdge v) (h.map CSR.newNode))
    (some (CSR.start g.n))).map CSR.finish

/-- `UNDEFINED_EDGE` (definitions.h:40). -/
def undefinedEdge : Nat := 2 ^ 64 - 1

/-- The words written for vertex `u` (mutable_graph.h:889-904): the marker `num_edges + u`, then target and weight
of every edge to a larger vertex. -/
def serialRow (g : MGraph) (u : Nat) : List Nat :=
  (g.numEdges + u) :: ((g.toGraph.edges u).filter (fun e => decide (u < e.1))).flatMap (fun e => [e.1, e.2])

/-- All words written by `serialize`. -/
def serialWords (g : MGraph) : List Nat :=
  [g.n, g.numEdges, g.partCount, g.origNodes] ++ (List.range g.n).flatMap g.serialRow ++ [undefinedEdge] ++
    (List.range g.n).map g.part ++ (List.range g.posSize).map g.pos

/-- `serialize()` (mutable_graph.h:881-917).  The buffer has `5 + 2 n + m + original_nodes` zero-initialised words;
writing past it is undefined behaviour (`none`). -/
def serialize (g : MGraph) : Option (List Nat) :=
  let size := 5 + 2 * g.n + g.numEdges + g.origNodes
  if g.serialWords.length ≤ size then
    some (g.serialWords ++ List.replicate (size - g.serialWords.length) 0)
  else none

/-- The edge loop of `deserialize` (mutable_graph.h:850-863).  Reading past the end of the vector and adding an
edge to a vertex that does not exist are undefined behaviour (`none`). -/
def dsLoop (N M : Nat) : Nat → List Nat → MGraph → Option (MGraph × List Nat)
  | n, [], g => if n < N then none else some (g, [])
  | n, x :: xs, g =>
    if n < N then
      if M ≤ x then
        if x = undefinedEdge then some (g, xs) else dsLoop N M (x - M) xs g
      else
        match xs with
        | [] => none
        | w :: ys => if x < N then dsLoop N M n ys (g.newEdge n x w) else none
    else some (g, x :: xs)

/-- `setPartitionIndex(i, v[deserial++]); setContainedVertices(i, {})` (mutable_graph.h:865-868). -/
def dsPart (N : Nat) (g : MGraph) (ws : List Nat) : Option (MGraph × List Nat) :=
  if N ≤ ws.length then
    some ({ g with part := fun i => if i < N then ws.getD i 0 else g.part i
                   cont := fun i => if i < N then [] else g.cont i }, ws.drop N)
  else none

/-- One iteration of the position loop (mutable_graph.h:870-874). -/
def dsPos (i : Nat) (p : Nat) (g : Option MGraph) : Option MGraph :=
  g.bind fun g => if p < g.contSize then
      some { g with pos := update g.pos i p, cont := update g.cont p (g.cont p ++ [i]) }
    else none

/-- The position loop (mutable_graph.h:870-874). -/
def dsPositions (O : Nat) (g : MGraph) (ws : List Nat) : Option MGraph :=
  if O ≤ ws.length then
    (List.range O).foldl (fun g i => dsPos i (ws.getD i 0 % 2 ^ 32) g) (some g)
  else none

/-- `setOriginalNodes(n)` (mutable_graph.h:300-305). -/
def setOriginalNodes (g : MGraph) (n : Nat) : MGraph :=
  if n > g.posSize then { g with origNodes := n, posSize := n, pos := fun i => if i < g.posSize then g.pos i else 0 }
  else { g with origNodes := n }

/-- `deserialize(v)` (mutable_graph.h:842-879). -/
def deserialize (v : List Nat) : Option MGraph :=
  match v with
  | N :: M :: P :: O :: ws =>
    let g0 := ({ start N with partCount := P } : MGraph).setOriginalNodes O
    (dsLoop N M 0 ws g0).bind fun r1 =>
    (dsPart N r1.1 r1.2).bind fun r2 =>
    (dsPositions O r2.1 r2.2).map finishConstruction
  | _ => none

end MGraph
end VieCut
