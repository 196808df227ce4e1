import Verif.Model.STCactus

/-!
# Model of `lib/algorithms/global_mincut/cactus/heavy_edges.h`

Edges heavier than the minimum cut are contracted, vertices with one edge of the weight of the minimum cut and vertices on cycles are
taken out before the cactus of the rest is computed, and put back afterwards.  Iteration orders of `std::unordered_map` and
`std::unordered_set` are parameters.  `none` is `exit(1)`.
-/

namespace VieCut
namespace HeavyEdges
open Function STCactus

/-- `contract[a]` gets the element `b` (heavy_edges.h:51-56).  The map is a list of its entries. -/
def addPair (m : List (Nat × List Nat)) (a b : Nat) : List (Nat × List Nat) :=
  if m.any (fun p => p.1 == a) then m.map (fun p => if p.1 = a then (p.1, p.2 ++ [b]) else p) else m ++ [(a, [b])]

/-- `contract` and `markForCactus`. -/
structure Scan where
  groups : List (Nat × List Nat)
  marks : List Nat

/-- Body of the loop over the edges of `n` (heavy_edges.h:38-65). -/
def heavyEdge (mincut : Nat) (g : MGraph) (n : Nat) (s : Scan) (e : Nat) : Scan :=
  let r := g.edge n e
  if (g.cont r.target).isEmpty then s
  else
    let v1 := (g.cont n).headD 0
    let v2 := (g.cont r.target).headD 0
    let s1 := if r.weight > mincut then { s with groups := addPair s.groups (min v1 v2) (max v1 v2) } else s
    if r.weight = mincut ∧ g.len n = 1 then { s1 with marks := s1.marks ++ [v1] } else s1

/-- Body of the loop over the vertices (heavy_edges.h:34-66). -/
def heavyNode (mincut : Nat) (g : MGraph) (s : Scan) (n : Nat) : Scan :=
  if (g.cont n).isEmpty then s else (List.range (g.len n)).foldl (heavyEdge mincut g n) s

/-- The first loop (heavy_edges.h:31-66). -/
def scan (mincut : Nat) (g : MGraph) : Scan := (List.range g.n).foldl (heavyNode mincut g) ⟨[], []⟩

/-- One entry of `contract` is contracted (heavy_edges.h:68-77). -/
def contractGroup (ord : Nat → List Nat → List Nat) (g : MGraph) (p : Nat × List Nat) : MGraph :=
  let S := ((p.1 :: p.2).map g.pos).dedup
  if S.length > 1 then g.contractVertexSet (ord p.1 S) else g

/-- One marked vertex is taken out, unless the graph has only two vertices (heavy_edges.h:79-91). -/
def takeLeaf (s : MGraph × List (Nat × List Nat)) (e : Nat) : MGraph × List (Nat × List Nat) :=
  if s.1.n > 2 then
    let n := s.1.pos e
    let t := (s.1.edge n 0).target
    if (s.1.cont t).isEmpty then s else (s.1.deleteVertex n, s.2 ++ [((s.1.cont t).headD 0, s.1.cont n)])
  else s

/-- `removeHeavyEdges(G)` (heavy_edges.h:29-93): the changed graph and `cactusEdge`.  `ordM` and `ord` are the iteration orders of the
map and of the sets. -/
def removeHeavyEdges (mincut : Nat) (ordM : List (Nat × List Nat) → List (Nat × List Nat)) (ord : Nat → List Nat → List Nat)
    (g : MGraph) : MGraph × List (Nat × List Nat) :=
  let s := scan mincut g
  s.marks.foldl takeLeaf ((ordM s.groups).foldl (contractGroup ord) g, [])

/-- Body of the loop of `reInsertVertices` (heavy_edges.h:197-206). -/
def putLeaf (mincut : Nat) (g : MGraph) (r : Nat × List Nat) : MGraph :=
  let curr := g.pos r.1
  let vtx := g.lastNode
  setMembers (g.newEmptyNode.newEdgeOrder curr vtx mincut) vtx r.2

/-- `reInsertVertices(G, toInsert)` (heavy_edges.h:194-207): from the last entry to the first. -/
def reInsertVertices (mincut : Nat) (g : MGraph) (toInsert : List (Nat × List Nat)) : MGraph :=
  toInsert.reverse.foldl (putLeaf mincut) g

/-- `UNDEFINED_NODE` (common/definitions.h). -/
def undefinedNode : Nat := 2 ^ 32 - 1

/-- Body of the loop of `contractCycleEdges` (heavy_edges.h:100-143).  `r` holds `((p0, p1), contained)` in the order of the
removal. -/
def cycleStep (mincut : Nat) (s : MGraph × List ((Nat × Nat) × List Nat)) (n : Nat) : MGraph × List ((Nat × Nat) × List Nat) :=
  let g := s.1
  let e0 := g.edge n 0
  let e1 := g.edge n 1
  if g.len n = 2 ∧ g.wdeg n = mincut then
    if (g.cont e0.target).isEmpty ∨ (g.cont e1.target).isEmpty then s
    else
      let rev := if e1.weight > e0.weight then 1 else 0
      let n0 := if e1.weight > e0.weight then e1.target else e0.target
      let n1 := if e1.weight < e0.weight then n0 else e1.target
      let p0 := (g.cont n0).headD 0
      let p1 := (g.cont n1).headD 0
      let contained := g.cont n
      let g1 := { g with cont := update g.cont n [], pos := fun v => if v ∈ contained then undefinedNode else g.pos v }
      (g1.contractEdgeSparseTarget n0 (g.edge n rev).rev, s.2 ++ [((p0, p1), contained)])
  else if g.len n = 2 ∧ e0.weight ≠ e1.weight then
    let heavier := if e0.weight < e1.weight then 1 else 0
    let ngbr := (g.edge n heavier).target
    (g.contractEdgeSparseTarget ngbr (g.edge n heavier).rev, s.2)
  else s

/-- The loop `for (n = 0; n < G->n(); ++n)` (heavy_edges.h:100): `n` grows also when the graph shrinks. -/
def cycleLoop (mincut : Nat) : Nat → Nat → MGraph × List ((Nat × Nat) × List Nat) → MGraph × List ((Nat × Nat) × List Nat)
  | 0, _, s => s
  | fuel + 1, n, s => if n < s.1.n then cycleLoop mincut fuel (n + 1) (cycleStep mincut s n) else s

/-- `contractCycleEdges(G)` (heavy_edges.h:95-147). -/
def contractCycleEdges (mincut : Nat) (g : MGraph) : MGraph × List ((Nat × Nat) × List Nat) := cycleLoop mincut g.n 0 (g, [])

/-- Body of the loop of `reInsertCycles` (heavy_edges.h:153-191).  `none` is `exit(1)`. -/
def putCycle (mincut : Nat) (g : MGraph) (r : (Nat × Nat) × List Nat) : Option MGraph :=
  let n0 := g.pos r.1.1
  let n1 := g.pos r.1.2
  let reIns := g.lastNode
  let g1 := g.newEmptyNode
  if n0 = n1 then some (setMembers (setMembers (g1.newEdgeOrder n0 reIns mincut) reIns r.2) reIns r.2)
  else
    ((List.range (g1.len n0)).find? (fun a => (g1.edge n0 a).target == n1)).map fun e =>
      let g2 := (g1.newEdgeOrder n0 reIns (mincut / 2)).newEdgeOrder n1 reIns (mincut / 2)
      let w := (g2.edge n0 e).weight
      let g3 := if w = mincut / 2 then g2.deleteEdge n0 e else g2.setEdgeWeight n0 e (w - mincut / 2)
      setMembers g3 reIns r.2

/-- `reInsertCycles(G, toInsert)` (heavy_edges.h:149-192): from the last entry to the first. -/
def reInsertCycles (mincut : Nat) (g : MGraph) (toInsert : List ((Nat × Nat) × List Nat)) : Option MGraph :=
  toInsert.reverse.foldlM (putCycle mincut) g

end HeavyEdges
end VieCut
