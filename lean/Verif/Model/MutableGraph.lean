import Verif.Model.Graph
import Mathlib.Logic.Function.Basic
import Mathlib.Data.List.Sort

/-!
# Model of `lib/data_structure/mutable_graph.h`

A `std::vector` member is a total function together with its size; entries at or beyond the size are
meaningless and never read by the model on valid graphs.  Weights are unbounded naturals (no 64-bit overflow).
-/

namespace VieCut

/-- `struct RevEdge` (mutable_graph.h:26-56). -/
structure RevEdge where
  target : Nat
  weight : Nat
  rev : Nat
  flow : Int := 0
  pid : Nat := 0
deriving DecidableEq, Repr

/-- `class mutable_graph` (mutable_graph.h:58, data members 975-987).  `vertices[u]` is
`edge u 0, …, edge u (len u - 1)`, `vertices.size() = n` (also the size of `weighted_degree`, `partition_index`
and `node_in_cut`); `current_position` has size `posSize`, `contained_in_this` has size `contSize`. -/
structure MGraph where
  n : Nat
  len : Nat → Nat
  edge : Nat → Nat → RevEdge
  wdeg : Nat → Nat
  part : Nat → Nat
  inCut : Nat → Bool
  pos : Nat → Nat
  posSize : Nat
  cont : Nat → List Nat
  contSize : Nat
  lastNode : Nat
  numEdges : Nat
  partCount : Nat
  origNodes : Nat

namespace MGraph
open Function

/-- The read-only view used by the algorithms: `edges_of`, `getEdge` (mutable_graph.h:165-168, 349-351). -/
def toGraph (g : MGraph) : Graph :=
  ⟨(List.range g.n).map fun u => (List.range (g.len u)).map fun e => ((g.edge u e).target, (g.edge u e).weight)⟩

/-- `vertices[u][e] = r`. -/
def setEdge (g : MGraph) (u e : Nat) (r : RevEdge) : MGraph :=
  { g with edge := update g.edge u (update (g.edge u) e r) }

/-- `vertices[u].emplace_back(r)`. -/
def pushEdge (g : MGraph) (u : Nat) (r : RevEdge) : MGraph :=
  { g.setEdge u (g.len u) r with len := update g.len u (g.len u + 1) }

/-- Default constructor followed by `start_construction(n)` (mutable_graph.h:77-92). -/
def start (n : Nat) : MGraph :=
  { n := n, len := fun _ => 0, edge := fun _ _ => ⟨0, 0, 0, 0, 0⟩, wdeg := fun _ => 0, part := fun _ => 0,
    inCut := fun _ => false, pos := fun i => i, posSize := n, cont := fun i => [i], contSize := n,
    lastNode := 0, numEdges := 0, partCount := 0, origNodes := n }

/-- `new_node()` (mutable_graph.h:99-111); `contained_in_this.emplace_back(last_node)` appends a vector of
`last_node` zeros. -/
def newNode (g : MGraph) : MGraph :=
  if g.lastNode = g.n then
    { g with
      cont := update g.cont g.contSize (List.replicate g.lastNode 0), contSize := g.contSize + 1,
      pos := update (update g.pos g.posSize 0) g.lastNode g.n, posSize := g.posSize + 1,
      n := g.n + 1, len := update g.len g.n 0, part := update g.part g.n 0,
      inCut := update g.inCut g.n false, wdeg := update g.wdeg g.n 0, lastNode := g.lastNode + 1 }
  else { g with lastNode := g.lastNode + 1 }

/-- `new_empty_node()` (mutable_graph.h:117-127). -/
def newEmptyNode (g : MGraph) : MGraph :=
  if g.lastNode = g.n then
    { g with
      cont := update g.cont g.contSize [], contSize := g.contSize + 1,
      n := g.n + 1, len := update g.len g.n 0, part := update g.part g.n 0,
      inCut := update g.inCut g.n false, wdeg := update g.wdeg g.n 0, lastNode := g.lastNode + 1 }
  else { g with lastNode := g.lastNode + 1 }

/-- `new_edge(source, target, wgt)` (mutable_graph.h:133-146): ignored unless `source < target`. -/
def newEdge (g : MGraph) (s t w : Nat) : MGraph :=
  if s < t then
    let ti := g.len t
    let si := g.len s
    let g1 := g.pushEdge s { target := t, weight := w, rev := ti }
    let g2 := g1.pushEdge t { target := s, weight := w, rev := si }
    { g2 with numEdges := g2.numEdges + 2,
              wdeg := update (update g2.wdeg s (g2.wdeg s + w)) t ((update g2.wdeg s (g2.wdeg s + w)) t + w) }
  else g

/-- `new_edge_order` (mutable_graph.h:148-156). -/
def newEdgeOrder (g : MGraph) (s t w : Nat) : MGraph :=
  if s < t then g.newEdge s t w else if t < s then g.newEdge t s w else g

/-- `setEdgeWeight` (mutable_graph.h:332-347). -/
def setEdgeWeight (g : MGraph) (u e w : Nat) : MGraph :=
  let r := g.edge u e
  let g1 := g.setEdge u e { r with weight := w }
  let g2 := g1.setEdge r.target r.rev { g1.edge r.target r.rev with weight := w }
  let wd1 := update g2.wdeg u (g2.wdeg u + w - r.weight)
  { g2 with wdeg := update wd1 r.target (wd1 r.target + w - r.weight) }

/-- `internalDeleteEdge` (mutable_graph.h:952-973); deleting from an empty vertex exits the program and is a
no-op here (excluded by the preconditions). -/
def internalDelete (g : MGraph) (u e : Nat) : MGraph :=
  if g.len u > e + 1 then
    let g1 := g.setEdge u e (g.edge u (g.len u - 1))
    let g2 := { g1 with len := update g1.len u (g1.len u - 1) }
    let r := g2.edge u e
    g2.setEdge r.target r.rev { g2.edge r.target r.rev with rev := e }
  else { g with len := update g.len u (g.len u - 1) }

/-- `deleteEdge` (mutable_graph.h:412-444): the two swap-with-last blocks are `internalDelete`. -/
def deleteEdge (g : MGraph) (u e : Nat) : MGraph :=
  let r := g.edge u e
  let g1 := g.internalDelete u e
  let g2 := g1.internalDelete r.target r.rev
  let wd1 := update g2.wdeg u (g2.wdeg u - r.weight)
  { g2 with wdeg := update wd1 r.target (wd1 r.target - r.weight), numEdges := g2.numEdges - 2 }

/-- Folding one edge of a vertex that is being merged into `keep`, when `keep` already has edge `ed2` to the same
neighbour `tgt`, with partner index `rev` (mutable_graph.h:455-459, 585-592, 714-731): weights are added
and the neighbour's edge `d.rev` is deleted. -/
def mergePair (g : MGraph) (keep ed2 tgt rev : Nat) (d : RevEdge) : MGraph :=
  let g1 := g.setEdge keep ed2 { g.edge keep ed2 with weight := (g.edge keep ed2).weight + d.weight }
  let g2 := g1.setEdge tgt rev { g1.edge tgt rev with weight := (g1.edge tgt rev).weight + d.weight }
  let g3 := { g2 with wdeg := update g2.wdeg keep (g2.wdeg keep + d.weight), numEdges := g2.numEdges - 2 }
  g3.internalDelete d.target d.rev

/-- The other case: the neighbour's half edge is redirected to `keep`, which gets a new edge
(mutable_graph.h:466-472, 594-601, 737-744). -/
def redirect (g : MGraph) (keep : Nat) (d : RevEdge) : MGraph :=
  let g1 := g.setEdge d.target d.rev { g.edge d.target d.rev with rev := g.len keep, target := keep }
  let g2 := g1.pushEdge keep { target := d.target, weight := d.weight, rev := d.rev }
  { g2 with wdeg := update g2.wdeg keep (g2.wdeg keep + d.weight) }

/-- `contained_in_this[target]` is appended to `contained_in_this[keep]` and its vertices are relocated
(e.g. mutable_graph.h:486-491). -/
def absorb (g : MGraph) (keep target : Nat) : MGraph :=
  { g with
    cont := update (update g.cont keep (g.cont keep ++ g.cont target)) target []
    pos := fun v => if v ∈ g.cont target then keep else g.pos v }

/-- `for (n : contained_in_this[last]) { contained_in_this[slot].emplace_back(n); current_position[n] = slot; }`
(e.g. mutable_graph.h:493-496). -/
def relocate (g : MGraph) (slot last : Nat) : MGraph :=
  { g with
    cont := update g.cont slot (g.cont slot ++ g.cont last)
    pos := fun v => if v ∈ g.cont last then slot else g.pos v }

/-- `vertices[slot] = std::move(vertices.back())` etc. (e.g. mutable_graph.h:498-505). -/
def moveLast (g : MGraph) (slot : Nat) : MGraph :=
  { g with
    len := update g.len slot (g.len (g.n - 1))
    edge := update g.edge slot (g.edge (g.n - 1))
    wdeg := update g.wdeg slot (g.wdeg (g.n - 1))
    part := update g.part slot (g.part (g.n - 1))
    inCut := update g.inCut slot (g.inCut (g.n - 1)) }

/-- `pop_back` on all per-vertex vectors. -/
def popVertex (g : MGraph) : MGraph :=
  { g with n := g.n - 1, contSize := g.contSize - 1 }

/-- Body of the remap loop: `vertices[e.target][e.reverse_edge].target = slot` (e.g. mutable_graph.h:508-511). -/
def remapStep (slot : Nat) (g : MGraph) (e : Nat) : MGraph :=
  let r := g.edge slot e
  g.setEdge r.target r.rev { g.edge r.target r.rev with target := slot }

/-- The remap loop over the edges of the moved vertex. -/
def remap (g : MGraph) (slot : Nat) : MGraph :=
  (List.range (g.len slot)).foldl (remapStep slot) g

/-- Relocation of the last vertex into the freed slot `target`, common tail of `contractSparseTargetNoEdge`
(mutable_graph.h:493-511), `contractEdgeSparseTarget` (536-561) and `contractEdge` (611-634).  If `target`
is itself the last vertex the code self-moves the entry and then iterates over the popped element
(formally undefined, in practice an empty vector): modelled as a plain `pop_back`. -/
def freeSlot (g : MGraph) (target : Nat) : MGraph :=
  if target < g.n - 1 then ((g.relocate target (g.n - 1)).moveLast target).popVertex.remap target
  else g.popVertex

/-- `mergeEdgeSparse` (mutable_graph.h:446-475). -/
def mergeEdgeSparse (node target : Nat) (g : MGraph) (ed : Nat) : MGraph :=
  let d := g.edge target ed
  match (List.range (g.len node)).find? (fun s => (g.edge node s).target == d.target) with
  | some s => g.mergePair node s d.target (g.edge node s).rev d
  | none => g.redirect node d

/-- `contractEdge` (mutable_graph.h:564-642), after the endpoints have been ordered so that
`node < target`. -/
def contractEdgeOrdered (g : MGraph) (node edge : Nat) : MGraph :=
  let e := g.edge node edge
  let target := e.target
  -- `map`: the first edge (other than `edge`) to every neighbour of `node`, as recorded before the loop
  let look := fun t => (List.range (g.len node)).find? (fun s => s != edge && (g.edge node s).target == t)
  let step := fun (h : MGraph) (ed : Nat) =>
    if ed = e.rev then h
    else
      let d := h.edge target ed
      match look d.target with
      | some s => h.mergePair node s d.target (g.edge node s).rev d
      | none => h.redirect node d
  let g1 := (List.range (g.len target)).foldl step g
  let g2 := (g1.absorb node target).freeSlot target
  let g3 := g2.internalDelete node edge
  { g3 with numEdges := g3.numEdges - 2, wdeg := update g3.wdeg node (g3.wdeg node - e.weight),
            lastNode := g3.lastNode - 1 }

/-- `contractEdge` (mutable_graph.h:564-642). -/
def contractEdge (g : MGraph) (node edge : Nat) : MGraph :=
  let r := g.edge node edge
  if r.target < node then g.contractEdgeOrdered r.target r.rev else g.contractEdgeOrdered node edge

/-- `contractEdgeSparseTarget` (mutable_graph.h:515-562). -/
def contractEdgeSparseTarget (g : MGraph) (node edge : Nat) : MGraph :=
  let e := g.edge node edge
  let target := e.target
  if node = target + 1 then g.contractEdge node edge
  else
    let g1 := (List.range (g.len target)).foldl
      (fun h ed => if ed = e.rev then h else h.mergeEdgeSparse node target ed) g
    let g2 := (g1.absorb node target)
    let g3 := if target < g2.n - 1 then g2.relocate target (g2.n - 1) else g2
    let g4 := g3.internalDelete node edge
    let g5 := { g4 with numEdges := g4.numEdges - 2, wdeg := update g4.wdeg node (g4.wdeg node - e.weight),
                        lastNode := g4.lastNode - 1 }
    if target < g5.n - 1 then (g5.moveLast target).popVertex.remap target else g5.popVertex

/-- Local variables of `contractVertexSet`: the graph, the vector `edges` and the `map`. -/
structure CVS where
  g : MGraph
  edges : List RevEdge
  map : Nat → Option (Nat × Nat × Nat)

/-- First loop of `contractVertexSet` (mutable_graph.h:669-684); `S` is `vertex_set`. -/
def cvsFirstStep (S : List Nat) (first : Nat) (s : CVS) (e : Nat) : CVS :=
  let r := s.g.edge first e
  if r.target ∈ S then
    { s with g := { s.g with wdeg := update s.g.wdeg first (s.g.wdeg first - r.weight),
                             numEdges := s.g.numEdges - 1 } }
  else
    { g := s.g.setEdge r.target r.rev { s.g.edge r.target r.rev with rev := s.edges.length }
      edges := s.edges ++ [r]
      map := match s.map r.target with
        | some _ => s.map
        | none => update s.map r.target (some (r.target, r.rev, s.edges.length)) }

/-- Inner body of the second loop of `contractVertexSet` (mutable_graph.h:692-754). -/
def cvsStep (S : List Nat) (first n : Nat) (s : CVS) (e : Nat) : CVS :=
  let d := s.g.edge n e
  if d.target ∈ S then { s with g := { s.g with numEdges := s.g.numEdges - 1 } }
  else match s.map d.target with
    | some (tgt, rev, ed2) =>
      { s with
        g := s.g.mergePair first ed2 tgt rev d
        map := if s.g.len tgt - 1 = rev then update s.map d.target (some (tgt, d.rev, ed2)) else s.map }
    | none =>
      { s with
        g := s.g.redirect first d
        map := update s.map d.target (some (d.target, d.rev, s.g.len first)) }

/-- Body of the last loop of `contractVertexSet` (mutable_graph.h:763-794). -/
def cvsRemove (first : Nat) (g : MGraph) (vtx : Nat) : MGraph :=
  let g2 := (g.absorb first vtx).freeSlot vtx
  { g2 with lastNode := g2.lastNode - 1 }

/-- `contractVertexSet` (mutable_graph.h:644-795); `S` lists the set in iteration order. -/
def contractVertexSet (g : MGraph) (S : List Nat) : MGraph :=
  let vec := S.filter (fun i => decide (i < g.n))
  match vec.min? with
  | none => g
  | some first =>
    if vec.length ≤ 1 then g
    else
      let others := vec.erase first
      let s1 := (List.range (g.len first)).foldl (cvsFirstStep S first) ⟨g, [], fun _ => none⟩
      let g1 := { s1.g with edge := update s1.g.edge first (fun i => s1.edges.getD i ⟨0, 0, 0, 0, 0⟩),
                            len := update s1.g.len first s1.edges.length }
      let s2 := others.foldl
        (fun s n => (List.range (s.g.len n)).foldl (cvsStep S first n) s) ⟨g1, s1.edges, s1.map⟩
      (others.insertionSort (· ≥ ·)).foldl (cvsRemove first) s2.g

/-- `contractSparseTargetNoEdge` (mutable_graph.h:477-513). -/
def contractSparseTargetNoEdge (g : MGraph) (node target : Nat) : MGraph :=
  if node = target + 1 then g.contractVertexSet [node, target]
  else
    let g1 := (List.range (g.len target)).foldl (mergeEdgeSparse node target) g
    let g2 := (g1.absorb node target).freeSlot target
    { g2 with lastNode := g2.lastNode - 1 }

/-- `deleteVertex` (mutable_graph.h:370-409). -/
def deleteVertex (g : MGraph) (node : Nat) : MGraph :=
  let back := g.n - 1
  let g1 := if node < back then
      { g with
        pos := fun v => if v ∈ g.cont node then back else if v ∈ g.cont back then node else g.pos v
        cont := update g.cont node (g.cont back) }
    else g
  let g2 := (List.range (g1.len node)).foldl
    (fun h e =>
      let r := h.edge node e
      let h1 := h.internalDelete r.target r.rev
      { h1 with numEdges := h1.numEdges - 2, wdeg := update h1.wdeg r.target (h1.wdeg r.target - r.weight) }) g1
  let g3 := if node < back then
      (List.range (g2.len back)).foldl
        (fun h e =>
          let r := h.edge back e
          h.setEdge r.target r.rev { h.edge r.target r.rev with target := node }) g2
    else g2
  let g4 := g3.moveLast node
  { g4 with n := g4.n - 1, lastNode := g4.lastNode - 1 }

/-- `resetContainedvertices()` (mutable_graph.h:932-939).  The code leaves the stale entries `current_position[v]`,
`v ≥ n`, in place; they no longer belong to an original vertex, so the model drops them (`posSize := n`). -/
def resetContained (g : MGraph) : MGraph :=
  { g with
    origNodes := g.n
    posSize := g.n
    pos := fun v => if v < g.n then v else g.pos v
    cont := fun p => if p < g.n then [p] else g.cont p }

end MGraph
end VieCut
