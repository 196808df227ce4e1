import Verif.Model.Branching

/-!
# Model of the rules for the branching edge (lib/algorithms/multicut/edge_selection.h)
-/

namespace VieCut
open Function

namespace Problem

/-- The two nested loops of `findHeavyEdge`, `findVertexWithHighDistance` and `findGlobalHeaviestEdge`: the first pair with the largest
positive `score`, or `(0, 0)`. -/
def scanEdges (ts : List Nat) (len : Nat → Nat) (score : Nat → Nat → Nat) : Nat × Nat :=
  let s := ts.foldl (fun s t => (List.range (len t)).foldl (fun (s : Heavy) e => if score t e > s.wgt then ⟨score t e, t, e⟩ else s) s) {}
  (s.t, s.e)

/-- `findHeavyEdge` (edge_selection.h:25-43). -/
def findHeavyEdge (p : Problem) : Nat × Nat := scanEdges p.tpos p.graph.len fun t e => (p.graph.edge t e).weight

/-- `findVertexWithHighDistance` (edge_selection.h:45-64). -/
def findVertexWithHighDistance (p : Problem) : Nat × Nat :=
  scanEdges p.tpos p.graph.len fun t e => p.graph.wdeg (p.graph.edge t e).target - (p.graph.edge t e).weight

/-- `findGlobalHeaviestEdge` (edge_selection.h:92-109). -/
def findGlobalHeaviestEdge (p : Problem) : Nat × Nat := scanEdges (List.range p.graph.n) p.graph.len fun t e => (p.graph.edge t e).weight

/-- Locals of the first loop of `findEdgeWithManyTerminals`; a missing entry of the hash map is 0. -/
structure Many where
  terms : Nat → Nat := fun _ => 0
  num : Nat := 0
  ngbr : Nat := 0

/-- Body of the first loop (edge_selection.h:121-132); the values of the map have 16 bits. -/
def manyStep (g : MGraph) (t : Nat) (s : Many) (e : Nat) : Many :=
  let v := (g.edge t e).target
  let x := (s.terms v + (g.edge t e).weight) % 2 ^ 16
  { terms := update s.terms v x, num := if x > s.num then x else s.num, ngbr := if x > s.num then v else s.ngbr }

/-- `findEdgeWithManyTerminals` (edge_selection.h:111-149). -/
def findEdgeWithManyTerminals (p : Problem) : Nat × Nat :=
  let g := p.graph
  let m := (p.tpos.foldl (fun s t => (List.range (g.len t)).foldl (manyStep g t) s) ({} : Many)).ngbr
  let r := (List.range (g.len m)).foldl (fun (s : Heavy) e =>
    if (g.edge m e).weight > s.wgt ∧ (g.edge m e).target ∈ p.tpos then ⟨(g.edge m e).weight, (g.edge m e).target, (g.edge m e).rev⟩ else s) {}
  (r.t, r.e)

/-- `prefixsum[i]` of `findRandomEdge` (edge_selection.h:153-159). -/
def prefixLen (p : Problem) (i : Nat) : Nat := ((p.tpos.take i).map p.graph.len).sum

/-- `findRandomEdge` (edge_selection.h:151-171) for the random number `r`; `none` is an access outside a vector. -/
def findRandomEdge (p : Problem) (r : Nat) : Option (Nat × Nat) :=
  ((List.range p.tpos.length).find? fun t => r < p.prefixLen (t + 1)).map fun t => (p.tpos.getD t 0, r - p.prefixLen t)

/-- `findEdgeSingleBranch` (edge_selection.h:261-293) for the random number `r`. -/
def findEdgeSingleBranch (rule : String) (r : Nat) (p : Problem) : Option (Nat × Nat) :=
  match p.prio with
  | some q => some q
  | none =>
    if rule = "random" then p.findRandomEdge r
    else if rule = "heavy" then some p.findHeavyEdge
    else if rule = "heavy_global" then some p.findGlobalHeaviestEdge
    else if rule = "connection" then some p.findEdgeWithManyTerminals
    else if rule = "distance" then some p.findVertexWithHighDistance
    else some p.heavyVertex

end Problem
end VieCut
