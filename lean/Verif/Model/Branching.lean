import Verif.Model.Multicut

/-!
# Model of branching

`lib/algorithms/multicut/edge_selection.h` (`findHeavyVertex`, `findEdgeMultiBranch`) and
`lib/algorithms/multicut/problem_management.h` (`multiBranch`, `singleBranch`, `degreeThreeContraction`).

Configuration `inexact = false`.  What is done with the created problems (`processNewProblem`, sending them to another
process) is not part of this model.
-/

namespace VieCut
open Function

namespace Problem

/-- Locals of `findHeavyVertex`. -/
structure Heavy where
  wgt : Nat := 0
  t : Nat := 0
  e : Nat := 0

/-- `findHeavyVertex` (edge_selection.h:66-90). -/
def heavyVertex (p : Problem) : Nat × Nat :=
  let s := p.tpos.foldl (fun s t => (List.range (p.graph.len t)).foldl (fun (s : Heavy) e =>
    let w := p.graph.wdeg (p.graph.edge t e).target
    if w > s.wgt then ⟨w, t, e⟩ else s) s) {}
  (s.t, s.e)

/-- The first edge of `u` with target `v`. -/
def firstTo (g : MGraph) (u v : Nat) : Option Nat := (List.range (g.len u)).find? (fun e => (g.edge u e).target == v)

/-- `neighbouring_terminals` after the first loop of `findEdgeMultiBranch` (edge_selection.h:213-224). -/
def nbrTerminals (p : Problem) (vtx : Nat) : List (Nat × Nat) :=
  p.tpos.filterMap fun t => (firstTo p.graph t vtx).map fun e => (t, (p.graph.edge t e).weight)

/-- The selection of the terminals `vtx` is merged with (edge_selection.h:210-256); `none` is `UNDEFINED_NODE`.
`std::sort` is modelled by insertion sort; the order of the children is irrelevant. -/
def branchTerminals (p : Problem) (vtx : Nat) : List (Option Nat) :=
  let nt := p.nbrTerminals vtx
  let heavy := nt.foldl (fun m e => max m e.2) 0
  let non := p.graph.wdeg vtx - (nt.map Prod.snd).sum
  let cand := nt.map (fun e => (some e.1, e.2)) ++
    if nt.length < p.terminals.length ∧ non > heavy then [(none, non)] else []
  ((cand.insertionSort (fun a b => a.2 ≥ b.2)).filter (fun e => non + e.2 > heavy ∨ heavy = e.2)).map Prod.fst

/-- `findEdgeMultiBranch` (edge_selection.h:204-259). -/
def findEdgeMultiBranch (p : Problem) : Nat × List (Option Nat) :=
  let vtx := (p.graph.edge p.heavyVertex.1 p.heavyVertex.2).target
  (vtx, p.branchTerminals vtx)

/-- The deletion loop of `multiBranch` (problem_management.h:172-193): edges of `vtx` to terminals other than `ctr`.
`deleteEdge` does not move vertices, so the outer `while` runs once; `fuel` bounds the inner loop. -/
def mbDelete (T : List Nat) (ctr : Option Nat) (vtx : Nat) : Nat → Nat → MGraph × Nat → MGraph × Nat
  | 0, _, s => s
  | fuel + 1, e, s =>
    if e < s.1.len vtx then
      let r := s.1.edge vtx e
      if r.target ∈ T ∧ some r.target ≠ ctr then
        mbDelete T ctr vtx fuel e (s.1.deleteEdge vtx e, s.2 + r.weight)
      else mbDelete T ctr vtx fuel (e + 1) s
    else s

/-- The contraction of the edge to the picked terminal (problem_management.h:195-201). -/
def mbContract (ctr : Option Nat) (vtx : Nat) (g : MGraph) : MGraph :=
  match ctr with
  | none => g
  | some t => match firstTo g vtx t with
    | none => g
    | some e => g.contractEdge vtx e

/-- Body of the loop of `multiBranch` (problem_management.h:153-203): the problem created for `ctr`.  Its
`priority_edge` (only read by `singleBranch`) is always reset here. -/
def mbChild (ots : List Nat) (p : Problem) (vtx : Nat) (ctr : Option Nat) : Problem :=
  let s := mbDelete p.tpos ctr vtx (p.graph.len vtx) 0 (p.graph, 0)
  deleteTermEdges ots { p with
    graph := mbContract ctr vtx s.1
    terminals := p.terminals.map fun t => { t with invalid := true }
    deleted := p.deleted + s.2
    prio := none }

/-- `multiBranch` (problem_management.h:144-214): the problems it creates. -/
def multiBranch (ots : List Nat) (p : Problem) : List Problem :=
  p.findEdgeMultiBranch.2.map (mbChild ots p p.findEdgeMultiBranch.1)

/-! ### Branching on an edge -/

/-- The deletion loop of `degreeThreeContraction` (problem_management.h:105-111). -/
def d3Delete (term vtx : Nat) : Nat → Nat → MGraph × Nat → MGraph × Nat
  | 0, _, s => s
  | fuel + 1, e, s =>
    if e < s.1.len vtx then
      let r := s.1.edge vtx e
      if r.target ≠ term then d3Delete term vtx fuel e (s.1.deleteEdge vtx e, s.2 + r.weight)
      else d3Delete term vtx fuel (e + 1) s
    else s

/-- The condition of `degreeThreeContraction` (problem_management.h:88-103). -/
def d3Applies (g : MGraph) (vtx edge : Nat) : Bool :=
  decide (g.len vtx = 3) &&
  decide ((List.range (g.len vtx)).foldl (fun m e => if (g.edge vtx e).weight > m then (g.edge vtx e).weight else m) 0
    = (g.edge vtx edge).weight)

/-- `del_p` of `singleBranch` (problem_management.h:321-336). -/
def sbDelete (p : Problem) (vtx edge : Nat) : Problem :=
  { p with
    graph := p.graph.deleteEdge vtx edge
    terminals := p.terminals.map fun t =>
      if t.position = vtx ∨ t.position = (p.graph.edge vtx edge).target then t else { t with invalid := true }
    deleted := p.deleted + (p.graph.edge vtx edge).weight
    prio := none
    upper := p.upper + (p.graph.edge vtx edge).weight }

/-- The second child of `singleBranch` (problem_management.h:339-350, 86-118).  The flags of the terminals are not modelled
precisely: all flows count as invalid. -/
def sbContract (ots : List Nat) (p : Problem) (vtx edge : Nat) : Problem :=
  let ts := p.terminals.map fun t => { t with invalid := true }
  if d3Applies p.graph vtx edge then
    let s := d3Delete (p.graph.edge vtx edge).target vtx (p.graph.len vtx) 0 (p.graph, 0)
    deleteTermEdges ots { p with graph := s.1.contractEdge vtx 0, deleted := p.deleted + s.2, terminals := ts }
  else
    deleteTermEdges ots { p with graph := p.graph.contractEdge vtx edge, terminals := ts, prio := none }

/-- `singleBranch` (problem_management.h:304-352): the problems it creates, for global upper bound `gub`. -/
def singleBranch (ots : List Nat) (gub : Nat) (p : Problem) (vtx edge : Nat) : List Problem :=
  (if (p.graph.edge vtx edge).weight + p.deleted < gub then [p.sbDelete vtx edge] else []) ++ [p.sbContract ots vtx edge]

end Problem
end VieCut
