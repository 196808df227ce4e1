import Verif.Model.UnionFind
import Verif.Model.MutableContract

/-!
# Model of the multiterminal-cut problem state and its reductions

`lib/algorithms/multicut/{multicut_problem,graph_contraction,kernelization_criteria}.h`,
`lib/algorithms/misc/equal_neighborhood.h` and the union step of `maximum_flow.h`.

`active` vectors only decide which vertices a pass looks at; they are arbitrary arguments of the passes here, so the
bookkeeping of `active_n`/`active_c` (kernelization_criteria.h:50-51, 105-106, 146-160) is not modelled.
-/

namespace VieCut
open Function

/-- `struct terminal` (multicut_problem.h:27-41). -/
structure Terminal where
  position : Nat
  origId : Nat
  invalid : Bool
deriving DecidableEq, Repr

/-- `struct multicut_problem` (multicut_problem.h:43-203).  `mapped` is the composition of the vectors in `mappings`
(lines 79-85); the vertex weights are unbounded; `finished_blockpairs` is not modelled (it is never read by the
code modelled here). -/
structure Problem where
  graph : MGraph
  terminals : List Terminal
  mapped : Nat → Nat
  lower : Int
  upper : Int
  deleted : Nat
  prio : Option (Nat × Nat)

namespace Problem

/-- `graph->getCurrentPosition(mapped(o))`. -/
def at' (p : Problem) (o : Nat) : Nat := p.graph.pos (p.mapped o)

/-- `n == 0 || invalid_flows[node]`, where `invalid_flows` was filled in the order of the vector
(graph_contraction.h:114-118, 127-128). -/
def invalidFlag (ts : List Terminal) (node : Nat) : Bool :=
  match ts.reverse.find? (fun t => t.position == node) with
  | none => true
  | some t => t.invalid

/-- `graph_contraction::setTerminals` (graph_contraction.h:112-132). -/
def setTerminals (ots : List Nat) (p : Problem) : Problem :=
  { p with terminals := ots.zipIdx.filterMap fun oi =>
      if p.graph.len (p.at' oi.1) > 0 ∧ p.at' oi.1 < p.graph.n then
        some ⟨p.at' oi.1, oi.2, invalidFlag p.terminals (p.at' oi.1)⟩
      else none }

/-- The positions of the current terminals. -/
def tpos (p : Problem) : List Nat := p.terminals.map Terminal.position

/-- `terminals[v]` / `terminals.count(v) > 0`. -/
def isTerm (p : Problem) (v : Nat) : Bool := decide (v ∈ p.tpos)

/-- Locals of `deleteTermEdges`: graph, `del_weight` and the terminals (whose flags change). -/
structure DTE where
  g : MGraph
  del : Nat
  ts : List Terminal

/-- Body of the `do … while` loop of `deleteTermEdges` (graph_contraction.h:87-100); `T` is `terminal_set`. -/
def dteStep (T : List Nat) (term : Nat) (s : DTE) (e : Nat) : DTE :=
  let tgt := (s.g.edge term e).target
  if tgt ∈ T then
    { g := s.g.deleteEdge term e
      del := s.del + (s.g.edge term e).weight
      ts := s.ts.map fun t => if t.position ≠ term ∧ t.position ≠ tgt then { t with invalid := true } else t }
  else s

/-- Loop of `deleteTermEdges` for one terminal (graph_contraction.h:83-102): edge indices from the last to the first. -/
def dteTerm (T : List Nat) (s : DTE) (term : Nat) : DTE :=
  (List.range (s.g.len term)).reverse.foldl (dteStep T term) s

/-- `graph_contraction::deleteTermEdges` (graph_contraction.h:70-110). -/
def deleteTermEdges (ots : List Nat) (p : Problem) : Problem :=
  let p1 := p.setTerminals ots
  let s := p1.tpos.foldl (dteTerm p1.tpos) ⟨p1.graph, 0, p1.terminals⟩
  setTerminals ots { p1 with
    graph := s.g
    terminals := s.ts
    deleted := p1.deleted + s.del
    prio := if s.del > 0 then none else p1.prio }

/-- `contractIfImproved` (kernelization_criteria.h:112-170).  `ord` is the iteration order of the `unordered_set`s. -/
def contractIfImproved (ots : List Nat) (ord : Nat → List Nat → List Nat) (uf : UF) (p : Problem) : Problem :=
  if uf.cnt < p.graph.n then
    deleteTermEdges ots (setTerminals ots
      { p with graph := p.graph.contractVertexsets (fuLoop p.graph.n uf).rev ord, prio := none })
  else p

/-! ### Degree-one and degree-two vertices -/

/-- Loop body of `lowDegreeContraction` (kernelization_criteria.h:182-211). -/
def lowStep (g : MGraph) (term : Nat → Bool) (uf : UF) (n : Nat) : UF :=
  if term n then uf
  else if g.len n = 1 then
    let tgt := (g.edge n 0).target
    let uf1 := (uf.union n tgt).2
    if g.len tgt = 3 then
      let reverse := (g.edge n 0).rev
      let r1 := g.edge tgt (0 + if reverse = 0 then 1 else 0)
      let r2 := g.edge tgt (1 + if reverse ≤ 1 then 1 else 0)
      (uf1.union tgt (if r1.weight ≥ r2.weight then r1.target else r2.target)).2
    else uf1
  else if g.len n = 2 then
    let r1 := g.edge n 0
    let r2 := g.edge n 1
    (uf.union n (if r1.weight ≥ r2.weight then r1.target else r2.target)).2
  else uf

/-- `lowDegreeContraction` (kernelization_criteria.h:172-213), after its call of `setTerminals`. -/
def lowDegree (p : Problem) : UF :=
  (List.range p.graph.n).foldl (lowStep p.graph p.isTerm) (UF.mk' p.graph.n)

/-! ### Heavy edges -/

/-- Locals of the inner loop of `highDegreeContraction` (kernelization_criteria.h:236-240). -/
structure HD where
  non : Nat := 0
  maxw : Nat := 0
  maxt : Nat := 0
  second : Nat := 0

/-- The bookkeeping of the two heaviest terminal edges (kernelization_criteria.h:248-258). -/
def hdTerm (s : HD) (tgt wgt : Nat) : HD :=
  if wgt > s.maxw then { s with second := s.maxw, maxw := wgt, maxt := tgt }
  else if wgt > s.second then { s with second := wgt } else s

/-- The inner loop and the check after it (kernelization_criteria.h:244-275): the vertex to merge with, if any. -/
def hdScan (term : Nat → Bool) (deg : Nat) : List (Nat × Nat) → HD → Option Nat
  | [], s => if s.maxw > s.non + s.second then some s.maxt else none
  | e :: rest, s =>
    let s1 := if term e.1 then hdTerm s e.1 e.2 else s
    if e.2 * 2 ≥ deg then some e.1
    else hdScan term deg rest (if term e.1 then s1 else { s1 with non := s1.non + e.2 })

/-- Loop body of `highDegreeContraction` (kernelization_criteria.h:227-276). -/
def highStep (g : MGraph) (term active : Nat → Bool) (uf : UF) (n : Nat) : UF :=
  if active (g.rep n) = false then uf
  else if term n then uf
  else
    let r := uf.find n
    if r.1 ≠ n then r.2
    else match hdScan term (g.wdeg n) (g.toGraph.edges n) {} with
      | some t => (r.2.union n t).2
      | none => r.2

/-- `highDegreeContraction` (kernelization_criteria.h:215-279), after its call of `setTerminals`. -/
def highDegree (active : Nat → Bool) (p : Problem) : UF :=
  (List.range p.graph.n).foldl (highStep p.graph p.isTerm active) (UF.mk' p.graph.n)

/-! ### Triangles -/

/-- Locals of `triangleDetection`: union-find and `marked`. -/
structure Tri where
  uf : UF
  marked : Nat → Option Nat

/-- `heavy_v = (deg v <= (a + b) * 2) && uf.Find(v) == v` (kernelization_criteria.h:348-359). -/
def triHeavy (g : MGraph) (uf : UF) (v a b : Nat) : Bool × UF :=
  if g.wdeg v ≤ (a + b) * 2 then (decide ((uf.find v).1 = v), (uf.find v).2) else (false, uf)

/-- The innermost block (kernelization_criteria.h:332-368) for the triangle `v1 v2 v3`; the `exit(1)` branch (the
marked edge of `v1` does not lead to `v3`) is a no-op here. -/
def triMerge (g : MGraph) (v1 e1 v2 e2 v3 e3 : Nat) (uf : UF) : UF :=
  if (g.edge v1 e3).target = v3 then
    let w1 := (g.edge v1 e1).weight
    let w2 := (g.edge v2 e2).weight
    let w3 := (g.edge v1 e3).weight
    let h1 := triHeavy g uf v1 w1 w3
    let h2 := triHeavy g h1.2 v2 w1 w2
    let h3 := triHeavy g h2.2 v3 w2 w3
    let u1 := if h1.1 && h2.1 then (h3.2.union v1 v2).2 else h3.2
    let u2 := if h1.1 && h3.1 then (u1.union v1 v3).2 else u1
    if h2.1 && h3.1 then (u2.union v2 v3).2 else u2
  else uf

/-- Loop body of `triangleDetection` for `v1` (kernelization_criteria.h:296-379); `done` is never set. -/
def triStep (g : MGraph) (term active : Nat → Bool) (s : Tri) (v1 : Nat) : Tri :=
  if active (g.rep v1) = false then s
  else if term v1 then s
  else
    let es := List.range (g.len v1)
    let m1 := es.foldl (fun m e => if (g.edge v1 e).target > v1 then update m (g.edge v1 e).target (some e) else m)
      s.marked
    let maxwgt := es.foldl (fun m e => if (g.edge v1 e).weight > m then (g.edge v1 e).weight else m) 0
    if maxwgt * 4 < g.wdeg v1 then
      { s with marked := es.foldl (fun m e => update m (g.edge v1 e).target none) m1 }
    else
      es.foldl (fun s e1 =>
        let v2 := (g.edge v1 e1).target
        if v2 > v1 ∧ term v2 = false then
          let s1 := (List.range (g.len v2)).foldl (fun s e2 =>
            let v3 := (g.edge v2 e2).target
            match s.marked v3 with
            | some e3 => if v3 > v2 ∧ term v3 = false then { s with uf := triMerge g v1 e1 v2 e2 v3 e3 s.uf } else s
            | none => s) s
          { s1 with marked := update s1.marked v2 none }
        else s) { s with marked := m1 }

/-- `triangleDetection` (kernelization_criteria.h:281-381), after its call of `setTerminals`. -/
def triangle (active : Nat → Bool) (p : Problem) : UF :=
  ((List.range p.graph.n).foldl (triStep p.graph p.isTerm active) ⟨UF.mk' p.graph.n, fun _ => none⟩).uf

/-! ### Equal neighbourhoods -/

/-- The neighbours of `v` with weights, sorted by neighbour (`ngbrs_n`, `pairs` comparator,
equal_neighborhood.h:83-97), leaving out neighbour `skip`. -/
def nbrList (g : MGraph) (v : Nat) (skip : Option Nat) : List (Nat × Nat) :=
  ((g.toGraph.edges v).filter (fun e => some e.1 != skip)).insertionSort (fun a b => a.1 ≤ b.1)

/-- The comparison loop (equal_neighborhood.h:98-104, 166-172): only the indices of the first list are compared.
Reading the second list out of range is undefined in the code; the model reports a difference. -/
def sameNbrs (a b : List (Nat × Nat)) : Bool := (List.range a.length).all fun i => decide (a[i]? = b[i]?)

/-- State of `findEqualNeighborhoodsNonNeighbors`: the multimap `results` and the union-find. -/
structure ENS where
  results : List (Nat × Nat)
  uf : UF

/-- Loop body of `findEqualNeighborhoodsNonNeighbors` (equal_neighborhood.h:51-114).  `hash` is the combined hash of
the sorted neighbour list, `bound` the configured `neighborhood_degrees`. -/
def enStep (hash : List Nat → Nat) (bound : Nat) (g : MGraph) (term active : Nat → Bool) (s : ENS) (n : Nat) : ENS :=
  if active (g.rep n) = false then s
  else if term n then s
  else if g.len n ≤ bound ∧ g.len n > 0 then
    let seed := hash (((g.toGraph.edges n).map Prod.fst).insertionSort (· ≤ ·))
    let hits := s.results.filter (fun r => r.1 == seed)
    if hits = [] then { s with results := s.results ++ [(seed, n)] }
    else { s with uf := hits.foldl (fun uf r =>
            if term r.2 then uf
            else if sameNbrs (nbrList g n none) (nbrList g r.2 none) then (uf.union n r.2).2 else uf) s.uf }
  else s

/-- Loop body of `findEqualNeighborhoodsNeighbors` (equal_neighborhood.h:126-180). -/
def enNbrStep (bound : Nat) (g : MGraph) (term active : Nat → Bool) (uf : UF) (n : Nat) : UF :=
  if active (g.rep n) = false then uf
  else if term n then uf
  else if g.len n ≤ bound ∧ g.len n > 0 then
    (g.toGraph.edges n).foldl (fun uf e =>
      if term e.1 = false ∧ g.len n = g.len e.1 ∧ g.wdeg n = g.wdeg e.1 ∧
          sameNbrs (nbrList g n (some e.1)) (nbrList g e.1 (some n)) then (uf.union n e.1).2 else uf) uf
  else uf

/-- `findEqualNeighborhoods` (equal_neighborhood.h:183-190). -/
def equalNeighborhoods (hash : List Nat → Nat) (bound : Nat) (active : Nat → Bool) (p : Problem) : UF :=
  let vs := List.range p.graph.n
  let s := vs.foldl (enStep hash bound p.graph p.isTerm active) ⟨[], UF.mk' p.graph.n⟩
  vs.foldl (enNbrStep bound p.graph p.isTerm active) s.uf

/-! ### Flows from non-terminals -/

/-- The unions of `nonTerminalFlow` (maximum_flow.h:148-150, 184-186, 190-197): every element of a source set is
united with the first vertex of the flow.  `flows` lists (vertex, source set); the choice of the vertices and the
flow computation itself are inputs. -/
def flowUnions (n : Nat) (flows : List (Nat × List Nat)) : UF :=
  flows.foldl (fun uf rs => rs.2.foldl (fun uf s => (uf.union s rs.1).2) uf) (UF.mk' n)

/-! ### Isolating blocks -/

/-- The first loop of `contractIsolatingBlocks` (graph_contraction.h:34-50): blocks with one vertex contribute
nothing, vertices already in an earlier base are skipped.  Returns the bases (as current vertices) and
`already_contracted`. -/
def isoBases (blocks : List (List Nat)) : List (List Nat) × List Nat :=
  blocks.foldl (fun s b =>
    if b.length > 1 then
      b.foldl (fun s n => if n ∈ s.2 then s else (s.1.modify (s.1.length - 1) (· ++ [n]), s.2 ++ [n]))
        (s.1 ++ [[]], s.2)
    else (s.1 ++ [[]], s.2)) ([], [])

/-- `contractIsolatingBlocks` (graph_contraction.h:28-68). -/
def contractIsolatingBlocks (ord : Nat → List Nat → List Nat) (blocks : List (List Nat)) (p : Problem) : Problem :=
  { p with graph := p.graph.contractVertexsets (isoBases blocks).1 ord }

end Problem
end VieCut
