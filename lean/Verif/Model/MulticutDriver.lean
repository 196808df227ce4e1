import Verif.Model.BranchBound
import Verif.Model.SCC

/-!
# Model of `lib/algorithms/multicut/multiterminal_cut.h`: `multicut` and `splitConnectedComponents`

`term v` is `terminalMapping[v]`, with `none` for `UNDEFINED_NODE`; `k` is `config->num_terminals`.  Reading or writing a
vector outside its bounds is undefined behaviour (`none`), and so is `exit(1)`.
-/

namespace VieCut
namespace Driver
open Function

/-- One entry of each of the vectors `problems`, `originalGraphs`, `fixedVertex` and `globalTerminalIndex`
(multiterminal_cut.h:206-208, 240).  `comp` is the component it was made from; the code does not store it. -/
structure Part where
  comp : Nat
  orig : MGraph
  names : List Nat
  problem : Problem
  fixed : Nat → Bool
  index : List Nat

/-- The results of `splitConnectedComponents` other than the component labels (multiterminal_cut.h:295-302);
`none` is `UNDEFINED_NODE`. -/
structure Split where
  parts : List Part
  nodeProblem : Nat → Option Nat
  position : Nat → Option Nat
  oneTerm : Nat → Option Nat

/-- `terminalInProblem` and `numTerminalsInProblem` (multiterminal_cut.h:219-220). -/
structure Seen where
  present : Nat → Nat → Bool
  num : Nat → Nat

/-- Loop body for vertex `i` (multiterminal_cut.h:227-233). -/
def seeStep (term : Nat → Option Nat) (label : Nat → Option Nat) (s : Seen) (i : Nat) : Seen :=
  match term i with
  | none => s
  | some t =>
    let c := (label i).getD 0
    if s.present c t then s
    else { present := update s.present c (update (s.present c) t true), num := update s.num c (s.num c + 1) }

/-- The loop over all vertices (multiterminal_cut.h:226-234). -/
def see (n : Nat) (term : Nat → Option Nat) (label : Nat → Option Nat) : Seen :=
  (List.range n).foldl (seeStep term label) { present := fun _ _ => false, num := fun _ => 0 }

/-- The loop that finds the terminal of a component with one terminal (multiterminal_cut.h:244-249). -/
def lastPresent (k : Nat) (present : Nat → Bool) : Option Nat :=
  (List.range k).foldl (fun t i => if present i then some i else t) none

/-- `termBlocks` (multiterminal_cut.h:263-264, 274-277): `names[i]` is vertex `i` of the component. -/
def termBlocks (k : Nat) (term : Nat → Option Nat) (names : List Nat) : List (List Nat) :=
  names.zipIdx.foldl (fun tb ni => match term ni.1 with
    | some t => tb.modify t (· ++ [ni.2])
    | none => tb) (List.replicate k [])

/-- `problemTerms` and `globalTerminalIndex.back()` (multiterminal_cut.h:280-287). -/
def problemTerms (blocks : List (List Nat)) : List Terminal × List Nat :=
  blocks.zipIdx.foldl (fun s bt => match bt.1 with
    | [] => s
    | x :: _ => (s.1 ++ [⟨x, s.1.length, true⟩], s.2 ++ [bt.2])) ([], [])

/-- The problem of a component with at least two terminals (multiterminal_cut.h:253-292).  `contractIsolatingBlocks` works
on a copy of the problem that shares the graph, so the graph is contracted and the positions of the terminals are
not updated. -/
def makePart (g : MGraph) (k : Nat) (term : Nat → Option Nat) (label : Nat → Option Nat)
    (ord : Nat → List Nat → List Nat) (c : Nat) : Part :=
  let ex := extractBlockM g (fun v => label v == some c)
  let blocks := termBlocks k term ex.2.1
  let pt := problemTerms blocks
  let p : Problem :=
    { graph := ex.1, terminals := pt.1, mapped := id, lower := -1, upper := BB.undefinedFlow, deleted := 0, prio := none }
  { comp := c
    orig := ex.1
    names := ex.2.1
    problem := { p with graph := (p.contractIsolatingBlocks ord blocks).graph }
    fixed := fun i => decide (i < ex.2.1.length) && (term (ex.2.1.getD i 0)).isSome
    index := pt.2 }

/-- `nodeProblemMapping[n] = problem; … positionInProblem[n] = i` for all vertices of the component
(multiterminal_cut.h:266-273); `none` if a vertex already has a position. -/
def place (c : Nat) (names : List Nat) (s : (Nat → Option Nat) × (Nat → Option Nat)) :
    Option ((Nat → Option Nat) × (Nat → Option Nat)) :=
  names.zipIdx.foldl (fun s ni => s.bind fun s =>
    if s.2 ni.1 = none then some (update s.1 ni.1 (some c), update s.2 ni.1 (some ni.2)) else none) (some s)

/-- Loop body for component `c` (multiterminal_cut.h:242-293). -/
def splitStep (g : MGraph) (k : Nat) (term : Nat → Option Nat) (label : Nat → Option Nat) (seen : Seen)
    (ord : Nat → Nat → List Nat → List Nat) (s : Split) (c : Nat) : Option Split :=
  let one := if seen.num c = 1 then update s.oneTerm c (lastPresent k (seen.present c)) else s.oneTerm
  if 2 ≤ seen.num c then
    let q := makePart g k term label (ord c) c
    (place c q.names (s.nodeProblem, s.position)).map fun np =>
      { parts := s.parts ++ [q], nodeProblem := np.1, position := np.2, oneTerm := one }
  else some { s with oneTerm := one }

/-- `splitConnectedComponents` (multiterminal_cut.h:196-303): the component labels and the rest.  `ord c` is the iteration
order of the hash sets when the terminal blocks of component `c` are contracted. -/
def splitComponents (g : MGraph) (k : Nat) (term : Nat → Option Nat) (ord : Nat → Nat → List Nat → List Nat) :
    Option ((Nat → Option Nat) × Split) :=
  (sccMutable g none).bind fun r =>
    if ∀ i, i < g.n → ∀ t ∈ term i, t < k then
      ((List.range r.2.1).foldl (fun s c => s.bind fun s => splitStep g k term r.1 (see g.n term r.1) ord s c)
        (some { parts := [], nodeProblem := fun _ => none, position := fun _ => none, oneTerm := fun _ => none })).map
        fun s => (r.1, s)
    else none

/-- `p_terminals` (multiterminal_cut.h:111-114). -/
def Part.ots (q : Part) : List Nat := q.problem.terminals.map Terminal.position

/-- The parameters of `branch_multicut` (multiterminal_cut.h:119). -/
def Part.env (q : Part) : BB.Env := ⟨q.orig.toGraph, q.ots, q.fixed, true⟩

/-- The block of vertex `i` in the written solution (multiterminal_cut.h:131-147). -/
def writeBlock (k : Nat) (label : Nat → Option Nat) (s : Split) (sols : List (List Nat)) (i : Nat) : Option Nat :=
  (match s.nodeProblem i with
    | none => some ((s.oneTerm ((label i).getD 0)).getD 0)
    | some pr => do
      let sol ← sols[pr]?
      let b ← sol[(s.position i).getD 0]?
      let idx ← (s.parts.map Part.index)[pr]?
      idx[b]?).bind fun b => if b < k then some b else none

/-- The written solution (multiterminal_cut.h:129-153); `blocksize` has `k` entries. -/
def writeSolution (n k : Nat) (label : Nat → Option Nat) (s : Split) (sols : List (List Nat)) : Option (List Nat) :=
  (List.range n).foldl (fun r i => r.bind fun l => (writeBlock k label s sols i).map fun b => l ++ [b]) (some [])

/-- `multicut` (multiterminal_cut.h:92-156): `results` are the pairs returned by `find_multiterminal_cut` for the problems, in
order; the result is the returned sum and the written solution. -/
def multicut (g : MGraph) (k : Nat) (term : Nat → Option Nat) (ord : Nat → Nat → List Nat → List Nat)
    (results : List (List Nat × Nat)) : Option (Nat × Option (List Nat)) :=
  (splitComponents g k term ord).map fun ls =>
    ((results.map Prod.snd).sum, writeSolution g.n k ls.1 ls.2 (results.map Prod.fst))

end Driver
end VieCut
