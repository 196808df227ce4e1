import Verif.Model.Articulation
import Verif.Model.Branching
import Verif.Model.MulticutBounds
import Verif.Model.LocalSearch
import Verif.Model.PushRelabel
import Verif.Model.NodeHeap
import Verif.Model.Tools
import Verif.Spec.LocalSearch
import Mathlib.Logic.Relation

/-!
# Model of the branch and bound of the multiterminal cut

`lib/algorithms/multicut/branch_multicut.h` (`find_multiterminal_cut`, `solveProblem`, `branchOnEdge`),
`problem_management.h` (`processNewProblem`, `findBestSolution`, the shared bounds), `measurements.h` (`getSolution`),
`mutable_graph.h` (`simplify`).

The worker threads are modelled by a pool of pending tasks: a step takes any task of the pool, runs it up to its next
access to the shared variables and puts back what is left to do.  So every schedule of any number of threads is a
sequence of steps, except that a call of `findBestSolution` is one step (`findBestSteps` below has its separate accesses
to shared variables).

Configuration: `multibranch` (default), not `inexact`, no ILP solver, one process (no MPI), no timeout, enough memory.
The passes of `kernelization` are those proved to keep the optimum (`Pass`); the triangle pass and the contraction of
connectivity classes are left out (`C22_triangle_unsound`, `C22_noi_unsound`), and so are the order and repetition of the
passes: a kernelization is any sequence of passes.
-/

namespace VieCut
open Function

namespace MGraph

/-- `simplify` (mutable_graph.h:919-931): a new graph in which the current vertices are the original ones. -/
def simplify (g : MGraph) : MGraph :=
  let h := (List.range g.n).foldl (fun h u => (g.toGraph.edges u).foldl (fun h e => h.newEdge u e.1 e.2) h.newNode)
    (start g.n)
  { h with part := fun v => if v < g.n then g.part v else h.part v }.finishConstruction

end MGraph

namespace BB

/-- `UNDEFINED_FLOW` (definitions.h:46). -/
def undefinedFlow : Int := 2 ^ 63 - 1

/-- The members of `problem_management` that the worker threads share (problem_management.h:48-53): `global_upper_bound`,
`terminalGUB`, `beforeLSGUB`, `best_solution` and `bestSolutionInitialized`; `seen` is `best_solution` of
`mpi_communication` (mpi_communication.h:225), the best bound that has been announced. -/
structure Shared where
  gub : Int
  tGUB : Nat → Int
  bGUB : Nat → Int
  best : Nat → Nat
  init : Bool
  seen : Int

/-- `UNDEFINED_NODE` (definitions.h:42), which is also the first announced bound (mpi_communication.h:27-28). -/
def undefinedNode : Int := 2 ^ 32 - 1

/-- The state after the constructors (problem_management.h:60-84, mpi_communication.h:27-32). -/
def Shared.start : Shared :=
  { gub := undefinedFlow, tGUB := fun _ => undefinedFlow, bGUB := fun _ => undefinedFlow, best := fun _ => 0, init := false,
    seen := undefinedNode }

/-- `if (last_sent_flow > pm.bestCut()) { … mpic.broadcastImprovedSolution(last_sent_flow); }` (branch_multicut.h:188-191,
mpi_communication.h:54-61). -/
def Shared.announce (s : Shared) : Shared := { s with seen := min s.seen s.gub }

/-- `pm.updateBound(mpic.getGlobalBestSolution())` (branch_multicut.h:194-196, problem_management.h:401-403). -/
def Shared.learn (s : Shared) : Shared := { s with gub := min s.seen s.gub }

/-- The constant parameters: `original_graph`, `original_terminals`, `fixed_vertex` and the option `runLocalSearch`. -/
structure Env where
  G : Graph
  ots : List Nat
  fixed : Nat → Bool
  runLS : Bool

/-- `getSolution` (measurements.h:35-60), without its check in debug mode. -/
def getSolution (p : Problem) : Nat → Nat := fun o => p.graph.part (p.at' o)

/-- `runLocalSearch(problem)` (problem_management.h:396-399). -/
def runLocalSearch (E : Env) (sh : Shared) (p : Problem) : Bool :=
  decide (p.upper < sh.bGUB p.terminals.length) && E.runLS

/-- `checkProblem(problem)` (problem_management.h:392-394). -/
def checkProblem (sh : Shared) (p : Problem) : Bool := decide (p.lower < sh.gub)

/-- `findBestSolution` (problem_management.h:262-302), as if no other thread ran in between.  `r` is the solution after
local search and its reported improvement; `none` is `exit(1)` in `flowValue`. -/
def findBest (E : Env) (sol : Nat → Nat) (k : Nat) (r : (Nat → Nat) × Int) (s : Shared) : Option Shared :=
  (flowValue E.G E.ots sol).map fun (v : Nat) =>
    let prev : Int := v
    if prev > s.bGUB k then s
    else
      let s1 := if prev < s.gub then { s with gub := prev, best := sol, init := true } else s
      let lb := prev - r.2
      let s2 := if lb ≤ s1.tGUB k then { s1 with tGUB := update s1.tGUB k lb, bGUB := update s1.bGUB k prev } else s1
      if lb < s2.gub ∨ s2.init = false then { s2 with gub := lb, best := r.1, init := true } else s2

/-- A possible result of `ls.improveSolution` (local_search.h:319-362) for the solution `sol`: for some permutations, some
block pairs and some iteration order of the hash sets. -/
def LocalSearchResult (E : Env) (sol : Nat → Nat) (r : (Nat → Nat) × Int) : Prop :=
  ∃ (ord : Nat → List Nat → List Nat) (flow : MGraph → Nat × List Nat) (perm1 perm2 : Nat → List Nat)
    (pairs : Nat → List (Nat × Nat)) (fuel : Nat),
    IsOrder ord ∧ LocalSearch.FlowSpec flow ∧ (∀ i, (perm1 i).Nodup ∧ ∀ x ∈ perm1 i, x < E.G.n) ∧
    (∀ i, (perm2 i).Nodup ∧ ∀ x ∈ perm2 i, x < E.G.n) ∧ (∀ i, ∀ ab ∈ pairs i, ab.1 < ab.2 ∧ ab.2 < E.ots.length) ∧
    multicutValue E.G.n E.G.wt sol < fuel ∧
    LocalSearch.improveSolution fuel E.ots.length E.G.n E.fixed E.G ord flow perm1 perm2 pairs sol = some r

/-- Push-relabel for the terminal at `src` ends with flow value `value` and source set `block`
(push_relabel.h:340-461, modelled in Model/PushRelabel), whenever global relabelling is triggered. -/
def FlowResult (g : MGraph) (ts : List Nat) (src : Nat) (value : Int) (block : List Nat) : Prop :=
  ∃ (trigger : Nat → Bool) (N : Nat), ∀ fuel, N ≤ fuel →
    PushRelabel.solve NH.cls.toPQ { g := g, ts := ts, src := src } trigger true fuel = some (value, block)

/-- A possible result of `maximumIsolatingFlow` (maximum_flow.h:202-306). -/
def IsolatingFlow (ots : List Nat) (p p' : Problem) : Prop :=
  ∃ (ord : Nat → List Nat → List Nat) (flow : Nat → List Nat), IsOrder ord ∧
    (∀ (i : Nat) (t : Terminal), (p.setTerminals ots).terminals[i]? = some t →
      ∃ value, FlowResult p.graph (p.setTerminals ots).tpos t.position value (flow i)) ∧
    p' = p.maximumIsolatingFlow ots ord flow

/-- A possible result of `maximumSTFlow` (maximum_flow.h:32-62) for a problem with two terminals. -/
def STFlow (ots : List Nat) (p p' : Problem) : Prop :=
  ∃ (t0 t1 : Terminal) (value : Int) (block : List Nat), p.terminals = [t0, t1] ∧
    FlowResult p.graph p.tpos t0.position value block ∧ p' = p.maximumSTFlow ots value block

/-- The preparation in `solveProblem` (branch_multicut.h:352-360). -/
def prepare (ots : List Nat) (p : Problem) : Problem :=
  (if p.graph.n * 2 < p.graph.origNodes then { p with mapped := p.at', graph := p.graph.simplify } else p).setTerminals ots

/-- The passes of `kernelization` (kernelization_criteria.h:53-110) that keep the optimum, see C22. -/
inductive Pass (ots : List Nat) : Problem → Problem → Prop
  | high (p : Problem) (ord : Nat → List Nat → List Nat) (active : Nat → Bool) (ho : IsOrder ord) :
      Pass ots p ((p.setTerminals ots).contractIfImproved ots ord ((p.setTerminals ots).highDegree active))
  | equal (p : Problem) (ord : Nat → List Nat → List Nat) (hash : List Nat → Nat) (bound : Nat) (active : Nat → Bool)
      (ho : IsOrder ord)
      (hh : ∀ u v, u < p.graph.n → v < p.graph.n →
        hash (((p.graph.toGraph.edges u).map Prod.fst).insertionSort (· ≤ ·)) =
          hash (((p.graph.toGraph.edges v).map Prod.fst).insertionSort (· ≤ ·)) →
        p.graph.len u = p.graph.len v) :
      Pass ots p ((p.setTerminals ots).contractIfImproved ots ord
        ((p.setTerminals ots).equalNeighborhoods hash bound active))
  | low (p : Problem) (ord : Nat → List Nat → List Nat) (ho : IsOrder ord)
      (hn : ∀ o ∈ ots, p.graph.len (p.at' o) = 3 → ∀ e, e < 3 →
        p.graph.len (p.graph.edge (p.at' o) e).target = 1 → (p.graph.edge (p.at' o) e).target ∈ ots.map p.at') :
      Pass ots p ((p.setTerminals ots).contractIfImproved ots ord (p.setTerminals ots).lowDegree)
  | flow (p : Problem) (ord : Nat → List Nat → List Nat) (flows : List (Nat × List Nat)) (ho : IsOrder ord)
      (hlt : ∀ q ∈ flows, q.1 < p.graph.n ∧ ∀ x ∈ q.2, x < p.graph.n)
      (hcut : ∀ q ∈ flows, IsolatingCut p.graph.n p.graph.toGraph.wt (ots.map p.at') q.1 (fun x => decide (x ∈ q.2)))
      (hdis : flows.Pairwise (fun q q' => ∀ x ∈ q.2, x ∉ q'.2)) :
      Pass ots p (p.contractIfImproved ots ord (Problem.flowUnions p.graph.n flows))
  | articulation (p q : Problem) (ord : Nat → List Nat → List Nat) (ho : IsOrder ord)
      (hq : (p.setTerminals ots).articulationPass ots ord = some q) : Pass ots p q

/-- `nonBranchingContraction` (branch_multicut.h:567-574). -/
def Kernelized (ots : List Nat) : Problem → Problem → Prop := Relation.ReflTransGen (Pass ots)

/-- What a thread has left to do, up to its next access to the shared variables. -/
inductive Task
  /-- a problem in a queue, or pulled from it and not yet checked (branch_multicut.h:311-324, and the removal in
  `prepareQueue`, per_thread_problem_queue.h:83-97) -/
  | queued (p : Problem)
  /-- `solveProblem` after `checkProblem` -/
  | checked (p : Problem)
  /-- `solveProblem` after `nonBranchingContraction` -/
  | kernel (p : Problem)
  /-- the argument of `processNewProblem` -/
  | child (p : Problem)
  /-- `processNewProblem` after `maximumSTFlow`; `k` is `numTerminals` -/
  | flow2 (p : Problem) (k : Nat)
  /-- `processNewProblem` after `maximumIsolatingFlow` and `deleteTermEdges` -/
  | flowed (p : Problem) (k : Nat)
  /-- `processNewProblem` after `checkProblem` -/
  | admitted (p : Problem) (k : Nat)
  /-- a call of `findBestSolution` -/
  | record (sol : Nat → Nat) (k : Nat)

/-- No terminal has a neighbour of positive degree: nothing to branch on. -/
def NoBranchVertex (p : Problem) : Prop :=
  ∀ t ∈ p.tpos, ∀ e, e < p.graph.len t → p.graph.wdeg (p.graph.edge t e).target = 0

/-- The recorded labels of `p` cut an edge that has not been deleted. -/
def LabelsCut (p : Problem) : Prop :=
  ∃ u v, u < p.graph.n ∧ v < p.graph.n ∧ p.graph.toGraph.wt u v ≠ 0 ∧ p.graph.part u ≠ p.graph.part v

/-- `Acts E sh t ts sh' stray`: with shared variables `sh`, task `t` runs, leaves the tasks `ts` and the shared
variables `sh'`.  `stray` is not part of the program; it marks the two situations in which the code drops a problem whose
optimum need not have been recorded (`branch`, `few`), and the one in which the bound is raised (`best`). -/
inductive Acts (E : Env) (sh : Shared) : Task → List Task → Shared → Prop → Prop
  /-- `checkProblem` in `solveProblem`, or the removal of problems with too large a lower bound from the queue -/
  | drop (p) : checkProblem sh p = false → Acts E sh (.queued p) [] sh False
  | check (p) : checkProblem sh p = true → Acts E sh (.queued p) [.checked p] sh False
  /-- branch_multicut.h:352-361 -/
  | kernelize (p q) : Kernelized E.ots (prepare E.ots p) q → Acts E sh (.checked p) [.kernel q] sh False
  /-- branch_multicut.h:365-367 -/
  | prune (p) : (p.deleted : Int) > sh.gub → Acts E sh (.kernel p) [] sh False
  /-- `branchOnEdge` without edges (branch_multicut.h:546-552) -/
  | finish (p) : ¬ (p.deleted : Int) > sh.gub → (p.deleteTermEdges E.ots).graph.numEdges = 0 →
      Acts E sh (.kernel p) [.record (getSolution (p.deleteTermEdges E.ots)) (p.deleteTermEdges E.ots).terminals.length] sh False
  /-- `multiBranch` (problem_management.h:144-214) -/
  | branch (p) : ¬ (p.deleted : Int) > sh.gub → (p.deleteTermEdges E.ots).graph.numEdges ≠ 0 →
      Acts E sh (.kernel p) (((p.deleteTermEdges E.ots).multiBranch E.ots).map .child) sh
        (NoBranchVertex (p.deleteTermEdges E.ots))
  /-- problem_management.h:218-222 -/
  | few (p) : p.terminals.length < 2 → runLocalSearch E sh p = true →
      Acts E sh (.child p) [.record (getSolution p) p.terminals.length] sh (LabelsCut p)
  /-- problem_management.h:224-225 -/
  | two (p p') : p.terminals.length = 2 → STFlow E.ots p p' → Acts E sh (.child p) [.flow2 p' p.terminals.length] sh False
  /-- problem_management.h:233-234 -/
  | isolate (p p') : p.terminals.length ≠ 2 → ¬ (p.terminals.length < 2 ∧ runLocalSearch E sh p = true) →
      IsolatingFlow E.ots p p' →
      Acts E sh (.child p) [.flowed (p'.deleteTermEdges E.ots) p.terminals.length] sh False
  /-- problem_management.h:226-230 -/
  | two_record (p k) : runLocalSearch E sh p = true → Acts E sh (.flow2 p k) [.record (getSolution p) k] sh False
  | two_drop (p k) : runLocalSearch E sh p = false → Acts E sh (.flow2 p k) [] sh False
  /-- problem_management.h:235-242 -/
  | empty_record (p k) : p.graph.numEdges = 0 → runLocalSearch E sh { p with upper := p.deleted } = true →
      Acts E sh (.flowed p k) [.record (getSolution p) k] sh False
  | empty_drop (p k) : p.graph.numEdges = 0 → runLocalSearch E sh { p with upper := p.deleted } = false →
      Acts E sh (.flowed p k) [] sh False
  /-- problem_management.h:244 -/
  | reject (p k) : p.graph.numEdges ≠ 0 → checkProblem sh p = false → Acts E sh (.flowed p k) [] sh False
  | admit (p k) : p.graph.numEdges ≠ 0 → checkProblem sh p = true → Acts E sh (.flowed p k) [.admitted p k] sh False
  /-- problem_management.h:245-257 -/
  | enqueue_record (p k) : runLocalSearch E sh p = true →
      Acts E sh (.admitted p k) [.queued p, .record (getSolution p) k] sh False
  | enqueue (p k) : runLocalSearch E sh p = false → Acts E sh (.admitted p k) [.queued p] sh False
  /-- `findBestSolution` -/
  | best (sol k r sh') : LocalSearchResult E sol r → findBest E sol k r sh = some sh' →
      Acts E sh (.record sol k) [] sh' (sh.init = false ∧ sh.gub < sh'.gub)

/-- The first problem (multiterminal_cut.h:280-289, multicut_problem.h:49-60), when every terminal is a single vertex. -/
def firstProblem (g : MGraph) (ots : List Nat) : Problem :=
  { graph := g, terminals := ots.zipIdx.map fun oi => ⟨oi.1, oi.2, true⟩, mapped := id, lower := -1, upper := undefinedFlow,
    deleted := 0, prio := none }

/-- A state of the computation; `exited` means that the process has called `exit(1)`. -/
structure State where
  tasks : List Task
  sh : Shared
  exited : Bool
  stray : Prop

/-- One step: some task runs, or the process exits because `flowValue` is given labels that do not separate the
terminals. -/
inductive Step (E : Env) : State → State → Prop
  | act (l₁ l₂ t ts sh sh' b c) : Acts E sh t ts sh' c →
      Step E ⟨l₁ ++ t :: l₂, sh, false, b⟩ ⟨l₁ ++ ts ++ l₂, sh', false, b ∨ c⟩
  | exit (l₁ l₂ sol k sh b) : flowValue E.G E.ots sol = none →
      Step E ⟨l₁ ++ .record sol k :: l₂, sh, false, b⟩ ⟨l₁ ++ l₂, sh, true, b⟩
  | announce (ts sh b) : Step E ⟨ts, sh, false, b⟩ ⟨ts, sh.announce, false, b⟩
  | learn (ts sh b) : Step E ⟨ts, sh, false, b⟩ ⟨ts, sh.learn, false, b⟩

/-- `find_multiterminal_cut` up to the start of the threads (branch_multicut.h:96-118): the isolating flow gives the
first bound, its solution is recorded while the worker threads run. -/
inductive Init (E : Env) (p : Problem) : State → Prop
  | mk (p') : IsolatingFlow E.ots p p' →
      Init E p ⟨[.queued p', .record (getSolution p') p.terminals.length],
        { Shared.start with gub := min p'.upper Shared.start.gub }, false, False⟩

/-- A finished run and what is returned (branch_multicut.h:173-182): the best solution and its weight. -/
def Returns (E : Env) (p : Problem) (sol : Nat → Nat) (value : Nat) : Prop :=
  ∃ s0 s, Init E p s0 ∧ Relation.ReflTransGen (Step E) s0 s ∧ s.tasks = [] ∧ s.exited = false ∧ s.sh.init = true ∧
    sol = s.sh.best ∧ flowValue E.G E.ots sol = some value

/-! ### The separate accesses of `findBestSolution` -/

/-- A running call of `findBestSolution` for a solution of weight `prev`, which local search turns into `sol'` of weight
`lb`; `pc` is the next access to the shared variables. -/
structure Call where
  sol : Nat → Nat
  prev : Int
  sol' : Nat → Nat
  lb : Int
  k : Nat
  pc : Nat := 0

/-- The next access (problem_management.h:267-301); the copies of the solution are made under a mutex, nothing else is. -/
def Call.step (c : Call) (s : Shared) : Call × Shared :=
  match c.pc with
  | 0 => ({ c with pc := if c.prev > s.bGUB c.k then 9 else 1 }, s)
  | 1 => ({ c with pc := if c.prev < s.gub then 2 else 4 }, s)
  | 2 => ({ c with pc := 3 }, { s with gub := c.prev })
  | 3 => ({ c with pc := 4 }, { s with best := c.sol, init := true })
  | 4 => ({ c with pc := if c.lb ≤ s.tGUB c.k then 5 else 6 }, s)
  | 5 => ({ c with pc := 6 }, { s with tGUB := update s.tGUB c.k c.lb, bGUB := update s.bGUB c.k c.prev })
  | 6 => ({ c with pc := if c.lb < s.gub ∨ s.init = false then 7 else 9 }, s)
  | 7 => ({ c with pc := 8 }, { s with gub := c.lb })
  | 8 => ({ c with pc := 9 }, { s with best := c.sol', init := true })
  | _ => (c, s)

/-- Two threads in `findBestSolution`; the schedule says who makes the next access (`false`: the first). -/
def runCalls (a b : Call) (s : Shared) : List Bool → Call × Call × Shared
  | [] => (a, b, s)
  | false :: l => runCalls (a.step s).1 b (a.step s).2 l
  | true :: l => runCalls a (b.step s).1 (b.step s).2 l

end BB
end VieCut
