import Verif.Model.Graph
import Verif.Model.MutableHistory
import Mathlib.Logic.Function.Basic

/-!
# Model of `contraction::contractGraphSparse` with several threads (lib/parallel/coarsening/contract_graph.h:292-449)

The parallel region has three parts, separated by barriers: the threads collect the weights between blocks in a concurrent
hash table (342-373), one thread inserts the contested edge and computes the positions of the adjacency lists (375-408), and
the threads write the edges (410-434).  In the first and the third part a step of a thread contains one access to shared
memory.  Distribution of the vertices and interleaving are arbitrary.  The hash table (`growt::uaGrow`, a library) is
assumed to be linearizable: an `insert_or_update` is one step.  Weights and positions do not wrap around.  The counter `e` of
the new graph, which `new_edge_and_reverse` changes without synchronisation and nobody reads afterwards, is left out.
-/

namespace VieCut
open Function

namespace PCT

/-- `get_uint64_from_pair` (contract_graph.h:49-55). -/
def pack (a b : Nat) : Nat := min a b * 2 ^ 32 + max a b

/-- `get_pair_from_uint64(data).first` (contract_graph.h:57-62). -/
def fst (k : Nat) : Nat := k / 2 ^ 32

/-- `get_pair_from_uint64(data).second`. -/
def snd (k : Nat) : Nat := k % 2 ^ 32

/-- `contested_edge` (contract_graph.h:300-325) for the selected blocks `(block0, block1)`; which blocks are selected depends on
their sizes and is arbitrary here. -/
def contestedKey : Option (Nat × Nat) → Nat
  | none => 0
  | some b => pack b.2 b.1

/-- Instructions of a thread in the first part: `insert_or_update(k, w)`, `++degrees[v]` (atomic), and
`contested_weight += w` (local). -/
inductive Instr where
  | upd (k w p q : Nat)
  | incr (v : Nat)
  | own (w : Nat)
deriving DecidableEq, Repr

/-- Body of the loop over the edges of `n` (contract_graph.h:345-372). -/
def edgeCode (φ : Nat → Nat) (contested : Nat) (n : Nat) (e : Nat × Nat) : List Instr :=
  let p := φ n
  let q := φ e.1
  if q ≥ p then []
  else if pack p q ≠ contested then [.upd (pack p q) e.2 p q] else [.own e.2]

/-- What a thread does that handles the vertices `vs` (contract_graph.h:342-373). -/
def code (G : Graph) (φ : Nat → Nat) (contested : Nat) (vs : List Nat) : List Instr :=
  vs.flatMap fun n => (G.edges n).flatMap (edgeCode φ contested n)

/-- Shared memory (`new_edges`, `degrees`) and the threads (remaining instructions, `my_keys`, `contested_weight`). -/
structure St where
  table : Nat → Option Nat
  degrees : Nat → Nat
  code : Nat → List Instr
  keys : Nat → List Nat
  own : Nat → Nat

/-- Beginning of the parallel region (contract_graph.h:327-341). -/
def start (G : Graph) (φ : Nat → Nat) (contested : Nat) (work : Nat → List Nat) : St :=
  { table := fun _ => none, degrees := fun _ => 0, code := fun t => code G φ contested (work t), keys := fun _ => [],
    own := fun _ => 0 }

/-- One step of thread `t`.  If `insert_or_update` inserted the key, the thread increments two degrees and stores the key
(contract_graph.h:356-366). -/
def step (s : St) (t : Nat) : St :=
  match s.code t with
  | [] => s
  | .upd k w p q :: r =>
    match s.table k with
    | none => { s with table := update s.table k (some w), code := update s.code t (.incr p :: .incr q :: r),
                       keys := update s.keys t (s.keys t ++ [k]) }
    | some x => { s with table := update s.table k (some (x + w)), code := update s.code t r }
  | .incr v :: r => { s with degrees := update s.degrees v (s.degrees v + 1), code := update s.code t r }
  | .own w :: r => { s with code := update s.code t r, own := update s.own t (s.own t + w) }

/-- First part of the parallel region. -/
def collect (G : Graph) (φ : Nat → Nat) (contested : Nat) (work : Nat → List Nat) (sched : List Nat) : St :=
  sched.foldl step (start G φ contested work)

/-- The contested edge (contract_graph.h:375-395): the threads add up their local sums, thread `τ` inserts the edge. -/
def insertContested (T : Nat) (τ : Nat) (blocks : Option (Nat × Nat)) (s : St) : St :=
  match blocks with
  | none => s
  | some b =>
    let k := contestedKey blocks
    let sum := ((List.range T).map s.own).sum
    if k > 0 ∧ sum > 0 then
      { s with table := update s.table k (some (match s.table k with | none => sum | some x => x + sum)),
               keys := update s.keys τ (s.keys τ ++ [k]),
               degrees := let d := update s.degrees b.1 (s.degrees b.1 + 1); update d b.2 (d b.2 + 1) }
    else s

/-- `cur_degrees[p]` and `m_nodes[p].firstEdge` after the loop of lines 402-406. -/
def first (degrees : Nat → Nat) (p : Nat) : Nat := ((List.range p).map degrees).sum

/-- Position of a thread in the third part, for the key `k`.  `readA`, `incA`, `casA`: lines 415-421; `readB`, `incB`, `casB`:
lines 423-429; `writeA`, `writeB`: the two assignments of `new_edge_and_reverse` (graph_access.h:112-113). -/
inductive PC where
  | idle
  | readA (k : Nat)
  | incA (k fd : Nat)
  | casA (k fd new : Nat)
  | readB (k fd : Nat)
  | incB (k fd sd : Nat)
  | casB (k fd sd new : Nat)
  | writeA (k fd sd : Nat)
  | writeB (k sd : Nat)
deriving DecidableEq, Repr

/-- A thread: remaining keys, position. -/
structure Thr where
  keys : List Nat
  pc : PC

/-- Shared memory (`cur_degrees`, the edges of the new graph) and threads.  `slots` is a ghost variable: the keys that have got
a position in the list of a vertex, in the order of the positions. -/
structure Wr where
  cur : Nat → Nat
  edges : Nat → Nat × Nat
  thr : Nat → Thr
  slots : Nat → List Nat

/-- Beginning of the third part (contract_graph.h:398-410): all edges are `Edge(0)` (graph_access.h:40, 101). -/
def startWrite (s : St) : Wr :=
  { cur := first s.degrees, edges := fun _ => (0, 1), thr := fun t => { keys := s.keys t, pc := .idle }, slots := fun _ => [] }

/-- Continue thread `t` at `p`. -/
def Wr.goto (s : Wr) (t : Nat) (p : PC) : Wr := { s with thr := update s.thr t { s.thr t with pc := p } }

/-- A successful compare-and-swap of `cur_degrees[v]` for key `k`. -/
def Wr.take (s : Wr) (v k new : Nat) : Wr :=
  { s with cur := update s.cur v new, slots := update s.slots v (s.slots v ++ [k]) }

/-- One step of thread `t`; `weight k` is the value that `handle.find(k)` returns (contract_graph.h:412). -/
def stepWrite (weight : Nat → Nat) (s : Wr) (t : Nat) : Wr :=
  match (s.thr t).pc with
  | .idle => match (s.thr t).keys with
    | [] => s
    | k :: ks => { s with thr := update s.thr t { keys := ks, pc := .readA k } }
  | .readA k => s.goto t (.incA k (s.cur (fst k)))
  | .incA k fd => s.goto t (.casA k fd (s.cur (fst k) + 1))
  | .casA k fd new => if s.cur (fst k) = fd then (s.take (fst k) k new).goto t (.readB k fd) else s.goto t (.readA k)
  | .readB k fd => s.goto t (.incB k fd (s.cur (snd k)))
  | .incB k fd sd => s.goto t (.casB k fd sd (s.cur (snd k) + 1))
  | .casB k fd sd new =>
    if s.cur (snd k) = sd then (s.take (snd k) k new).goto t (.writeA k fd sd) else s.goto t (.readB k fd)
  | .writeA k fd sd => { s with edges := update s.edges fd (snd k, weight k) }.goto t (.writeB k sd)
  | .writeB k sd => { s with edges := update s.edges sd (fst k, weight k) }.goto t .idle

/-- Third part of the parallel region. -/
def write (s : St) (sched : List Nat) : Wr := sched.foldl (stepWrite fun k => (s.table k).getD 0) (startWrite s)

/-- The graph that is returned: the edges of `p` are those in the positions `firstEdge` of `p` to `firstEdge` of `p + 1`
(graph_access.h:76-82). -/
def result (N : Nat) (degrees : Nat → Nat) (edges : Nat → Nat × Nat) : Graph :=
  ⟨(List.range N).map fun p => (List.range (degrees p)).map fun i => edges (first degrees p + i)⟩

/-- The third part for `mutable_graph` (contract_graph.h:436-448): the threads enter the critical section in the order `order` and
each adds its keys. -/
def writeM (N : Nat) (s : St) (order : List Nat) : MGraph :=
  ((order.flatMap s.keys).foldl (fun g k => g.newEdgeOrder (fst k) (snd k) ((s.table k).getD 0)) (MGraph.start N)).finishConstruction

/-! ### `fromUnionFind` -/

/-- `part` (`none` = `UNDEFINED_NODE`), `current_pid` and `mapping` of `fromUnionFind` (contract_graph.h:252-277). -/
structure Num where
  part : Nat → Option Nat
  pid : Nat
  map : Nat → Nat

/-- Loop body for vertex `n`, for which `Find` returned `r n` (contract_graph.h:262-275). -/
def numStep (r : Nat → Nat) (s : Num) (n : Nat) : Num :=
  match s.part (r n) with
  | none => { part := update s.part (r n) (some s.pid), pid := s.pid + 1, map := update s.map n s.pid }
  | some p => { s with map := update s.map n p }

/-- The mapping of `n` vertices to blocks (`map`) and the number of blocks (`pid`) (contract_graph.h:256-275). -/
def number (r : Nat → Nat) (n : Nat) : Num :=
  (List.range n).foldl (numStep r) { part := fun _ => none, pid := 0, map := fun _ => 0 }

/-! ### `contractGraphFullMesh` -/

/-- `edge_id` (contract_graph.h:142-143, 170): index of the pair `(p, q)`, `p ≠ q`, in an array of size `N * (N - 1)`. -/
def meshId (N p q : Nat) : Nat := p * (N - 1) + q - if q > p then 1 else 0

/-- Body of the loop over the edges of `n` (contract_graph.h:138-146) on the array `p_intermediate` of the thread. -/
def meshEdge (φ : Nat → Nat) (N n : Nat) (a : Nat → Nat) (e : Nat × Nat) : Nat → Nat :=
  if φ e.1 ≠ φ n then update a (meshId N (φ n) (φ e.1)) (a (meshId N (φ n) (φ e.1)) + e.2) else a

/-- `p_intermediate` of a thread that handles the vertices `vs` (contract_graph.h:132-147). -/
def meshLocal (G : Graph) (φ : Nat → Nat) (N : Nat) (vs : List Nat) : Nat → Nat :=
  vs.foldl (fun a n => (G.edges n).foldl (meshEdge φ N n) a) fun _ => 0

/-- `intermediate` after the critical sections, entered in the order `order` (contract_graph.h:149-154). -/
def meshSum (G : Graph) (φ : Nat → Nat) (N : Nat) (work : Nat → List Nat) (order : List Nat) : Nat → Nat :=
  order.foldl (fun a t i => a i + meshLocal G φ N (work t) i) fun _ => 0

/-- `contractGraphFullMesh` (contract_graph.h:122-182). -/
def fullMesh (G : Graph) (φ : Nat → Nat) (N : Nat) (work : Nat → List Nat) (order : List Nat) : Graph :=
  ⟨(List.range N).map fun i => (List.range N).filterMap fun j =>
    if i = j then none
    else if meshSum G φ N work order (meshId N i j) > 0 then some (j, meshSum G φ N work order (meshId N i j)) else none⟩

end PCT
end VieCut
