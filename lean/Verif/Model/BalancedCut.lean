import Verif.Model.MutableGraph

/-!
# Model of `lib/algorithms/global_mincut/cactus/balanced_cut_dfs.h` and `most_balanced_minimum_cut.h`

`C` is the cactus graph, `G` the original graph (either class, read through its view).  Recursion and `while` loops carry fuel; `none`
stands for a run that needs more.  Weights are unbounded naturals.
-/

namespace VieCut
namespace Balanced
open Function

/-- `DFSVertexStatus` (definitions.h:50-55). -/
inductive Status
  | undiscovered | active | cycle | finished
deriving DecidableEq, Repr

/-- The data members that change during the search (balanced_cut_dfs.h:213-227). -/
structure St where
  status : Nat → Status
  sub : Nat → Nat
  parent : Nat → Nat
  out : Nat → List Nat
  inCycle : Bool
  n : Nat
  e : Nat
  n2 : Nat
  e2 : Nat
  weight : Nat

/-- What does not change during the search: the cactus, the value of the minimum cut, `findVertexWeight`, `totalWeight()` and the start vertex. -/
structure Env where
  C : MGraph
  mincut : Nat
  vw : Nat → Nat
  total : Nat
  start : Nat

/-- `findVertexWeight(n)` (balanced_cut_dfs.h:117-127). -/
def vertexWeight (G : Graph) (C : MGraph) (conductance : Bool) (q : Nat) : Nat :=
  if conductance then ((C.cont q).map G.deg).sum else (C.cont q).length

/-- `totalWeight()` (balanced_cut_dfs.h:129-135) with `sum_of_weights = sumOfEdgeWeights()` (lines 42-44). -/
def totalWeight (G : Graph) (C : MGraph) (conductance : Bool) : Nat :=
  if conductance then G.totalWeight else C.origNodes

/-- `lighterBlock(w)` (balanced_cut_dfs.h:137-139). -/
def lighter (total w : Nat) : Nat := min w (total - w)

/-- The `for` loops that look for the edge of `u` to `x` and leave `old` unchanged if there is none (balanced_cut_dfs.h:170-176, 180-186). -/
def findEdge (C : MGraph) (u x old : Nat) : Nat := ((List.range (C.len u)).find? fun e => (C.edge u e).target == x).getD old

/-- The vertices of the cycle after `v` with their weights (balanced_cut_dfs.h:147-152).  The weight computed for the last vertex is
overwritten afterwards. -/
def climb (parent sub : Nat → Nat) (start : Nat) : Nat → Nat → Option (List (Nat × Nat))
  | 0, _ => none
  | f + 1, v =>
    if v = start then some []
    else (climb parent sub start f (parent v)).map ((parent v, sub (parent v) - sub v) :: ·)

/-- The body of the `if` that stores a better cut (balanced_cut_dfs.h:165-187).  `cv` is the list of cycle vertices. -/
def store (E : Env) (cv : List Nat) (back front inw : Nat) (s : St) : St :=
  if lighter E.total inw ≥ s.weight then
    let n := cv.getD ((front - 1) % cv.length) 0
    let n2 := cv.getD ((back - 1) % cv.length) 0
    { s with
      weight := lighter E.total inw, inCycle := true, n := n, e := findEdge E.C n (cv.getD (front % cv.length) 0) s.e,
      n2 := n2, e2 := findEdge E.C n2 (cv.getD (back % cv.length) 0) s.e2 }
  else s

/-- The `while` loop that moves the two ends of the window (balanced_cut_dfs.h:164-197). -/
def window (E : Env) (cv cw : List Nat) : Nat → Nat → Nat → Nat → St → Option St
  | 0, _, _, _, _ => none
  | f + 1, back, front, inw, s =>
    if back ≤ 2 * cv.length then
      let s := store E cv back front inw s
      if inw * 2 ≥ E.total then window E cv cw f (back + 1) front (inw - cw.getD (back % cv.length) 0) s
      else window E cv cw f back (front + 1) (inw + cw.getD (front % cv.length) 0) s
    else some s

/-- `investigateCycle(t, start)` (balanced_cut_dfs.h:141-198). -/
def investigateCycle (E : Env) (t start : Nat) (s : St) : Option St :=
  (climb s.parent s.sub start (E.C.n + 1) t).bind fun l =>
    let cv := t :: l.map (·.1)
    let cw := (s.sub t :: l.map (·.2)).set (cv.length - 1) (E.total - s.sub (cv.getD (cv.length - 2) 0))
    window E cv cw (3 * cv.length + 3) cv.length 1 (cw.getD 0 0) s

/-- `checkForCycles(n)` (balanced_cut_dfs.h:200-204). -/
def checkForCycles (E : Env) (n : Nat) : List Nat → St → Option St
  | [], s => some s
  | t :: l, s => (investigateCycle E t n s).bind (checkForCycles E n l)

/-- A tree edge `e` of `n` is compared with the best cut after the return from the recursive call for its target `t`
(balanced_cut_dfs.h:85-91). -/
def tryEdge (E : Env) (n e t : Nat) (s : St) : St :=
  if lighter E.total (s.sub t) > s.weight ∧ (E.C.edge n e).weight = E.mincut then
    { s with inCycle := false, n := n, e := e, weight := lighter E.total (s.sub t) }
  else s

/-- An edge from `n` to a vertex `t` on the stack (balanced_cut_dfs.h:97-101). -/
def backEdge (n t : Nat) (s : St) : St :=
  if s.parent n ≠ t then { s with status := update s.status t .cycle, out := update s.out t (s.out t ++ [n]) } else s

/-- The loop over the edges of `n` (balanced_cut_dfs.h:79-107) with `children_weight`; `rec` is the recursive call. -/
def scan (E : Env) (rec : Nat → St → Option St) (n : Nat) : List Nat → Nat → St → Option (St × Nat)
  | [], cw, s => some (s, cw)
  | e :: l, cw, s =>
    let t := (E.C.edge n e).target
    match s.status t with
    | .undiscovered => (rec t { s with parent := update s.parent t n }).bind fun s =>
        scan E rec n l (cw + s.sub t) (tryEdge E n e t s)
    | .active => scan E rec n l cw (backEdge n t s)
    | .cycle => scan E rec n l cw (backEdge n t s)
    | .finished => scan E rec n l cw s

/-- `subtree_weight[n] = w; status[n] = FINISHED;` (balanced_cut_dfs.h:73-75, 112-114). -/
def finish (n w : Nat) (s : St) : St := { s with sub := update s.sub n w, status := update s.status n .finished }

/-- `processVertex(n)` (balanced_cut_dfs.h:67-115). -/
def processVertex (E : Env) : Nat → Nat → St → Option St
  | 0, _, _ => none
  | f + 1, n, s =>
    let s := { s with status := update s.status n .active }
    if E.C.len n = 1 ∧ n ≠ E.start then some (finish n (E.vw n) s)
    else (scan E (processVertex E f) n (List.range (E.C.len n)) 0 s).bind fun r =>
      (if r.1.status n = .cycle then checkForCycles E n (r.1.out n) r.1 else some r.1).map (finish n (r.2 + E.vw n))

/-- The members after construction (balanced_cut_dfs.h:30-37, 219-227). -/
def init : St :=
  { status := fun _ => .undiscovered, sub := fun _ => 2 ^ 64 - 1, parent := fun _ => 2 ^ 32 - 1, out := fun _ => [],
    inCycle := false, n := 0, e := 0, n2 := 0, e2 := 0, weight := 0 }

/-- `runDFS()` (balanced_cut_dfs.h:39-64) for the start vertex drawn by the random generator: the two cut edges.  `getReverseEdge`
(mutable_graph.h) is the stored partner. -/
def runDFS (E : Env) : Option ((Nat × Nat) × (Nat × Nat)) :=
  (processVertex E (E.C.n + 1) E.start init).map fun s =>
    if s.inCycle then ((s.n, s.e), ((E.C.edge s.n2 s.e2).target, (E.C.edge s.n2 s.e2).rev)) else ((s.n, s.e), (s.n, s.e))

/-- The loop over the edges of a vertex taken from the queue (most_balanced_minimum_cut.h:83-89). -/
def pushAll (targets : List Nat) (q : List Nat) (checked : Nat → Bool) : List Nat × (Nat → Bool) :=
  targets.foldl (fun a t => if a.2 t then a else (a.1 ++ [t], update a.2 t true)) (q, checked)

/-- The `while` loop (most_balanced_minimum_cut.h:77-90): the flags of the original vertices. -/
def spread (C : MGraph) : Nat → List Nat → (Nat → Bool) → (Nat → Bool) → Option (Nat → Bool)
  | _, [], _, flags => some flags
  | 0, _ :: _, _, _ => none
  | f + 1, top :: q, checked, flags =>
    let flags := (C.cont top).foldl (fun fl v => update fl v true) flags
    let r := pushAll ((List.range (C.len top)).map fun e => (C.edge top e).target) q checked
    spread C f r.1 r.2 flags

/-- The marking of one side of the cut (most_balanced_minimum_cut.h:53-90). -/
def markSide (C : MGraph) (r : (Nat × Nat) × (Nat × Nat)) : Option (Nat → Bool) :=
  let n1 := r.1.1
  let n2 := r.2.1
  let rev1 := (C.edge n1 r.1.2).target
  let rev2 := (C.edge n2 r.2.2).target
  let checked := update (fun _ => false) n1 true
  let checked := if n1 ≠ n2 then update checked n2 true else checked
  let q := if n1 ≠ n2 then [n1, n2] else [n1]
  spread C (C.n + 1) q (update (update checked rev1 true) rev2 true) (fun _ => false)

/-- The directed edges that leave their side (most_balanced_minimum_cut.h:92-100).  An edge is given by its vertex and its index in the
adjacency list of this vertex. -/
def crossing (G : Graph) (S : Nat → Bool) : List (Nat × Nat) :=
  (List.range G.n).flatMap fun u => ((List.range (G.edges u).length).filter fun e => S u != S ((G.edges u).getD e (0, 0)).1).map fun e => (u, e)

/-- `findCutFromCactus(G, mincut, original_graph)` (most_balanced_minimum_cut.h:26-112) with `save_cut` and `set_node_in_cut` set: the
flags and the returned edges; the call for minimum cut zero returns without touching the flags.  Logging and writing the cut to a file are
not modelled. -/
def findCutFromCactus (G : Graph) (C : MGraph) (mincut : Nat) (conductance : Bool) (start : Nat) (flags0 : Nat → Bool) :
    Option ((Nat → Bool) × List (Nat × Nat)) :=
  if mincut = 0 then some (flags0, [])
  else (runDFS ⟨C, mincut, vertexWeight G C conductance, totalWeight G C conductance, start⟩).bind fun r =>
    (markSide C r).map fun S => (S, crossing G S)

end Balanced
end VieCut
