import Verif.Model.MutableGraph
import Verif.Model.PQInterface

/-!
# Model of `lib/algorithms/flow/push_relabel.h`

`push_relabel<limited, parallel_flows>`.  The flow of an edge when a problem starts is `flow0`.  It is zero with
`parallel_flows` because of lines 361-364, otherwise because of the problem id (proved for the flow interface of the
graph in `Props/Tools.lean`, for problem ids that do not repeat; the default id is random).  The queue `m_Q` is a parameter `P` (the code uses
`maxNodeHeap`), so are the decision to relabel globally (`trigger`, a function of `m_work`; the code compares with
`0.51 * work_todo` in floating point) and `depth` (the configured `depthOfPartialRelabeling`).  Flows and excesses are
unbounded integers.  Counters that are only logged are left out.
-/

namespace VieCut
open Function

namespace PushRelabel

/-- Template and call parameters, and the graph: `m_G`, `sources`, `sources[curr_source]`, `limited`,
`depthOfPartialRelabeling`, `m_sink`, `m_limit`, and the flows stored under the problem id before the call. -/
structure Cfg where
  g : MGraph
  ts : List Nat
  src : Nat
  limited : Bool := false
  depth : Nat := 1
  sink : Nat := 0
  limit : Int := 0
  flow0 : Nat → Nat → Int := fun _ _ => 0

/-- Data members (push_relabel.h:459-483). -/
structure PR (σ : Type) where
  flow : Nat → Nat → Int
  excess : Nat → Int
  dist : Nat → Nat
  active : Nat → Bool
  count : Nat → Int
  q : σ
  work : Nat
  reached : Bool

variable (P : PQ) (c : Cfg)

/-- The key passed to the queue (push_relabel.h:180-186): `(-1) * m_distance[target]` is computed in 32 bits. -/
def qkey (limited : Bool) (d : Nat) : Nat := if limited then (4294967296 - d) % 4294967296 else d

/-- `enqueue` (push_relabel.h:176-189). -/
def enqueue (s : PR P.σ) (v : Nat) : PR P.σ :=
  if s.active v then s
  else if s.excess v > 0 then
    { s with active := update s.active v true, q := P.insert s.q v (qkey c.limited (s.dist v)) }
  else s

/-- Residual capacity of edge `e` of vertex `u`. -/
def res (s : PR P.σ) (u e : Nat) : Int := ((c.g.edge u e).weight : Int) - s.flow u e

/-- `push` (push_relabel.h:145-173). -/
def push (s : PR P.σ) (u e d : Nat) : PR P.σ :=
  let v := (c.g.edge u e).target
  if d ≤ s.dist v then s
  else
    let amount := min (res P c s u e) (s.excess u)
    if amount = 0 then s
    else
      let r := (c.g.edge u e).rev
      let f1 := update s.flow u (update (s.flow u) e (s.flow u e + amount))
      let f2 := update f1 v (update (f1 v) r (f1 v r - amount))
      let x1 := update s.excess u (s.excess u - amount)
      let x2 := update x1 v (x1 v + amount)
      let s' := { s with flow := f2, excess := x2 }
      if c.limited ∧ v = c.sink ∧ x2 v ≥ c.limit then { s' with reached := true } else enqueue P c s' v

/-- The loop of `discharge` (push_relabel.h:194-199); once the excess is zero it stays zero in this loop, so skipping
the remaining edges and leaving the loop are the same. -/
def pushAll (s : PR P.σ) (u : Nat) : PR P.σ :=
  let d := s.dist u
  (List.range (c.g.len u)).foldl (fun s e => if s.excess u = 0 then s else push P c s u e d) s

/-- `gap_heuristic` (push_relabel.h:213-222). -/
def gap (s : PR P.σ) (level : Nat) : PR P.σ :=
  (List.range c.g.n).foldl (fun s v =>
    if s.dist v < level then s
    else
      let c1 := update s.count (s.dist v) (s.count (s.dist v) - 1)
      let d' := max (s.dist v) c.g.n
      enqueue P c { s with count := update c1 d' (c1 d' + 1), dist := update s.dist v d' } v) s

/-- The new label computed by `relabel` (push_relabel.h:231-240). -/
def newLabel (s : PR P.σ) (u : Nat) : Nat :=
  (List.range (c.g.len u)).foldl (fun d e => if res P c s u e > 0 then min d (s.dist (c.g.edge u e).target + 1) else d)
    (2 * c.g.n)

/-- `relabel` (push_relabel.h:226-244). -/
def relabel (s : PR P.σ) (u : Nat) : PR P.σ :=
  let c1 := update s.count (s.dist u) (s.count (s.dist u) - 1)
  let d' := newLabel P c s u
  enqueue P c { s with work := s.work + 9 + c.g.len u, count := update c1 d' (c1 d' + 1), dist := update s.dist u d' } u

/-- `discharge` (push_relabel.h:192-210). -/
def discharge (s : PR P.σ) (u : Nat) : PR P.σ :=
  let s := pushAll P c s u
  if s.excess u > 0 then
    if s.count (s.dist u) = 1 ∧ s.dist u < c.g.n then gap P c s (s.dist u) else relabel P c s u
  else s

/-! ### Global relabelling -/

/-- State of the breadth-first search: labels, `m_count`, `m_bfstouched` and the queue. -/
structure Search where
  dist : Nat → Nat
  count : Nat → Int
  touched : Nat → Bool
  queue : List Nat

/-- One edge in `global_relabeling` (push_relabel.h:121-140); `ok` tells whether the reverse edge may be used. -/
def relEdge (cut : Bool) (ok : Nat → Nat → Bool) (v : Nat) (b : Search) (e : Nat) : Search :=
  let t := (c.g.edge v e).target
  if b.touched t then b
  else if ok t (c.g.edge v e).rev then
    let c1 := update b.count (b.dist t) (b.count (b.dist t) - 1)
    let d' := b.dist v + 1
    { dist := update b.dist t d', count := update c1 d' (c1 d' + 1), touched := update b.touched t true,
      queue := if cut && !decide (d' < c.depth) then b.queue else b.queue ++ [t] }
  else b

/-- One round of the loop in `global_relabeling` (push_relabel.h:117-141). -/
def relStep (cut : Bool) (ok : Nat → Nat → Bool) (b : Search) : Search :=
  match b.queue with
  | [] => b
  | v :: q => (List.range (c.g.len v)).foldl (relEdge c cut ok v) { b with queue := q }

/-- The loop over the terminals (push_relabel.h:97-108). -/
def relSink (b : Search) (t : Nat) : Search :=
  if t = c.src then { b with dist := update b.dist t c.g.n }
  else
    let c1 := update b.count (b.dist t) (b.count (b.dist t) - 1)
    { dist := update b.dist t 0, count := update c1 0 (c1 0 + 1), touched := update b.touched t true,
      queue := b.queue ++ [t] }

/-- The state before the loop over the terminals (push_relabel.h:83-95). -/
def relStart (initial : Bool) (s : PR P.σ) : Search :=
  if c.limited && initial then
    let c1 := update s.count 0 0
    { dist := fun _ => c.depth + 1, count := update c1 (c.depth + 1) (c.g.n - 1), touched := fun _ => false, queue := [] }
  else
    { dist := fun v => if v < c.g.n then max (s.dist v) c.g.n else s.dist v, count := s.count,
      touched := fun _ => false, queue := [] }

/-- `global_relabeling<initial>` (push_relabel.h:79-142).  The loop ends after at most `n + |sources|` rounds. -/
def globalRelabel (initial : Bool) (s : PR P.σ) : PR P.σ :=
  let b := c.ts.foldl (relSink c) (relStart P c initial s)
  let b' := if c.limited && initial && decide (c.depth + 1 ≤ 1) then b
    else (relStep c (c.limited && initial) (fun t r => initial || decide (res P c s t r > 0)))^[c.g.n + c.ts.length]
      { b with touched := update b.touched c.src true }
  { s with dist := b'.dist, count := b'.count }

/-! ### The source set -/

/-- Breadth-first search of `computeSourceSet`: `m_bfstouched`, the queue, and the vertices in order of discovery. -/
structure Reach where
  touched : Nat → Bool
  queue : List Nat
  found : List Nat

/-- One round of the loops (push_relabel.h:266-281 and 287-299); `next v` are the neighbours that may be entered. -/
def reachStep (next : Nat → List Nat) (b : Reach) : Reach :=
  match b.queue with
  | [] => b
  | v :: q => (next v).foldl (fun b t =>
      if b.touched t then b
      else { touched := update b.touched t true, queue := b.queue ++ [t], found := b.found ++ [t] }) { b with queue := q }

/-- The neighbours with residual capacity towards `v` (push_relabel.h:270-280). -/
def resPreds (s : PR P.σ) (v : Nat) : List Nat :=
  ((List.range (c.g.len v)).filter fun e => decide (res P c s (c.g.edge v e).target (c.g.edge v e).rev > 0)).map
    fun e => (c.g.edge v e).target

/-- `computeSourceSet` (push_relabel.h:246-302). -/
def sourceSet (s : PR P.σ) : List Nat :=
  let sinks := c.ts.filter fun t => t != c.src
  let b := (reachStep (resPreds P c s))^[c.g.n + c.ts.length] ⟨fun v => sinks.contains v, sinks, []⟩
  ((reachStep fun v => (List.range (c.g.len v)).map fun e => (c.g.edge v e).target)^[c.g.n + 1]
    ⟨update b.touched c.src true, [c.src], [c.src]⟩).found

/-! ### The whole computation -/

/-- `init` (push_relabel.h:43-74). -/
def init : PR P.σ :=
  let s0 : PR P.σ :=
    { flow := c.flow0, excess := fun _ => 0, dist := update (fun _ => 0) c.src c.g.n,
      active := fun v => c.ts.contains v, count := update (update (fun _ => 0) 0 (c.g.n - 1)) c.g.n 1,
      q := P.init, work := 0, reached := false }
  (List.range (c.g.len c.src)).foldl (fun s e =>
    push P c { s with excess := update s.excess c.src (s.excess c.src + (c.g.edge c.src e).weight) } c.src e c.g.n) s0

/-- The main loop (push_relabel.h:396-425).  `none`: `fuel` rounds were not enough.  The flag says that the limit was
reached. -/
def mainLoop (trigger : Nat → Bool) : Nat → PR P.σ → Option (PR P.σ × Bool)
  | 0, _ => none
  | fuel + 1, s =>
    if P.empty s.q then some (s, false)
    else
      let r := P.deleteMax s.q
      let s1 := discharge P c { s with q := r.2, active := update s.active r.1 false } r.1
      if c.limited && s1.reached then some (s1, true)
      else mainLoop trigger fuel (if trigger s1.work then { globalRelabel P c false s1 with work := 0 } else s1)

/-- `solve_max_flow_min_cut` (push_relabel.h:340-461): flow value and, if asked for, the source set. -/
def solve (trigger : Nat → Bool) (computeSet : Bool) (fuel : Nat) : Option (Int × List Nat) :=
  if c.ts.any (fun t => decide (c.g.n ≤ t)) then some (-1, [])
  else
    (mainLoop P c trigger fuel (globalRelabel P c true (init P c))).map fun r =>
      if r.2 then (c.limit, [])
      else (((c.ts.filter fun t => t != c.src).map r.1.excess).sum, if computeSet then sourceSet P c r.1 else [])

end PushRelabel
end VieCut
