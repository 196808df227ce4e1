import Verif.Model.MutableHistory

/-!
# Model of `dynamic_mincut` and `cactus_path`
(lib/algorithms/global_mincut/dynamic/dynamic_mincut.h, cactus_path.h)

The routines called on the whole graph are a parameter `Env`; their specification is in Spec/Dynamic.  `ord` is the order in
which an `unordered_set` is iterated.  Timers, logging and the search for a most balanced cut are omitted.  A result `none` is
undefined behaviour.
-/

namespace VieCut
open Function

namespace Dyn

/-- `std::vector parents` (cactus_path.h:30-31): parent, root and flag of a vertex; `none`: `UNDEFINED_NODE`. -/
abbrev Parents := Nat → Option (Nat × Nat × Bool)

/-- The loop over the edges of `n` (cactus_path.h:42-75): `inl tgt`, a neighbour with another root was found; `inr`, the parents and the
queue at the end of the loop. -/
def scan (mincut n root : Nat) : List (Nat × Nat) → Parents → List Nat → (Parents × Nat) ⊕ (Parents × List Nat)
  | [], par, q => .inr (par, q)
  | (tgt, wgt) :: es, par, q =>
    match par tgt with
    | some r => if r.2.1 ≠ root then .inl (par, tgt) else scan mincut n root es par q
    | none => scan mincut n root es (update par tgt (some (n, root, decide (wgt = mincut)))) (q ++ [tgt])

/-- The breadth-first search (cactus_path.h:38-76): the edge between the two trees, if there is one. -/
def bfs (C : MGraph) (mincut : Nat) : Nat → Parents → List Nat → Option (Parents × Nat × Nat)
  | 0, _, _ => none
  | _ + 1, _, [] => none
  | fuel + 1, par, n :: q =>
    match scan mincut n ((par n).map (·.2.1) |>.getD 0) (C.toGraph.edges n) par q with
    | .inl (par, tgt) => some (par, n, tgt)
    | .inr (par, q) => bfs C mincut fuel par q

/-- `pathST.insert(v)`. -/
def insertNew (v : Nat) (acc : List Nat) : List Nat := if v ∈ acc then acc else v :: acc

/-- The flag of a vertex. -/
def flag (par : Parents) (v : Nat) : Bool := ((par v).map (·.2.2)).getD true

/-- The loops `while (nToS != s)`, `while (tgtToT != t)` (cactus_path.h:53-58, 61-66). -/
def walk (par : Parents) (goal : Nat) : Nat → Nat → Bool → List Nat → List Nat
  | 0, _, _, acc => acc
  | fuel + 1, cur, onTree, acc =>
    if cur = goal then acc
    else
      let p := ((par cur).map (·.1)).getD 0
      walk par goal fuel p (flag par p) (if onTree || flag par p then insertNew p acc else acc)

/-- `cactus_path::findPath` (cactus_path.h:27-80). -/
def findPath (C : MGraph) (s t mincut : Nat) : List Nat :=
  let par : Parents := update (update (fun _ => none) s (some (s, s, true))) t (some (t, t, true))
  match bfs C mincut (C.n + 1) par [s, t] with
  | none => []
  | some (par, n, tgt) =>
    let atS := ((par n).map (·.2.1)).getD 0 = s
    let acc := walk par s C.n (if atS then n else tgt) (flag par n) (insertNew n [tgt])
    walk par t C.n (if atS then tgt else n) (flag par tgt) acc

/-- The loop that decides on the way of contraction (dynamic_mincut.h:191-214): `none`, `alternativeContract` is false; otherwise the vertex of high degree,
if any. -/
def altScan (C : MGraph) : List Nat → Option Nat → Nat → Option (Option Nat)
  | [], high, _ => some high
  | v :: vs, high, k =>
    if (C.cont v).length = 0 then none
    else if 100 < C.len v ∧ high ≠ none then none
    else
      let high' := if 100 < C.len v then some v else high
      let k' := if 10 < C.len v then k + 1 else k
      if 1 < k' then none else altScan C vs high' k'

/-- The body of the loop of dynamic_mincut.h:225-240: contract the vertex containing `v` into the one containing `h`. -/
def contractInto (h : Nat) (C : MGraph) (v : Nat) : MGraph :=
  let s := C.pos h
  let t := C.pos v
  match (List.range (C.len t)).find? (fun e => decide ((C.edge t e).target = s)) with
  | none => C.contractSparseTargetNoEdge s t
  | some e => C.contractEdgeSparseTarget s (C.edge t e).rev

/-- `dynamic_mincut::contractVertexSet` (dynamic_mincut.h:179-244); `P` in iteration order. -/
def contractSet (C : MGraph) (P : List Nat) : MGraph :=
  match altScan C P none 0 with
  | some (some h) => ((P.filter (fun v => decide (v ≠ h))).map (fun v => (C.cont v).headD 0)).foldl (contractInto ((C.cont h).headD 0)) C
  | _ => C.contractVertexSet P

/-- The routines called by `dynamic_mincut`: `cactus.findAllMincuts(G, known_mincut)` (value and cactus), `noi.perform_minimum_cut(G)`,
`pr.solve_max_flow_min_cut(G, {s, t}, 0, false, limit, id).first`, and `rc.decrementalRebuild(G, s, value, id)` after the flow
between `s` and `t`. -/
structure Env where
  findAll : MGraph → Nat → Nat × MGraph
  noi : MGraph → Nat
  flow : MGraph → Nat → Nat → Nat → Nat
  rebuild : MGraph → Nat → Nat → Nat → MGraph
  ord : List Nat → List Nat

/-- `class dynamic_mincut` (dynamic_mincut.h:31-48).  `size` is the size of the three vectors `cachedCactus` (`cactusAt`), `cachedInserts`
(`inserts`) and `currentlyCaching` (`caching`). -/
structure State where
  orig : MGraph
  cactus : MGraph
  cut : Nat
  numCached : Nat
  lowest : Nat
  size : Nat
  cactusAt : Nat → MGraph
  inserts : Nat → List (Nat × Nat × Nat)
  caching : Nat → Bool
  calls : Nat

/-- `UNDEFINED_NODE`, `UNDEFINED_EDGE` (lib/common/definitions.h:40-42). -/
def undefinedNode : Nat := 2 ^ 32 - 1
/-- See `undefinedNode`. -/
def undefinedEdge : Nat := 2 ^ 64 - 1
/-- `max_cache_size` (dynamic_mincut.h:38). -/
def maxCache : Nat := 1000

/-- `initialize` (dynamic_mincut.h:60-74) of a new object. -/
def init (E : Env) (g : MGraph) : State :=
  let r := E.findAll g undefinedNode
  { orig := g, cactus := r.2, cut := r.1, numCached := 0, lowest := undefinedEdge, size := 0, cactusAt := fun _ => MGraph.start 0,
    inserts := fun _ => [], caching := fun _ => false, calls := 1 }

/-- `putIntoCache` (dynamic_mincut.h:325-341). -/
def putIntoCache (d : State) (C : MGraph) (c : Nat) : State :=
  let size := max d.size (c + 1)
  { d with
    numCached := d.numCached + 1, lowest := if c < d.lowest then c else d.lowest, size := size,
    cactusAt := update d.cactusAt c C,
    inserts := update (fun i => if i < d.size then d.inserts i else []) c [],
    caching := update (fun i => decide (i < d.size) && d.caching i) c true }

/-- `cacheEdge` (dynamic_mincut.h:343-362). -/
def cacheEdge (d : State) (s t w : Nat) : Option State :=
  if d.numCached = 0 then some d
  else if d.lowest ≥ d.size then none
  else if (d.inserts d.lowest).length ≤ maxCache then
    some { d with inserts := update d.inserts d.lowest (d.inserts d.lowest ++ [(s, t, w)]) }
  else
    let d := { d with numCached := d.numCached - 1, caching := update d.caching d.lowest false }
    let d := if d.numCached > 0 then { d with size := d.lowest + 1, numCached := 0 } else d
    some { d with lowest := undefinedEdge }

/-- The loop over the cached insertions (dynamic_mincut.h:157-174): `none`, all vertices of the cactus are on a path, so that everything is
computed anew; otherwise the contracted cactus. -/
def replay (E : Env) (cut : Nat) : MGraph → List (Nat × Nat × Nat) → Option MGraph
  | C, [] => some C
  | C, x :: xs =>
    if C.pos x.1 ≠ C.pos x.2.1 then
      let P := findPath C (C.pos x.1) (C.pos x.2.1) cut
      if P.length = C.n then none else replay E cut (contractSet C (E.ord P)) xs
    else replay E cut C xs

/-- The loop of dynamic_mincut.h:135-140. -/
def nextCached (d : State) (m : Nat) : Option Nat := (List.range d.size).find? (fun i => decide (m < i) && d.caching i)

/-- The part of `buildCactusFromCache` before the replay (dynamic_mincut.h:130-156). -/
def dropFromCache (d : State) (m : Nat) : Option State :=
  let d := { d with numCached := d.numCached - 1, caching := update d.caching m false }
  if d.numCached = 0 then some { d with lowest := undefinedEdge }
  else
    let low := (nextCached d m).getD d.lowest
    let d := { d with lowest := low }
    if low ≥ d.size then none
    else if (d.inserts m).length + (d.inserts low).length > maxCache then
      some { d with size := m + 1, numCached := 0, lowest := undefinedEdge, caching := fun i => decide (i < m + 1) && d.caching i,
                    inserts := fun i => if i < m + 1 then d.inserts i else [] }
    else if low = m then
      -- the vector is extended while it is iterated
      if d.inserts m = [] then some d else none
    else some { d with inserts := update d.inserts low (d.inserts low ++ d.inserts m) }

/-- `buildCactusFromCache` (dynamic_mincut.h:129-177). -/
def buildFromCache (E : Env) (d : State) (m : Nat) : Option State :=
  (dropFromCache d m).map fun d' =>
    match replay E d.cut (d.cactusAt m) (d.inserts m) with
    | none =>
      let r := E.findAll d.orig undefinedNode
      { d' with cactus := r.2, cut := r.1, calls := d'.calls + 1 }
    | some C => { d' with cactus := C, cut := m }

/-- `checkCacheAndRecompute` (dynamic_mincut.h:76-94). -/
def recompute (E : Env) (d : State) : Option State :=
  let mincut := if d.lowest ≠ undefinedEdge then E.noi d.orig else undefinedNode
  if mincut = d.lowest ∧ 2 * d.size < (d.cactusAt mincut).n then buildFromCache E d mincut
  else
    let r := E.findAll d.orig mincut
    some { d with cactus := r.2, cut := r.1, calls := d.calls + 1 }

/-- `addEdge` (dynamic_mincut.h:96-127). -/
def addEdge (E : Env) (d : State) (s t w : Nat) : Option State :=
  let x := d.cactus.pos s
  let y := d.cactus.pos t
  (cacheEdge { d with orig := d.orig.newEdgeOrder s t w } s t w).bind fun d =>
    if x = y then some d
    else if d.cut = 0 then
      if d.cactus.n = 2 then recompute E d
      else some { d with cactus := d.cactus.contractVertexSet (E.ord [x, y]) }
    else
      let P := findPath d.cactus x y d.cut
      if P.length = d.cactus.n then recompute E d
      else some { d with cactus := contractSet d.cactus (E.ord P) }

/-- The first edge from `s` to `t` (dynamic_mincut.h:248-254). -/
def edgeTo (g : MGraph) (s t : Nat) : Option Nat := (List.range (g.len s)).find? (fun e => decide ((g.edge s e).target = t))

/-- `removeEdge` (dynamic_mincut.h:246-305). -/
def removeEdge (E : Env) (d : State) (s t : Nat) : State :=
  match edgeTo d.orig s t with
  | none => d
  | some e =>
    let w := (d.orig.edge s e).weight
    let d := { d with orig := d.orig.deleteEdge s e }
    if w = 0 then d
    else if d.cut = 0 then d
    else
      let f := E.flow d.orig s t d.cut
      if d.cactus.pos s ≠ d.cactus.pos t then
        { putIntoCache d d.cactus d.cut with cut := f, cactus := E.rebuild d.orig s t f }
      else if f < d.cut then
        { putIntoCache d d.cactus d.cut with cut := f, cactus := E.rebuild d.orig s t f }
      else d

/-- The two update calls. -/
inductive Call where
  | add (s t w : Nat)
  | remove (s t : Nat)
deriving DecidableEq, Repr

/-- One call. -/
def call (E : Env) (d : State) : Call → Option State
  | .add s t w => addEdge E d s t w
  | .remove s t => some (removeEdge E d s t)

/-- A sequence of calls. -/
def run (E : Env) : State → List Call → Option State
  | d, [] => some d
  | d, c :: cs => (call E d c).bind fun d => run E d cs

end Dyn
end VieCut
