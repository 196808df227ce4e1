import Verif.Model.Tools

/-!
# Model of `lib/algorithms/misc/strongly_connected_components.h`

Both overloads of `explicit_scc_dfs` are the same loop over the out-edges of a vertex; they differ in which edges are
skipped.  The graph is given by `arcs u`: the edges of `u` in iteration order as `(target, present)`, where
`present = false` marks an edge that is skipped with `continue`.  A `std::stack` is a list with the top as its head;
reading the top of an empty stack is undefined behaviour (`none`).
-/

namespace VieCut
open Function

/-- Data members (strongly_connected_components.h:218-230); `none` is the value `-1` of `m_dfsnum` and `m_comp_num`. -/
structure SCC where
  dfs : Nat → Option Nat
  comp : Nat → Option Nat
  dfsCount : Nat
  compCount : Nat
  sizes : List Nat
  unfinished : List Nat
  roots : List Nat
  iter : List (Nat × Nat)

namespace SCC

/-- `m_dfsnum[v]` read where it is known to be set. -/
def num (s : SCC) (v : Nat) : Nat := (s.dfs v).getD 0

/-- `v` becomes a tentative component of its own (strongly_connected_components.h:82-88, 116-123, 144-150, 164-173). -/
def discover (s : SCC) (v : Nat) : SCC :=
  { s with dfs := update s.dfs v (some s.dfsCount), dfsCount := s.dfsCount + 1, unfinished := v :: s.unfinished,
           roots := v :: s.roots, iter := (v, 0) :: s.iter }

/-- The loop over the edges of `cur` from position `e` on (strongly_connected_components.h:95-129, 157-179).  The while
loop that pops `m_roots` reads the top after every pop. -/
def scan (cur : Nat) : List (Nat × Bool) → Nat → SCC → Option SCC
  | [], _, s => some s
  | (_, false) :: l, e, s => scan cur l (e + 1) s
  | (t, true) :: l, e, s =>
    if s.dfs t = none then some (discover { s with iter := (cur, e) :: s.iter } t)
    else if s.comp t = none then
      match s.roots.dropWhile (fun r => decide (s.num r > s.num t)) with
      | [] => none
      | r :: rs => scan cur l (e + 1) { s with roots := r :: rs }
    else scan cur l (e + 1) s

/-- The do-while loop that labels a component (strongly_connected_components.h:135-140, 184-188). -/
def popUntil (cur : Nat) : List Nat → SCC → Option SCC
  | [], _ => none
  | w :: l, s =>
    let s' := { s with unfinished := l, comp := update s.comp w (some s.compCount),
                       sizes := s.sizes.modify s.compCount (· + 1) }
    if w = cur then some s' else popUntil cur l s'

/-- Return from the call of `cur` (strongly_connected_components.h:131-143, 181-191). -/
def close (cur : Nat) (s : SCC) : Option SCC :=
  match s.roots with
  | [] => none
  | r :: rs =>
    if cur = r then
      (popUntil cur s.unfinished { s with sizes := s.sizes ++ [0] }).map
        fun s' => { s' with compCount := s'.compCount + 1, roots := rs }
    else some s

/-- The while loop of `explicit_scc_dfs` (strongly_connected_components.h:90-144, 152-192); `none` if the number of
iterations exceeds the fuel. -/
def loop (arcs : Nat → List (Nat × Bool)) : Nat → SCC → Option SCC
  | 0, s => if s.iter = [] then some s else none
  | f + 1, s =>
    match s.iter with
    | [] => some s
    | (cur, e) :: it =>
      ((scan cur ((arcs cur).drop e) e { s with iter := it }).bind (close cur)).bind (loop arcs f)

/-- Freshly constructed object after the initialisation in `strong_components`
(strongly_connected_components.h:34-43, 57-67). -/
def init : SCC :=
  { dfs := fun _ => none, comp := fun _ => none, dfsCount := 0, compCount := 0, sizes := [], unfinished := [],
    roots := [], iter := [] }

/-- The loop over all vertices of `strong_components` (strongly_connected_components.h:45-49, 69-73). -/
def outer (n : Nat) (arcs : Nat → List (Nat × Bool)) : Nat → SCC → Option SCC
  | 0, s => some s
  | k + 1, s => (outer n arcs k s).bind fun s => if s.dfs k = none then loop arcs (2 * n) (s.discover k) else some s

/-- `strong_components` (strongly_connected_components.h:32-52, 54-80). -/
def run (n : Nat) (arcs : Nat → List (Nat × Bool)) : Option SCC := outer n arcs n init

end SCC

/-- All edges are used in the `graph_access` overload (strongly_connected_components.h:157-160). -/
def Graph.allArcs (G : Graph) (u : Nat) : List (Nat × Bool) := (G.edges u).map fun e => (e.1, true)

/-- The flow read by the `mutable_graph` overload (strongly_connected_components.h:97-106).  `pid = none` stands for
`fpid == UNDEFINED_NODE`; otherwise `getEdgeFlow(n, e, fpid)` reads zero from a stale field (mutable_graph.h:197-205; the
reset it performs is not observable under the same problem id). -/
def MGraph.readFlow (g : MGraph) (pid : Option Nat) (u e : Nat) : Int :=
  match pid with
  | none => (g.edge u e).flow
  | some p => (g.getEdgeFlow u e p).1

/-- The `mutable_graph` overload skips edges whose flow equals their weight (strongly_connected_components.h:95-113). -/
def MGraph.resArcs (g : MGraph) (pid : Option Nat) (u : Nat) : List (Nat × Bool) :=
  (List.range (g.len u)).map fun e => ((g.edge u e).target, decide (g.readFlow pid u e ≠ ((g.edge u e).weight : Int)))

/-- `strong_components(G, &comp_num)` for `graph_access`: the labels and their number
(strongly_connected_components.h:54-80). -/
def sccGraph (G : Graph) : Option ((Nat → Option Nat) × Nat) :=
  (SCC.run G.n G.allArcs).map fun s => (s.comp, s.compCount)

/-- `strong_components(G, fpid)` for `mutable_graph`: labels, number of labels, block sizes
(strongly_connected_components.h:32-52). -/
def sccMutable (g : MGraph) (pid : Option Nat) : Option ((Nat → Option Nat) × Nat × List Nat) :=
  (SCC.run g.n (g.resArcs pid)).map fun s => (s.comp, s.compCount, s.sizes)

/-- `std::max_element` on the component sizes: the first largest (strongly_connected_components.h:204-205). -/
def firstMax (l : List Nat) : Nat := (List.range l.length).foldl (fun b i => if l.getD i 0 > l.getD b 0 then i else b) 0

/-- `largest_scc(G)` (strongly_connected_components.h:194-217). -/
def largestScc (G : Graph) : Option (CSR × List Nat) :=
  (sccGraph G).bind fun r =>
    let sizes := (List.range r.2).map fun c => ((List.range G.n).filter fun v => r.1 v == some c).length
    extractBlock G (fun v => r.1 v == some (firstMax sizes))

end VieCut
