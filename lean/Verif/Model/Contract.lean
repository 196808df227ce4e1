import Verif.Model.Graph
import Verif.Model.UnionFind
import Mathlib.Data.List.Basic

/-!
# Model of `lib/coarsening/contract_graph.h` on `graph_access`
-/

namespace VieCut

/-- Local variables of `fromUnionFind` (contract_graph.h:212-216). `part[x] == UNDEFINED_NODE` is `none`. -/
structure FUState where
  uf : UF
  part : Nat → Option Nat
  pid : Nat
  mapping : List Nat
  rev : List (List Nat)

/-- Loop body of `fromUnionFind` (contract_graph.h:219-231, identically 145-156 for mutable graphs that
have not been contracted, where `containedVertices(n)[0] == n`). -/
def fuStep (s : FUState) (v : Nat) : FUState :=
  let (root, uf) := s.uf.find v
  let (part, pid, id) := match s.part root with
    | none => (Function.update s.part root (some s.pid), s.pid + 1, s.pid)
    | some i => (s.part, s.pid, i)
  { uf := uf, part := part, pid := pid, mapping := s.mapping ++ [id],
    rev := s.rev.modify id (fun l => l ++ [v]) }

/-- The loop of `fromUnionFind` over all nodes; the result holds `mapping` and `reverse_mapping`. -/
def fuLoop (n : Nat) (uf : UF) : FUState :=
  (List.range n).foldl fuStep
    { uf := uf, part := fun _ => none, pid := 0, mapping := [], rev := List.replicate uf.cnt [] }

/-- `mapping[v]` (only read for `v < n`). -/
def FUState.map (s : FUState) (v : Nat) : Nat := s.mapping.getD v 0

/-- Inner loop body of `contractGraphSparse` for `graph_access` (contract_graph.h:263-285).  The state is
`edge_positions` (in insertion order) and `weights`. -/
def collectEdge (mapping : Nat → Nat) (p : Nat) (st : List Nat × (Nat → Nat)) (e : Nat × Nat) :
    List Nat × (Nat → Nat) :=
  if e.2 = 0 then st
  else
    let ct := mapping e.1
    if ct = p then st
    else if ct ∈ st.1 then (st.1, Function.update st.2 ct (st.2 ct + e.2))
    else (st.1 ++ [ct], Function.update st.2 ct e.2)

/-- Both inner loops for coarse vertex `p` (contract_graph.h:258-287); `edge_positions` is new for every
`p`, `weights` is kept. -/
def collect (G : Graph) (mapping : Nat → Nat) (p : Nat) (members : List Nat) (weights : Nat → Nat) :
    List Nat × (Nat → Nat) :=
  (members.flatMap G.edges).foldl (collectEdge mapping p) ([], weights)

/-- Outer loop of `contractGraphSparse` on `graph_access` (contract_graph.h:257-292): appends the adjacency
list of each coarse vertex.  `order p` is the iteration order of the `unordered_set edge_positions`.
`new_edge(p, tgt, w)` ignores self loops (graph_access.h:126-128). -/
def sparseLoop (G : Graph) (mapping : Nat → Nat) (order : Nat → List Nat → List Nat) :
    Nat → List (List Nat) → (Nat → Nat) → List (List (Nat × Nat))
  | _, [], _ => []
  | p, members :: rest, weights =>
    let st := collect G mapping p members weights
    ((order p st.1).map (fun t => (t, st.2 t))).filter (fun e => e.1 ≠ p)
      :: sparseLoop G mapping order (p + 1) rest st.2

/-- `contractGraphSparse` on `graph_access` (contract_graph.h:245-300). -/
def contractSparse (G : Graph) (mapping : Nat → Nat) (rev : List (List Nat))
    (order : Nat → List Nat → List Nat) : Graph :=
  { adj := sparseLoop G mapping order 0 rev (fun _ => 0) }

/-- `contraction::fromUnionFind(graphAccessPtr, …)` (contract_graph.h:210-234): the coarse graph and the
mapping (also stored as partition index). -/
def fromUnionFind (G : Graph) (uf : UF) (order : Nat → List Nat → List Nat) : Graph × (Nat → Nat) :=
  let s := fuLoop G.n uf
  (contractSparse G s.map s.rev order, s.map)

/-- An oracle for the iteration order of a hash set returns some rearrangement of the inserted elements. -/
def IsOrder (order : Nat → List Nat → List Nat) : Prop := ∀ p l, (order p l).Perm l

end VieCut
