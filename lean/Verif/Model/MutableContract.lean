import Verif.Model.Contract
import Verif.Model.MutableGraph
import Verif.Model.MutableHistory
import Mathlib.Data.List.Dedup

/-!
# Model of `lib/coarsening/contract_graph.h` on `mutable_graph`
-/

namespace VieCut
namespace MGraph
open Function

/-- `containedVertices(n)[0]`, the representative stored in `reverse_mapping` (contract_graph.h:154-155);
reading an empty vector is undefined and excluded by the preconditions (`0` here). -/
def rep (g : MGraph) (v : Nat) : Nat := (g.cont v).headD 0

/-- One iteration of the contraction loop of `contractGraphVertexset` (contract_graph.h:185-193).  The class is
given by its current vertices `c` in `g`; `reverse_mapping[i]` holds their representatives.  `ord` is the
iteration order of the `unordered_set`. -/
def cvStep (g : MGraph) (ord : Nat → List Nat → List Nat) (H : MGraph) (ic : List Nat × Nat) : MGraph :=
  if (ic.1.map g.rep).length > 1 then H.contractVertexSet (ord ic.2 ((ic.1.map g.rep).map H.pos).dedup) else H

/-- `contractGraphVertexset` up to the `copy` part (contract_graph.h:174-193): `rev` lists the classes. -/
def contractVertexsets (g : MGraph) (rev : List (List Nat)) (ord : Nat → List Nat → List Nat) : MGraph :=
  rev.zipIdx.foldl (g.cvStep ord) g

/-- Inner loop body of `contractGraphSparse` for `mutable_graph` (contract_graph.h:263-285): only targets with
a larger coarse number are kept. -/
def collectEdgeM (mapping : Nat → Nat) (p : Nat) (st : List Nat × (Nat → Nat)) (e : Nat × Nat) :
    List Nat × (Nat → Nat) :=
  if e.2 = 0 then st
  else
    let ct := mapping e.1
    if ct ≤ p then st
    else if ct = p then st
    else if ct ∈ st.1 then (st.1, update st.2 ct (st.2 ct + e.2))
    else (st.1 ++ [ct], update st.2 ct e.2)

/-- Loop body of `contractGraphSparse` for coarse vertex `p` (contract_graph.h:257-292): `new_node()` and one
`new_edge` per element of `edge_positions`. -/
def sparseStepM (G : Graph) (mapping : Nat → Nat) (ord : Nat → List Nat → List Nat)
    (s : MGraph × (Nat → Nat)) (ic : List Nat × Nat) : MGraph × (Nat → Nat) :=
  let st := (ic.1.flatMap G.edges).foldl (collectEdgeM mapping ic.2) ([], s.2)
  ((ord ic.2 st.1).foldl (fun h t => h.newEdge ic.2 t (st.2 t)) s.1.newNode, st.2)

/-- `contractGraphSparse` on `mutable_graph` (contract_graph.h:245-300). -/
def contractSparseM (G : Graph) (mapping : Nat → Nat) (rev : List (List Nat))
    (ord : Nat → List Nat → List Nat) : MGraph :=
  (rev.zipIdx.foldl (sparseStepM G mapping ord) (start rev.length, fun _ => 0)).1.finishConstruction

/-- `contraction::fromUnionFind(mutableGraphPtr, uf, copy)` (contract_graph.h:133-172, 174-208): the resulting
graph and the map from the vertices of `g` to its vertices (`G->getPartitionIndex` when `copy`, and
`H->getCurrentPosition` otherwise).  With `copy` and few classes the graph is rebuilt; otherwise vertex sets
are contracted in (a copy of) the graph.  The rebuilding variant reads `reverse_mapping[p]` as vertices of `G`. -/
def fromUnionFindM (g : MGraph) (uf : UF) (copy : Bool) (ord : Nat → List Nat → List Nat) : MGraph × (Nat → Nat) :=
  if uf.cnt = g.n ∧ copy = false then (g, fun v => v)
  else
    let s := fuLoop g.n uf
    if s.rev.length * 2 > g.n ∨ copy = false then
      let H := g.contractVertexsets s.rev ord
      if copy then (H.resetContained, fun v => H.pos v) else (H, fun v => H.pos (g.rep v))
    else (contractSparseM g.toGraph s.map (s.rev.map (fun c => c.map g.rep)) ord, s.map)

/-- A graph whose vertices are still the original ones (as built by `start_construction`/`new_edge`, or after
`resetContainedvertices`). -/
def Fresh (g : MGraph) : Prop := g.posSize = g.n ∧ ∀ v, v < g.n → g.pos v = v ∧ g.cont v = [v]

end MGraph
end VieCut
