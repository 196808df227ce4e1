import Verif.Model.NOI
import Verif.Model.MutableContract

/-!
# `noi_minimum_cut<mutableGraphPtr>` and `retrieveMinimumCut`
-/

namespace VieCut

/-- `mutable_graph` as seen by the algorithms.  `getWeightedNodeDegree` returns a stored value; it equals the sum
over the adjacency list used here (`C07_consistent`). -/
instance : GraphLike MGraph := ⟨MGraph.toGraph⟩

/-- Return value of `noi_minimum_cut<mutableGraphPtr>::perform_minimum_cut` (noi_minimum_cut.h:57-83). -/
def noiMinimumCutM (cfg : NOICfg) (ord : Nat → Nat → List Nat → List Nat) (g : MGraph) : Nat :=
  (noiFinal cfg (fun lvl H uf => MGraph.fromUnionFindM H uf true (ord lvl)) g (fun _ => false)).mincut

/-- Node-in-cut flags of the input graph afterwards. -/
def noiSavedCutM (cfg : NOICfg) (ord : Nat → Nat → List Nat → List Nat) (g : MGraph) (inCut0 : Nat → Bool) :
    Nat → Bool :=
  (noiFinal cfg (fun lvl H uf => MGraph.fromUnionFindM H uf true (ord lvl)) g inCut0).inCut

/-- Partition indices written by `retrieveMinimumCut` (minimum_cut_helpers.h:89-116) from the node-in-cut flags. -/
def retrieveMinimumCut (inCut : Nat → Bool) (v : Nat) : Nat := if inCut v then 0 else 1

end VieCut
