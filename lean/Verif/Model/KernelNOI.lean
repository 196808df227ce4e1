import Verif.Model.Multicut
import Verif.Model.Capforest
import Verif.Model.NOI

/-!
# Model of the connectivity pass of `kernelization`
(lib/algorithms/multicut/kernelization_criteria.h:66-87)
-/

namespace VieCut
namespace Problem

/-- `flow_values` (kernelization_criteria.h:66-76): the weighted degrees of the current vertices of the terminals. -/
def termDegrees (ots : List Nat) (p : Problem) : List Nat :=
  p.terminals.map fun t => p.graph.wdeg (p.at' (ots.getD t.origId 0))

/-- `contr_flow` (kernelization_criteria.h:78-84): the sum without the two largest values.  `std::sort` is modelled by a
sorting function on lists of numbers. -/
def contrFlow (ds : List Nat) : Nat :=
  let s := ds.insertionSort (· ≤ ·)
  if s.length ≥ 2 then ds.sum - s.getD (s.length - 1) 0 - s.getD (s.length - 2) 0 else 0

/-- `noi_limit` (kernelization_criteria.h:86-88), an unsigned number of 64 bits; `tlx::div_ceil(a, b)` is
`(a + b - 1) / b`. -/
def noiLimit (ots : List Nat) (ub : Nat) (p : Problem) : Nat :=
  (((ub : Int) - p.deleted - ((contrFlow (p.termDegrees ots) + 3) / 4 : Nat)) % 2 ^ 64).toNat

/-- The pass (kernelization_criteria.h:85-90) for the configured queue, with or without limiting; `start` is the random
start vertex and `ub` the value of `global_upper_bound` handed to `kernelization`. -/
def noiPass (ots : List Nat) (ord : Nat → List Nat → List Nat) (kind : PQKind) (limited : Bool) (start ub : Nat)
    (p : Problem) : Problem :=
  p.contractIfImproved ots ord
    (capforest (selectPQ kind limited p.graph.n (p.noiLimit ots ub) p.graph.toGraph.maxDegree).toPQ limited
      p.graph.toGraph (p.noiLimit ots ub) start)

end Problem
end VieCut
