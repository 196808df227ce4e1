import Verif.Model.ParallelCapforest
import Verif.Model.BucketPQ
import Verif.Proof.UnionFind

/-! # Specification notions for parallel CAPFOREST -/

namespace VieCut
namespace PCF

/-- In the run given by the schedule, whenever a thread makes the second test of `visited[tgt]` for an edge
(exact_parallel_minimum_cut.h:226), no other thread has set the flag since the first test (221). -/
def ReadsAgree {P : PQClass} (G : Graph) (mincut : Nat) (disableBlacklist : Bool) (starts : Nat → Nat) (sched : List Nat) : Prop :=
  ∀ k t cur rest tgt newRv, sched[k]? = some t →
    ((run G mincut disableBlacklist (start P starts) (sched.take k)).thr t).pc = .again cur rest tgt newRv →
    (run G mincut disableBlacklist (start P starts) (sched.take k)).visited tgt = false

/-- The bucket queue that the threads use (exact_parallel_minimum_cut.h:184). -/
abbrev queue (mincut : Nat) : PQClass := FQ.cls (mincut + 1)

/-- `uf` can be what `parallel_modified_capforest(H, mincut)` returns: there are start vertices and an interleaving without the
race such that vertices are in one class only if the threads' `Union` requests link them (C28, `CUF.C28_sound`; requests may be
lost).  `uf` stands for the classes; the ranks left by the concurrent calls are not used afterwards. -/
def Outcome (H : Graph) (mincut : Nat) (uf : UF) : Prop :=
  uf.Inv ∧ uf.size = H.n ∧ ∃ (starts : Nat → Nat) (sched : List Nat), (∀ i, starts i < H.n) ∧
    ReadsAgree (P := queue mincut) H mincut false starts sched ∧
    ∀ a b, uf.root a = uf.root b → Linked (run H mincut false (start (queue mincut) starts) sched).reqs a b

end PCF
end VieCut
