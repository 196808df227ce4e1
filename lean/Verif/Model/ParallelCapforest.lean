import Verif.Model.Capforest
import Verif.Model.BucketPQ

/-!
# Model of `exact_parallel_minimum_cut::parallel_modified_capforest`
(lib/parallel/algorithm/exact_parallel_minimum_cut.h:168-240)

Any number of threads share the array `visited` and the union-find.  A step of a thread is one access to `visited` together
with the local computation that follows it.  A call of `uf.Union` is recorded in `reqs`; its execution is the subject of
`Model/ParallelUF.lean` and has no influence on the threads, because they never read the union-find.  Memory is sequentially
consistent.
-/

namespace VieCut
open Function

namespace PCF

/-- The next access of a thread: `outer` the loop test and `deleteMax` (exact_parallel_minimum_cut.h:197-200), `seen` the test
of `visited[current_node]` (204), `mark` its assignment (207), `inner` the edges still to be scanned (211-221), `again` the
second test of `visited[tgt]` (226), `done` the end of the loop. -/
inductive PC where
  | outer
  | seen (cur : Nat)
  | mark (cur : Nat)
  | inner (cur : Nat) (rest : List (Nat × Nat))
  | again (cur : Nat) (rest : List (Nat × Nat)) (tgt newRv : Nat)
  | done
deriving DecidableEq, Repr

/-- Local variables of one thread (exact_parallel_minimum_cut.h:184-191): `pq`, `local_visited`, `blacklisted`, `r_v`. -/
structure Thread (P : PQClass) where
  pq : P.σ
  loc : Nat → Bool
  black : Nat → Bool
  r : Nat → Nat
  pc : PC

/-- Shared variables and the threads; `reqs` are the arguments of the calls of `uf.Union`. -/
structure St (P : PQClass) where
  visited : Nat → Bool
  reqs : List (Nat × Nat)
  thr : Nat → Thread P

/-- The state before the loops (exact_parallel_minimum_cut.h:173-193); `starts i` is the start vertex of thread `i`. -/
def start (P : PQClass) (starts : Nat → Nat) : St P :=
  { visited := fun _ => false, reqs := [],
    thr := fun i => { pq := P.insert P.init (starts i) 0, loc := fun _ => false, black := fun _ => false, r := fun _ => 0,
                      pc := .outer } }

variable {P : PQClass}

/-- Replace the local state of thread `t`. -/
def St.set (s : St P) (t : Nat) (th : Thread P) : St P := { s with thr := update s.thr t th }

/-- One step of thread `t` (exact_parallel_minimum_cut.h:197-236).  `r_v` has 32-bit entries. -/
def step (G : Graph) (mincut : Nat) (disableBlacklist : Bool) (s : St P) (t : Nat) : St P :=
  let th := s.thr t
  match th.pc with
  | .outer =>
    if P.empty th.pq then s.set t { th with pc := .done }
    else
      let cur := (P.deleteMax th.pq).1
      let th := { th with pq := (P.deleteMax th.pq).2, loc := update th.loc cur true }
      if disableBlacklist then s.set t { th with pc := .inner cur (G.edges cur) }
      else s.set t { th with black := update th.black cur true, pc := .seen cur }
  | .seen cur => s.set t { th with pc := if s.visited cur then .outer else .mark cur }
  | .mark cur => { s with visited := update s.visited cur true }.set t { th with pc := .inner cur (G.edges cur) }
  | .inner _ [] => s.set t { th with pc := .outer }
  | .inner cur (e :: rest) =>
    if th.loc e.1 then s.set t { th with pc := .inner cur rest }
    else if th.r e.1 < mincut then
      let s := { s with reqs := if th.r e.1 + e.2 ≥ mincut ∧ th.black e.1 = false then (cur, e.1) :: s.reqs else s.reqs }
      if s.visited e.1 then s.set t { th with pc := .inner cur rest }
      else
        let newRv := min (th.r e.1 + e.2) mincut
        s.set t { th with r := update th.r e.1 (newRv % 2 ^ 32), pc := .again cur rest e.1 newRv }
    else s.set t { th with pc := .inner cur rest }
  | .again cur rest tgt newRv =>
    if !s.visited tgt && !th.loc tgt then
      s.set t { th with pq := if P.contains th.pq tgt then P.increaseKey th.pq tgt (toGain newRv)
                              else P.insert th.pq tgt (toGain newRv),
                        pc := .inner cur rest }
    else s.set t { th with pc := .inner cur rest }
  | .done => s

/-- A schedule: the threads that make the steps, in order. -/
def run (G : Graph) (mincut : Nat) (disableBlacklist : Bool) (s : St P) (sched : List Nat) : St P :=
  sched.foldl (step G mincut disableBlacklist) s

end PCF
end VieCut
