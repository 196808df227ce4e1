import Verif.Model.PRTests

/-!
# Model of `lib/parallel/coarsening/contraction_tests.h`: `prTests12` and `prTests34` with several threads

The loops over the vertices are distributed over threads.  The distribution is arbitrary (`work t` lists the vertices that
thread `t` handles, in order), which covers `schedule(dynamic, 100)`.  A step of a thread contains at most one access to the
shared vectors `contracted` and `finished`, or is one call of `Union`; memory is sequentially consistent.  The calls of `Union`
are recorded per thread in program order; the union-find itself is modelled in `Model/ParallelUF`, and its memory is not
accessed by the code here.  Degrees are computed before the parallel region (lines 64, 118) and do not change.
-/

namespace VieCut
open Function

namespace PPR

/-- Instructions of a thread in `prTests12`: `contracted[v] = true`; `uf.Union(a, b)`; the compare-and-swap of `contracted[v]`
which, if successful, is followed by `contracted[x] = true; uf.Union(a, b)` (contraction_tests.h:95-99, 101-105). -/
inductive Instr where
  | store (v : Nat)
  | union (a b : Nat)
  | claim (v x a b : Nat)
deriving DecidableEq, Repr

/-- Body of the loop over the edges of `n` (contraction_tests.h:75-107); the degrees are stored in 32 bits, `2 * wgt` has 64. -/
def edgeCode (G : Graph) (limit : Nat) (all : Bool) (n : Nat) (e : Nat × Nat) : List Instr :=
  let nWgt := u32 (G.deg n)
  let tWgt := u32 (G.deg e.1)
  (if e.2 ≥ limit then [.store n, .store e.1, .union n e.1] else []) ++
  (if !all || (decide (nWgt ≥ limit) && decide (tWgt ≥ limit)) then
    if u64 (2 * e.2) > nWgt then [.claim n e.1 n e.1]
    else if u64 (2 * e.2) > tWgt then [.claim e.1 n n e.1]
    else []
  else [])

/-- What a thread does that handles the vertices `vs` (contraction_tests.h:71-109). -/
def code (G : Graph) (limit : Nat) (all : Bool) (vs : List Nat) : List Instr :=
  vs.flatMap fun n => (G.edges n).flatMap (edgeCode G limit all n)

/-- Shared vector, remaining instructions of the threads, calls of `Union` made so far. -/
structure St12 where
  contracted : Nat → Bool
  code : Nat → List Instr
  calls : Nat → List (Nat × Nat)

/-- Beginning of the parallel region (contraction_tests.h:63-70). -/
def start12 (G : Graph) (limit : Nat) (all : Bool) (work : Nat → List Nat) : St12 :=
  { contracted := fun _ => false, code := fun t => code G limit all (work t), calls := fun _ => [] }

/-- One step of thread `t`. -/
def step12 (s : St12) (t : Nat) : St12 :=
  match s.code t with
  | [] => s
  | .store v :: r => { s with contracted := update s.contracted v true, code := update s.code t r }
  | .union a b :: r => { s with code := update s.code t r, calls := update s.calls t (s.calls t ++ [(a, b)]) }
  | .claim v x a b :: r =>
    if s.contracted v then { s with code := update s.code t r }
    else { s with contracted := update s.contracted v true, code := update s.code t (.store x :: .union a b :: r) }

/-- A schedule: the threads that make the steps, in order. -/
def run12 (G : Graph) (limit : Nat) (all : Bool) (work : Nat → List Nat) (sched : List Nat) : St12 :=
  sched.foldl step12 (start12 G limit all work)

/-- The position of a thread in `prTests34`.  `idle`: next iteration, line 127; `enter`: line 131; `edge`: loop of line 141 with
remaining edges `es`; `tri`: loop of line 147 with remaining edges `e2s`, `sum` is `wgt_sum`; `second`: compare-and-swap of
lines 182-183; `unite`: line 184; `limN`, `limT`, `limU`: lines 192, 193, 194. -/
inductive PC where
  | idle
  | enter (n : Nat)
  | edge (n : Nat) (es : List (Nat × Nat))
  | tri (n t w1 : Nat) (es e2s : List (Nat × Nat)) (sum : Nat)
  | second (n t w1 : Nat) (es e2s : List (Nat × Nat)) (sum : Nat)
  | unite (n t : Nat) (es : List (Nat × Nat)) (sum : Nat)
  | limN (n t : Nat) (es : List (Nat × Nat))
  | limT (n t : Nat) (es : List (Nat × Nat))
  | limU (n t : Nat) (es : List (Nat × Nat))
deriving DecidableEq, Repr

/-- A thread: remaining vertices, position, its own vector `marked` (contraction_tests.h:123-125; as in `PR34`, `none` is the
undefined pair, and the weight of the marking edge is stored instead of its number), calls of `Union` made so far. -/
structure Thr where
  work : List Nat
  pc : PC
  marked : Nat → Option (Nat × Nat)
  calls : List (Nat × Nat)

/-- Shared vectors and threads.  `pairs` is a ghost variable: the pairs for which both compare-and-swaps succeeded. -/
structure St34 where
  finished : Nat → Bool
  contracted : Nat → Bool
  thr : Nat → Thr
  pairs : List (Nat × Nat)

/-- Beginning of the parallel region (contraction_tests.h:117-126). -/
def start34 (work : Nat → List Nat) : St34 :=
  { finished := fun _ => false, contracted := fun _ => false,
    thr := fun t => { work := work t, pc := .idle, marked := fun _ => none, calls := [] }, pairs := [] }

/-- The test of lines 161-174; `deg_n` and `deg_tgt` have the 32-bit type `NodeID`. -/
def contractible (G : Graph) (limit : Nat) (all : Bool) (n t w1 w2 w3 : Nat) : Bool :=
  let dn := u32 (G.deg n)
  let dt := u32 (G.deg t)
  (!all && decide (u64 (2 * u64 (w1 + w3)) ≥ dn) && decide (u64 (2 * u64 (w1 + w2)) ≥ dt)) ||
  (all && decide (u64 (2 * u64 (w1 + w3)) > dn) && decide (u64 (2 * u64 (w1 + w2)) > dt) && decide (dn ≥ limit) &&
    decide (dt ≥ limit))

/-- Continue thread `t` at `p`. -/
def St34.goto (s : St34) (τ : Nat) (p : PC) : St34 := { s with thr := update s.thr τ { s.thr τ with pc := p } }

/-- `contracted[v] = true`. -/
def St34.store (s : St34) (v : Nat) : St34 := { s with contracted := update s.contracted v true }

/-- `marked[t]` is reset and the loop of line 141 continues (contraction_tests.h:196-197). -/
def St34.next (s : St34) (τ n t : Nat) (es : List (Nat × Nat)) : St34 :=
  { s with thr := update s.thr τ { s.thr τ with pc := .edge n es, marked := update (s.thr τ).marked t none } }

/-- `uf.Union(n, t)`. -/
def St34.call (s : St34) (τ n t : Nat) : St34 :=
  { s with thr := update s.thr τ { s.thr τ with calls := (s.thr τ).calls ++ [(n, t)] } }

/-- The test of line 191 after the inner loop. -/
def St34.after (s : St34) (limit τ n t : Nat) (es : List (Nat × Nat)) (sum : Nat) : St34 :=
  if sum ≥ limit then s.goto τ (.limN n t es) else s.next τ n t es

/-- One step of thread `τ`. -/
def step34 (G : Graph) (limit : Nat) (all : Bool) (s : St34) (τ : Nat) : St34 :=
  match (s.thr τ).pc with
  | .idle => match (s.thr τ).work with
    | [] => s
    | n :: rest =>
      let s := { s with thr := update s.thr τ { s.thr τ with work := rest } }
      if s.finished n then s else s.goto τ (.enter n)
  | .enter n =>
    { s with finished := update s.finished n true,
             thr := update s.thr τ { s.thr τ with pc := .edge n (G.edges n),
                                                  marked := (G.edges n).foldl (pr34Mark n) (s.thr τ).marked } }
  | .edge n es => match es with
    | [] => s.goto τ .idle
    | e :: es =>
      let s := { s with finished := update s.finished e.1 true }
      if e.1 > n then s.goto τ (.tri n e.1 e.2 es (G.edges e.1) e.2) else s.goto τ (.edge n es)
  | .tri n t w1 es e2s sum => match e2s with
    | [] => s.after limit τ n t es sum
    | e2 :: e2s =>
      match (s.thr τ).marked e2.1 with
      | none => s.goto τ (.tri n t w1 es e2s sum)
      | some (m, w3) =>
        if m ≠ n then s.goto τ (.tri n t w1 es e2s sum)
        else
          let sum := u64 (sum + min e2.2 w3)
          if contractible G limit all n t w1 e2.2 w3 && !s.contracted n then
            (s.store n).goto τ (.second n t w1 es e2s sum)
          else s.goto τ (.tri n t w1 es e2s sum)
  | .second n t w1 es e2s sum =>
    if s.contracted t then s.goto τ (.tri n t w1 es e2s sum)
    else { s.store t with pairs := (n, t) :: s.pairs }.goto τ (.unite n t es sum)
  | .unite n t es sum => (s.call τ n t).after limit τ n t es sum
  | .limN n t es => (s.store n).goto τ (.limT n t es)
  | .limT n t es => (s.store t).goto τ (.limU n t es)
  | .limU n t es => (s.call τ n t).next τ n t es

/-- A schedule. -/
def run34 (G : Graph) (limit : Nat) (all : Bool) (work : Nat → List Nat) (sched : List Nat) : St34 :=
  sched.foldl (step34 G limit all) (start34 work)

end PPR
end VieCut
