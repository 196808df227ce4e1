import Mathlib.Logic.Function.Basic

/-!
# Model of `per_thread_problem_queue`
(lib/algorithms/multicut/problem_queues/per_thread_problem_queue.h)

Threads `0, 1, …` execute calls on one object.  A step of a thread is one access to shared memory, or one lock or unlock,
together with the local computation up to the next one.  `pq[i]` is only accessed by the owner of `pop_mutex[i]`, so an access to it may be part of the
preceding step.  Memory is sequentially consistent (in C++ the unlocked accesses to `haveSendProblem` and `sendProblemWeight` are data
races).  A mutex stores its owner; `unlock` frees it whoever owns it, as the default mutex of the C library does.
-/

namespace VieCut
open Function

namespace WQ

/-- What the queue uses of a `multicut_problem`. -/
structure Prob where
  id : Nat
  lower : Nat
deriving DecidableEq, Repr

/-- Calls of the public interface.  `add p q`: `addProblem`, where `q` is the `min_index` computed in lines 136-160; it depends on
unsynchronised reads of all sizes, so it is arbitrary.  `pull i sending`: `pullProblem`.  `prepare i bound`:
`prepareQueue`. -/
inductive Op where
  | add (p : Prob) (q : Nat)
  | pull (i : Nat) (sending : Bool)
  | prepare (i : Nat) (bound : Nat)
deriving DecidableEq, Repr

/-- The next access of a thread.

`addProblem`: `aLock` line 162; `aHave` 164; `aLockS` 165, `aSet` 167, `aWeight` 168, `aFlag` 169, `aUnlock` 170, `aUnlockS` 171;
`bSize` 175; `bTest` 178; `bLock` 179; `bHave` 180; `bRead` 181; `bPush` 182; `bSet` 183; `bWeight` 184; `bUnlock1` 186; `bUnlock2` 188
(`moved` is `movedProblem`); `bAdd` 192; `bUnlock` 194.
`pullProblem`: `pLock` 105; `pTest` 106 and 120-121; `pLockS` 107; `pHave` 108; `pWeight` 109; `pFlag` 110; `pTake` 111; `pNull` 112;
`pUnlockS` 118; `eUnlockS` 114; `eUnlock` 115; `pSize` 122-123; `pUnlock` 125-132.
`prepareQueue`: `rLock` 84; `rTest` 85-88; `rSize` 89-90; `rUnlock` 95. -/
inductive PC where
  | idle
  | aLock (p : Prob) (q : Nat)
  | aHave (p : Prob) (q : Nat)
  | aLockS (p : Prob) (q : Nat)
  | aSet (p : Prob) (q : Nat)
  | aWeight (p : Prob) (q : Nat)
  | aFlag (p : Prob) (q : Nat)
  | aUnlock (q : Nat)
  | aUnlockS
  | bSize (p : Prob) (q : Nat)
  | bTest (p : Prob) (q : Nat)
  | bLock (p : Prob) (q : Nat)
  | bHave (p : Prob) (q : Nat)
  | bRead (p : Prob) (q : Nat)
  | bPush (p : Prob) (q : Nat) (mcp : Option Prob)
  | bSet (p : Prob) (q : Nat) (mcp : Option Prob)
  | bWeight (p : Prob) (q : Nat)
  | bUnlock1 (p : Prob) (q : Nat)
  | bUnlock2 (p : Prob) (q : Nat) (moved : Bool)
  | bAdd (p : Prob) (q : Nat)
  | bUnlock (q : Nat)
  | pLock (i : Nat) (sending : Bool)
  | pTest (i : Nat) (sending : Bool)
  | pLockS (i : Nat)
  | pHave (i : Nat)
  | pWeight (i : Nat)
  | pFlag (i : Nat)
  | pTake (i : Nat)
  | pNull (i : Nat) (cur : Option Prob)
  | pUnlockS (i : Nat) (cur : Option Prob)
  | eUnlockS (i : Nat)
  | eUnlock (i : Nat)
  | pSize (i : Nat) (cur : Option Prob)
  | pUnlock (i : Nat) (cur : Option Prob)
  | rLock (i : Nat) (bound : Nat)
  | rTest (i : Nat) (bound : Nat)
  | rSize (i : Nat) (bound : Nat)
  | rUnlock (i : Nat)
deriving DecidableEq, Repr

/-- Shared memory; the threads; the problems given to `addProblem` so far, those returned by `pullProblem`, and those
discarded by `prepareQueue` with the bound of the call; `exited` is set by `exit(1)` (line 129). -/
structure St where
  pq : Nat → List Prob
  size : Nat → Nat
  send : Option Prob
  have_ : Bool
  weight : Nat
  popM : Nat → Option Nat
  sendM : Option Nat
  prog : Nat → List Op
  pc : Nat → PC
  added : List Prob
  pulled : List Prob
  discarded : List (Prob × Nat)
  exited : Bool

/-- `UNDEFINED_FLOW` (lib/common/definitions.h). -/
def undefinedFlow : Nat := 2 ^ 63 - 1

/-- A new object (lines 29-80) and threads with the given programs. -/
def start (prog : Nat → List Op) : St :=
  { pq := fun _ => [], size := fun _ => 0, send := none, have_ := false, weight := undefinedFlow, popM := fun _ => none,
    sendM := none, prog := prog, pc := fun _ => .idle, added := [], pulled := [], discarded := [], exited := false }

/-- Continue thread `t` at `p`. -/
def St.goto (s : St) (t : Nat) (p : PC) : St := { s with pc := update s.pc t p }

/-- `pop_mutex[i].lock()`: wait while the mutex is owned. -/
def St.lockPop (s : St) (t i : Nat) (p : PC) : St :=
  match s.popM i with
  | none => { s with popM := update s.popM i (some t) }.goto t p
  | some _ => s

/-- `send_problem_mutex.lock()`. -/
def St.lockSend (s : St) (t : Nat) (p : PC) : St :=
  match s.sendM with
  | none => { s with sendM := some t }.goto t p
  | some _ => s

/-- `pop_mutex[i].unlock()`. -/
def St.unlockPop (s : St) (t i : Nat) (p : PC) : St := { s with popM := update s.popM i none }.goto t p

/-- `send_problem_mutex.unlock()`. -/
def St.unlockSend (s : St) (t : Nat) (p : PC) : St := { s with sendM := none }.goto t p

/-- Call `o` on thread `t`. -/
def St.begin (s : St) (t : Nat) (o : Op) (rest : List Op) : St :=
  let s := { s with prog := update s.prog t rest }
  match o with
  | .add p q => { s with added := p :: s.added }.goto t (.aLock p q)
  | .pull i sending => s.goto t (.pLock i sending)
  | .prepare i bound => s.goto t (.rLock i bound)

/-- One step of thread `t`.  `top l` is the index in `l` of the problem that `std::priority_queue::top` returns for the
selected comparison function. -/
def step (top : List Prob → Nat) (s : St) (t : Nat) : St :=
  if s.exited then s else
  match s.pc t with
  | .idle => match s.prog t with
    | [] => s
    | o :: rest => s.begin t o rest
  | .aLock p q => s.lockPop t q (.aHave p q)
  | .aHave p q => s.goto t (if s.have_ then .bSize p q else .aLockS p q)
  | .aLockS p q => s.lockSend t (.aSet p q)
  | .aSet p q => { s with send := some p }.goto t (.aWeight p q)
  | .aWeight p q => { s with weight := p.lower }.goto t (.aFlag p q)
  | .aFlag _ q => { s with have_ := true }.goto t (.aUnlock q)
  | .aUnlock q => s.unlockPop t q .aUnlockS
  | .aUnlockS => s.unlockSend t .idle
  | .bSize p q => { s with size := update s.size q (s.size q + 1) }.goto t (.bTest p q)
  | .bTest p q => s.goto t (if s.weight > p.lower then .bLock p q else .bAdd p q)
  | .bLock p q => s.lockSend t (.bHave p q)
  | .bHave p q => s.goto t (if s.have_ then .bRead p q else .bUnlock2 p q false)
  | .bRead p q => s.goto t (.bPush p q s.send)
  | .bPush p q mcp => { s with pq := update s.pq q (mcp.toList ++ s.pq q) }.goto t (.bSet p q mcp)
  | .bSet p q _ => { s with send := some p }.goto t (.bWeight p q)
  | .bWeight p q => { s with weight := p.lower }.goto t (.bUnlock1 p q)
  | .bUnlock1 p q => s.unlockSend t (.bUnlock2 p q true)
  | .bUnlock2 p q moved => s.unlockSend t (if moved then .bUnlock q else .bAdd p q)
  | .bAdd p q => { s with pq := update s.pq q (p :: s.pq q) }.goto t (.bUnlock q)
  | .bUnlock q => s.unlockPop t q .idle
  | .pLock i sending => s.lockPop t i (.pTest i sending)
  | .pTest i sending =>
    if (sending && s.have_) || (s.pq i).isEmpty then s.goto t (.pLockS i)
    else { s with pq := update s.pq i ((s.pq i).eraseIdx (top (s.pq i))) }.goto t (.pSize i (s.pq i)[top (s.pq i)]?)
  | .pLockS i => s.lockSend t (.pHave i)
  | .pHave i => s.goto t (if s.have_ then .pWeight i else .eUnlockS i)
  | .pWeight i => { s with weight := undefinedFlow }.goto t (.pFlag i)
  | .pFlag i => { s with have_ := false }.goto t (.pTake i)
  | .pTake i => s.goto t (.pNull i s.send)
  | .pNull i cur => { s with send := none }.goto t (.pUnlockS i cur)
  | .pUnlockS i cur => s.unlockSend t (.pUnlock i cur)
  | .eUnlockS i => s.unlockSend t (.eUnlock i)
  | .eUnlock i => s.unlockPop t i .idle
  | .pSize i cur => { s with size := update s.size i (s.size i - 1) }.goto t (.pUnlock i cur)
  | .pUnlock i cur => match cur with
    | some p => { s with pulled := p :: s.pulled }.unlockPop t i .idle
    | none => { s with exited := true }.unlockPop t i .idle
  | .rLock i bound => s.lockPop t i (.rTest i bound)
  | .rTest i bound => match (s.pq i)[top (s.pq i)]? with
    | some p =>
      if p.lower ≥ bound then
        { s with pq := update s.pq i ((s.pq i).eraseIdx (top (s.pq i))), discarded := (p, bound) :: s.discarded }.goto t
          (.rSize i bound)
      else s.goto t (.rUnlock i)
    | none => s.goto t (.rUnlock i)
  | .rSize i bound => { s with size := update s.size i (s.size i - 1) }.goto t (.rTest i bound)
  | .rUnlock i => s.unlockPop t i .idle

/-- A schedule: the threads that make the steps, in order. -/
def run (top : List Prob → Nat) (s : St) (sched : List Nat) : St := sched.foldl (step top) s

/-- `size()` (lines 206-215) on `n` threads, read while no other thread runs. -/
def St.total (s : St) (n : Nat) : Nat := ((List.range n).map s.size).sum + (if s.have_ then 1 else 0)

end WQ
end VieCut
