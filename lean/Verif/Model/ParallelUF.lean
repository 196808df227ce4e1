import Mathlib.Logic.Function.Basic

/-!
# Model of the concurrent union-find (lib/parallel/data_structure/union_find.h)

Any number of threads execute operations on one object.  A step of a thread is one access to shared memory (a read of
`m_parent` or `m_rank`, or a compare-and-swap) together with the local computation up to the next access.  Memory is
sequentially consistent; entries are unbounded numbers.
-/

namespace VieCut
open Function

namespace CUF

/-- Calls of the public interface. -/
inductive Op where
  | union (a b : Nat)
  | find (a : Nat)
  | same (a b : Nat)
deriving DecidableEq, Repr

/-- Returned values. -/
inductive Res where
  | bool (b : Bool)
  | elt (e : Nat)
deriving DecidableEq, Repr

/-- What happens with the result of a `Find`: return it, the first or second call in `Union` (union_find.h:38-39), the
first or second call in `SameSet` (union_find.h:66-67). -/
inductive Cont where
  | ret
  | lhs (rhs : Nat)
  | rhs (lhs : Nat)
  | sx (y : Nat)
  | sy (x : Nat)
deriving DecidableEq, Repr

/-- Arguments of `UpdateRoot` (union_find.h:100); `first` distinguishes the two calls in lines 53 and 58. -/
structure Upd where
  x : Nat
  xr : Nat
  y : Nat
  yr : Nat
  first : Bool
deriving DecidableEq, Repr

/-- The next access of a thread.  `Find` (union_find.h:76-85): `test` line 77, `next` line 78, `grand` the read of
`m_parent[next]` in line 81, `halve` the compare-and-swap, `move` line 82.  `Union` (34-62): `rankL`, `rankR` lines 45-46.
`UpdateRoot` (100-114): `chkP`, `chkR` line 102, `linkP` line 106, `readR` the read of `m_rank[old]` in line 107, `linkR`
its compare-and-swap, `undo` line 111.  `SameSet` (64-74): `root` line 70. -/
inductive PC where
  | idle
  | test (k : Cont) (e : Nat)
  | next (k : Cont) (e : Nat)
  | grand (k : Cont) (e nx : Nat)
  | halve (k : Cont) (e nx p : Nat)
  | move (k : Cont) (e nx : Nat)
  | rankL (l r : Nat)
  | rankR (l r rl : Nat)
  | chkP (u : Upd)
  | chkR (u : Upd)
  | linkP (u : Upd)
  | readR (u : Upd)
  | linkR (u : Upd) (old : Nat)
  | undo (u : Upd)
  | root (x y : Nat)
deriving DecidableEq, Repr

/-- Shared memory, the threads (remaining calls, current call, next access), the completed calls with their results and
the pairs for which a `Union` was called. -/
structure St where
  parent : Nat → Nat
  rank : Nat → Nat
  prog : Nat → List Op
  op : Nat → Option Op
  pc : Nat → PC
  out : List (Nat × Op × Res)
  reqs : List (Nat × Nat)

/-- A new object (union_find.h:25-30) and threads with the given programs. -/
def start (prog : Nat → List Op) : St :=
  { parent := id, rank := fun _ => 0, prog := prog, op := fun _ => none, pc := fun _ => .idle, out := [], reqs := [] }

/-- Continue thread `t` at `p`. -/
def St.goto (s : St) (t : Nat) (p : PC) : St := { s with pc := update s.pc t p }

/-- The current call of thread `t` returns `r`. -/
def St.ret (s : St) (t : Nat) (r : Res) : St :=
  { s with pc := update s.pc t .idle, op := update s.op t none,
           out := match s.op t with | some o => (t, o, r) :: s.out | none => s.out }

/-- `Find` returns `e` (union_find.h:38-43, 66-69, 84). -/
def St.found (s : St) (t : Nat) (e : Nat) : Cont → St
  | .ret => s.ret t (.elt e)
  | .lhs r => s.goto t (.test (.rhs e) r)
  | .rhs l => if l = e then s.ret t (.bool false) else s.goto t (.rankL l e)
  | .sx y => s.goto t (.test (.sy e) y)
  | .sy x => if x = e then s.ret t (.bool true) else s.goto t (.root x e)

/-- The swap in `Union` (union_find.h:48-51). -/
def ordered (l r rl rr : Nat) : Upd :=
  if rl > rr ∨ (rl = rr ∧ l > r) then ⟨r, rr, l, rl, true⟩ else ⟨l, rl, r, rr, true⟩

/-- `UpdateRoot` returns `false` (union_find.h:53, 58-61): another round of `Union`, or its end. -/
def St.failed (s : St) (t : Nat) (u : Upd) : St :=
  if u.first then s.goto t (.test (.lhs u.y) u.x) else s.ret t (.bool true)

/-- `UpdateRoot` returns `true` (union_find.h:54-61). -/
def St.updated (s : St) (t : Nat) (u : Upd) : St :=
  if u.first && u.xr == u.yr then s.goto t (.chkP ⟨u.y, u.yr, u.y, u.yr + 1, false⟩) else s.ret t (.bool true)

/-- Call `o` on thread `t`. -/
def St.begin (s : St) (t : Nat) (o : Op) (rest : List Op) : St :=
  let s := { s with prog := update s.prog t rest, op := update s.op t (some o) }
  match o with
  | .find a => s.goto t (.test .ret a)
  | .union a b => { s with reqs := (a, b) :: s.reqs }.goto t (.test (.lhs b) a)
  | .same a b => s.goto t (.test (.sx b) a)

/-- One step of thread `t`. -/
def step (s : St) (t : Nat) : St :=
  match s.pc t with
  | .idle => match s.prog t with
    | [] => s
    | o :: rest => s.begin t o rest
  | .test k e => if s.parent e = e then s.found t e k else s.goto t (.next k e)
  | .next k e => s.goto t (.grand k e (s.parent e))
  | .grand k e nx => s.goto t (.halve k e nx (s.parent nx))
  | .halve k e nx p =>
    if s.parent e = nx then { s with parent := update s.parent e p }.goto t (.move k e nx) else s.goto t (.move k e nx)
  | .move k _ nx => s.goto t (.test k (s.parent nx))
  | .rankL l r => s.goto t (.rankR l r (s.rank l))
  | .rankR l r rl => s.goto t (.chkP (ordered l r rl (s.rank r)))
  | .chkP u => if s.parent u.x = u.x then s.goto t (.chkR u) else s.failed t u
  | .chkR u => if s.rank u.x = u.xr then s.goto t (.linkP u) else s.failed t u
  | .linkP u =>
    if s.parent u.x = u.x then { s with parent := update s.parent u.x u.y }.goto t (.readR u) else s.failed t u
  | .readR u => s.goto t (.linkR u (s.rank u.x))
  | .linkR u old =>
    if s.rank u.x = old then { s with rank := update s.rank u.x u.yr }.updated t u else s.goto t (.undo u)
  | .undo u =>
    if s.parent u.x = u.y then { s with parent := update s.parent u.x u.x }.failed t u else s.failed t u
  | .root x y => if s.parent x = x then s.ret t (.bool false) else s.goto t (.test (.sx y) x)

/-- A schedule: the threads that make the steps, in order. -/
def run (s : St) (sched : List Nat) : St := sched.foldl step s

end CUF
end VieCut
