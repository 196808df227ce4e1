import Mathlib.Logic.Function.Basic

/-!
# Model of `lib/data_structure/union_find.h`
-/

namespace VieCut

/-- lib/data_structure/union_find.h:59-64 (`m_parent`, `m_rank`, `m_n`) and the constructor argument.
Simplification: the two vectors are functions, entries `≥ size` are never read (`Find`/`Union` are
called with arguments `< size`); `unsigned`/`int` are unbounded (sizes below `2^31`). -/
structure UF where
  size : Nat
  parent : Nat → Nat
  rank : Nat → Nat
  cnt : Nat

namespace UF

/-- lib/data_structure/union_find.h:23-28, constructor. -/
def mk' (n : Nat) : UF := { size := n, parent := fun i => i, rank := fun _ => 0, cnt := n }

/-- lib/data_structure/union_find.h:45-52, `Find` on the parent array: returns the representative and the
path-compressed array.  The recursion is fuelled; `C01_find_terminates` shows that fuel `size` is never
exhausted, i.e. that the C++ recursion ends. -/
def findAux : Nat → (Nat → Nat) → Nat → Nat × (Nat → Nat)
  | 0, p, x => (x, p)
  | f + 1, p, x =>
    if p x ≠ x then
      let r := findAux f p (p x)
      (r.1, Function.update r.2 x r.1)
    else (x, p)

/-- lib/data_structure/union_find.h:45-52, `Find`. -/
def find (u : UF) (x : Nat) : Nat × UF :=
  let r := findAux u.size u.parent x
  (r.1, { u with parent := r.2 })

/-- lib/data_structure/union_find.h:29-43, `Union`. -/
def union (u : UF) (lhs rhs : Nat) : Bool × UF :=
  let (a, u1) := u.find lhs
  let (b, u2) := u1.find rhs
  if a ≠ b then
    if u2.rank a < u2.rank b then
      (true, { u2 with parent := Function.update u2.parent a b, cnt := u2.cnt - 1 })
    else
      (true, { u2 with
        parent := Function.update u2.parent b a
        rank := if u2.rank a = u2.rank b then Function.update u2.rank a (u2.rank a + 1) else u2.rank
        cnt := u2.cnt - 1 })
  else (false, u2)

/-- Calls of the public interface (`n()` is the field `cnt`, lib/data_structure/union_find.h:56-57). -/
inductive Op where
  | union (a b : Nat)
  | find (a : Nat)

/-- One call. -/
def step (u : UF) : Op → UF
  | .union a b => (u.union a b).2
  | .find a => (u.find a).2

/-- A call history. -/
def run (n : Nat) (ops : List Op) : UF := ops.foldl step (mk' n)

/-- Pairs requested by a history. -/
def reqs : List Op → List (Nat × Nat)
  | [] => []
  | .union a b :: l => (a, b) :: reqs l
  | .find _ :: l => reqs l

/-- All arguments in range. -/
def Op.ok (n : Nat) : Op → Prop
  | .union a b => a < n ∧ b < n
  | .find a => a < n

end UF
end VieCut
