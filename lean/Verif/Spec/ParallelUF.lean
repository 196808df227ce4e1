import Verif.Model.ParallelUF
import Mathlib.Logic.Relation
import Mathlib.Logic.Function.Iterate

/-! # Specification of the concurrent union-find -/

namespace VieCut

namespace CUF

/-- Elements that the `Union` calls of the programs connect. -/
def Requested (prog : Nat → List Op) : Nat → Nat → Prop :=
  Relation.EqvGen fun a b => ∃ t, Op.union a b ∈ prog t

/-- Following the pointers from `a` and from `b` ends at the same root. -/
def SameRoot (parent : Nat → Nat) (a b : Nat) : Prop :=
  ∃ r i j, parent^[i] a = r ∧ parent^[j] b = r ∧ parent r = r

/-- At every moment of the run at most one thread is executing a `Union`. -/
def UnionsApart (prog : Nat → List Op) (sched : List Nat) : Prop :=
  ∀ k t t' a b a' b', (run (start prog) (sched.take k)).op t = some (.union a b) →
    (run (start prog) (sched.take k)).op t' = some (.union a' b') → t = t'

/-- All calls of all threads have returned. -/
def Quiescent (s : St) : Prop := ∀ t, s.op t = none ∧ s.prog t = []

/-- Thread `t` has completed call `o` with result `r`. -/
def Completed (s : St) (t : Nat) (o : Op) (r : Res) : Prop := (t, o, r) ∈ s.out

end CUF
end VieCut
