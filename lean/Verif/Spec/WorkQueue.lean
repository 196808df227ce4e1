import Verif.Model.WorkQueue

/-! # Specification notions for the work queue -/

namespace VieCut
namespace WQ

/-- `top` selects an element of every non-empty list. -/
def Picks (top : List Prob → Nat) : Prop := ∀ l, l ≠ [] → top l < l.length

/-- The programs of `n` threads that use the queues `0, …, n-1` (as many queues as threads, line 30). -/
def Proper (n : Nat) (prog : Nat → List Op) : Prop :=
  (∀ t, n ≤ t → prog t = []) ∧ ∀ t, ∀ o ∈ prog t, match o with
    | .add _ q => q < n
    | .pull i _ => i < n
    | .prepare i _ => i < n

/-- The problems in the queues and in the slot for the problem to be sent. -/
def St.stored (s : St) (n : Nat) : List Prob := (List.range n).flatMap s.pq ++ s.send.toList

/-- All calls of all threads have returned. -/
def Quiescent (s : St) : Prop := ∀ t, s.pc t = .idle ∧ s.prog t = []

/-- Whenever a thread stores its problem in the slot because it has seen an empty slot (line 167), the slot is still empty. -/
def SlotStillEmpty (top : List Prob → Nat) (prog : Nat → List Op) (sched : List Nat) : Prop :=
  ∀ k t p q, sched[k]? = some t → (run top (start prog) (sched.take k)).pc t = .aSet p q →
    (run top (start prog) (sched.take k)).have_ = false

/-- Whenever a thread unlocks the mutex of the slot for the second time (line 188 after line 186), no thread has locked it in
between. -/
def NoForeignUnlock (top : List Prob → Nat) (prog : Nat → List Op) (sched : List Nat) : Prop :=
  ∀ k t p q, sched[k]? = some t → (run top (start prog) (sched.take k)).pc t = .bUnlock2 p q true →
    (run top (start prog) (sched.take k)).sendM = none

/-- At every moment at most one thread executes a call. -/
def Serial (top : List Prob → Nat) (prog : Nat → List Op) (sched : List Nat) : Prop :=
  ∀ k t t', (run top (start prog) (sched.take k)).pc t ≠ .idle → (run top (start prog) (sched.take k)).pc t' ≠ .idle → t = t'

/-- Nothing is lost or duplicated: no null problem is returned; problems are discarded only if their lower bound is not better than
the bound of the call; no problem is handed out more often than it was added; and when all calls have returned, every
problem added is stored, was returned or was discarded, with the same multiplicity, and `size()` is the number of stored
problems. -/
def Conserved (n : Nat) (s : St) : Prop :=
  s.exited = false ∧ (∀ e ∈ s.discarded, e.2 ≤ e.1.lower) ∧
  (∀ x, s.pulled.count x + (s.discarded.map Prod.fst).count x ≤ s.added.count x) ∧
  (Quiescent s → s.added.Perm (s.stored n ++ s.pulled ++ s.discarded.map Prod.fst) ∧ s.total n = (s.stored n).length)

end WQ
end VieCut
