import Mathlib.Logic.Function.Basic

/-!
# The max-priority-queue interface used by the minimum cut algorithms
-/

namespace VieCut

/-- lib/data_structure/priority_queues/priority_queue_interface.h:18-40, restricted to the members that
`modified_capforest` calls.  `init` is the freshly constructed queue.  Ids and keys are the values after
conversion to the parameter types (`Gain` is `uint32_t`; callers convert). -/
structure PQ where
  σ : Type
  init : σ
  empty : σ → Bool
  insert : σ → Nat → Nat → σ
  increaseKey : σ → Nat → Nat → σ
  deleteMax : σ → Nat × σ

/-- What a caller may rely on for ids `< N` and keys `≤ K`: the queue behaves like a map from elements to
keys, and `deleteMax` removes an element of maximum key.  Which one among ties is left open.
(A specification, not code; proved for every queue class in `Props/PriorityQueues.lean`.) -/
structure PQ.Lawful (P : PQ) (N K : Nat) where
  /-- `Rel s m`: queue state `s` holds exactly the elements and keys of the map `m`. -/
  Rel : P.σ → (Nat → Option Nat) → Prop
  init : Rel P.init (fun _ => none)
  empty_iff : ∀ s m, Rel s m → (P.empty s = true ↔ ∀ v, m v = none)
  insert : ∀ s m v k, Rel s m → v < N → k ≤ K → m v = none →
    Rel (P.insert s v k) (Function.update m v (some k))
  increaseKey : ∀ s m v k k0, Rel s m → v < N → k ≤ K → m v = some k0 → k0 ≤ k →
    Rel (P.increaseKey s v k) (Function.update m v (some k))
  deleteMax : ∀ s m, Rel s m → P.empty s = false →
    ∃ k, m (P.deleteMax s).1 = some k ∧ (∀ u k', m u = some k' → k' ≤ k) ∧
      Rel (P.deleteMax s).2 (Function.update m (P.deleteMax s).1 none)

end VieCut
