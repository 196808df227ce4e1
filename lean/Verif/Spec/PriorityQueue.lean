import Verif.Model.PQInterface
import Mathlib.Data.Finset.Card
import Mathlib.Data.Finset.Range

/-!
# Specification: a priority queue is a finite map from elements to keys

`History P N K s m` says: some history of legal calls brings the queue class `P` to state `s`, and `m` is the
map from elements to keys that a user would compute by hand from the same calls (the only information taken
from the queue is which element `deleteMax` returned).  `Agrees` says that everything that can be
observed in `s` is what `m` says.
-/

namespace VieCut

/-- All members of lib/data_structure/priority_queues/priority_queue_interface.h:18-40. -/
structure PQClass extends PQ where
  size : σ → Nat
  maxValue : σ → Nat
  maxElement : σ → Nat
  decreaseKey : σ → Nat → Nat → σ
  changeKey : σ → Nat → Nat → σ
  getKey : σ → Nat → Nat
  deleteNode : σ → Nat → σ
  contains : σ → Nat → Bool

/-- Legal call histories: elements `< N`, keys `≤ K`, `insert` only of absent elements, key changes and deletions
only of present elements, increase/decrease in the stated direction, `deleteMax` only on non-empty queues. -/
inductive History (P : PQClass) (N K : Nat) : P.σ → (Nat → Option Nat) → Prop
  | init : History P N K P.init (fun _ => none)
  | insert {s m} (v k : Nat) : History P N K s m → v < N → k ≤ K → m v = none →
      History P N K (P.insert s v k) (Function.update m v (some k))
  | increaseKey {s m} (v k k0 : Nat) : History P N K s m → m v = some k0 → k0 ≤ k → k ≤ K →
      History P N K (P.increaseKey s v k) (Function.update m v (some k))
  | decreaseKey {s m} (v k k0 : Nat) : History P N K s m → m v = some k0 → k ≤ k0 →
      History P N K (P.decreaseKey s v k) (Function.update m v (some k))
  | changeKey {s m} (v k k0 : Nat) : History P N K s m → m v = some k0 → k ≤ K →
      History P N K (P.changeKey s v k) (Function.update m v (some k))
  | deleteNode {s m} (v k0 : Nat) : History P N K s m → m v = some k0 →
      History P N K (P.deleteNode s v) (Function.update m v none)
  | deleteMax {s m} (v k0 : Nat) : History P N K s m → m v = some k0 →
      History P N K (P.deleteMax s).2 (Function.update m (P.deleteMax s).1 none)

/-- `k` is the largest key of `m` and `v` has it. -/
def IsMax (m : Nat → Option Nat) (v k : Nat) : Prop :=
  m v = some k ∧ ∀ u k', m u = some k' → k' ≤ k

/-- Every observation of queue state `s` is the one predicted by the map `m`. -/
structure Agrees (P : PQClass) (N : Nat) (s : P.σ) (m : Nat → Option Nat) : Prop where
  dom : ∀ v k, m v = some k → v < N
  size : P.size s = ((Finset.range N).filter (fun v => m v ≠ none)).card
  empty : P.empty s = true ↔ ∀ v, m v = none
  contains : ∀ v, P.contains s v = true ↔ ∃ k, m v = some k
  getKey : ∀ v k, m v = some k → P.getKey s v = k
  max : (∃ v k, m v = some k) → IsMax m (P.maxElement s) (P.maxValue s)
  deleteMax : (∃ v k, m v = some k) → ∃ k, IsMax m (P.deleteMax s).1 k

end VieCut
