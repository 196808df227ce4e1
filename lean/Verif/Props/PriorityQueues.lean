import Verif.Proof.NodeHeap

/-! # C06: the priority queues implement a map with maximum extraction -/

namespace VieCut

/-- `bucket_pq` with `gain_span = K` agrees with the map computed from the call history. -/
theorem C06_bucket_pq (N K : Nat) (hK : 2 * K < 2 ^ 32) (s : BQ) (m : Nat → Option Nat)
    (h : History (BQ.cls true K) N K s m) : Agrees (BQ.cls true K) N s m :=
  (BQ.sim hK true).agrees s m ((BQ.sim hK true).history h)

/-- `node_bucket_pq` with `gain_span = K` agrees with the map computed from the call history. -/
theorem C06_node_bucket_pq (N K : Nat) (hK : 2 * K < 2 ^ 32) (s : BQ) (m : Nat → Option Nat)
    (h : History (BQ.cls false K) N K s m) : Agrees (BQ.cls false K) N s m :=
  (BQ.sim hK false).agrees s m ((BQ.sim hK false).history h)

/-- `fifo_node_bucket_pq` with `gain_span = K` agrees with the map computed from the call history. -/
theorem C06_fifo_node_bucket_pq (N K : Nat) (hK : 2 * K < 2 ^ 32) (s : FQ) (m : Nat → Option Nat)
    (h : History (FQ.cls K) N K s m) : Agrees (FQ.cls K) N s m :=
  (FQ.sim hK).agrees s m ((FQ.sim hK).history h)

/-- `maxNodeHeap` and `vecMaxNodeHeap` agree with the map computed from the call history. -/
theorem C06_node_heap (N K : Nat) (s : NH) (m : Nat → Option Nat)
    (h : History NH.cls N K s m) : Agrees NH.cls N s m :=
  (NH.sim N K).agrees s m ((NH.sim N K).history h)

/-- In a FIFO bucket ties are broken in insertion order; here: two elements inserted with the same key into an
empty queue leave in the order of insertion, in a LIFO bucket in reverse order. -/
theorem C06_tie_break (K a b k : Nat) (hK : 2 * K < 2 ^ 32) (hk : k ≤ K) :
    (((FQ.new K).insert a k).insert b k).deleteMax.1 = a ∧
    ((((BQ.new K).insert a k).insert b k).deleteMax false).1 = b := by
  have haddr := BQ.addr_eq hK hk
  constructor
  · simp only [FQ.insert, FQ.deleteMax, FQ.new, haddr]
    have : (if k + K > (if k + K > 0 then k + K else 0) then k + K else (if k + K > 0 then k + K else 0))
        = k + K := by split <;> (try split) <;> omega
    rw [this]; simp
  · simp only [BQ.insert, BQ.deleteMax, BQ.new, haddr]
    have : (if k + K > (if k + K > 0 then k + K else 0) then k + K else (if k + K > 0 then k + K else 0))
        = k + K := by split <;> (try split) <;> omega
    rw [this]; simp

/-- Non-vacuity: a legal history with ties, a key change, a deletion and a maximum extraction exists for each
class (shown for the FIFO bucket queue and the heap); the extracted elements are as expected. -/
example : ∃ (s : FQ) (m : Nat → Option Nat), History (FQ.cls 7) 5 7 s m ∧ m 2 = some 7 ∧ s.elements = 2 ∧
    s.deleteMax.1 = 2 := by
  have h0 : History (FQ.cls 7) 5 7 _ _ := .init
  have h1 := History.insert 0 3 h0 (by decide) (by decide) (by decide)
  have h2 := History.insert 1 3 h1 (by decide) (by decide) (by decide)
  have h3 := History.insert 2 5 h2 (by decide) (by decide) (by decide)
  have h4 := History.increaseKey 2 7 5 h3 (by decide) (by decide) (by decide)
  have h5 := History.insert 3 7 h4 (by decide) (by decide) (by decide)
  have h6 := History.deleteNode 3 7 h5 (by decide)
  have h7 := History.deleteNode 0 3 h6 (by decide)
  exact ⟨_, _, h7, by decide, by decide, by decide⟩

example : ∃ (s : NH) (m : Nat → Option Nat), History NH.cls 5 9 s m ∧ m 0 = some 2 ∧ m 1 = none ∧
    m 2 = some 8 ∧ s.deleteMax.1 = 2 := by
  have h0 : History NH.cls 5 9 _ _ := .init
  have h1 := History.insert 0 3 h0 (by decide) (by decide) (by decide)
  have h2 := History.insert 1 9 h1 (by decide) (by decide) (by decide)
  have h3 := History.insert 2 5 h2 (by decide) (by decide) (by decide)
  have h4 := History.deleteMax 0 3 h3 (by decide)
  have h5 := History.changeKey 2 8 5 h4 (by decide) (by decide)
  have h6 := History.decreaseKey 0 2 3 h5 (by decide) (by decide)
  exact ⟨_, _, h6, by decide, by decide, by decide, by decide⟩

end VieCut
