import Verif.Spec.PriorityQueue
import Mathlib.Data.List.Basic

/-!
# Models of the bucket priority queues

`bucket_pq`, `node_bucket_pq` (LIFO buckets) and `fifo_node_bucket_pq` (FIFO buckets).
`std::vector`s indexed by element or by bucket number are total functions; the proofs show that every
access stays in range.
-/

namespace VieCut

/-- Fields of `bucket_pq` (bucket_pq.h:49-55) and `node_bucket_pq` (node_bucket_pq.h:49-55).
`index v = (none, _)` stands for `UNDEFINED_COUNT` (node_bucket_pq) or a missing hash entry (bucket_pq). -/
structure BQ where
  elements : Nat
  span : Nat
  maxIdx : Nat
  index : Nat → Option Nat × Nat
  buckets : Nat → List Nat

/-- `unsigned address = gain + m_gain_span` (bucket_pq.h:71, node_bucket_pq.h:75, fifo_node_bucket_pq.h:77). -/
def bqAddr (span gain : Nat) : Nat := (gain + span) % 2 ^ 32

/-- `while (m_max_idx != 0) { m_max_idx--; if (m_buckets[m_max_idx].size() > 0) break; }`
(bucket_pq.h:102-107, 147-152; node_bucket_pq.h:107-112, 152-157; fifo_node_bucket_pq.h:114-119, 163-168). -/
def lowerMax (buckets : Nat → List Nat) : Nat → Nat
  | 0 => 0
  | i + 1 => if (buckets i).length > 0 then i else lowerMax buckets i

namespace BQ

/-- Constructor (bucket_pq.h:58-64, node_bucket_pq.h:58-68). -/
def new (span : Nat) : BQ :=
  { elements := 0, span := span, maxIdx := 0, index := fun _ => (none, 0), buckets := fun _ => [] }

/-- `insert` (bucket_pq.h:70-81, node_bucket_pq.h:74-85). -/
def insert (s : BQ) (node gain : Nat) : BQ :=
  let a := bqAddr s.span gain
  let b := s.buckets a ++ [node]
  { s with
    maxIdx := if a > s.maxIdx then a else s.maxIdx
    buckets := Function.update s.buckets a b
    index := Function.update s.index node (some (b.length - 1), gain)
    elements := s.elements + 1 }

/-- What remains of the index entry of a removed element: `bucket_pq` erases it from its hash map (`hash`),
`node_bucket_pq` keeps the old gain and sets the position to `UNDEFINED_COUNT`. -/
def erased (hash : Bool) (e : Option Nat × Nat) : Option Nat × Nat := if hash then (none, 0) else (none, e.2)

/-- `deleteMax` (bucket_pq.h:95-112, node_bucket_pq.h:99-117). -/
def deleteMax (hash : Bool) (s : BQ) : Nat × BQ :=
  let node := (s.buckets s.maxIdx).getLastD 0
  let b := (s.buckets s.maxIdx).dropLast
  let buckets := Function.update s.buckets s.maxIdx b
  (node, { s with
    buckets := buckets
    index := Function.update s.index node (erased hash (s.index node))
    maxIdx := if b.length = 0 then lowerMax buckets s.maxIdx else s.maxIdx
    elements := s.elements - 1 })

/-- `deleteNode` (bucket_pq.h:131-158, node_bucket_pq.h:136-163). -/
def deleteNode (hash : Bool) (s : BQ) (node : Nat) : BQ :=
  let idx := (s.index node).1.getD 0
  let a := bqAddr s.span (s.index node).2
  let b := s.buckets a
  if b.length > 1 then
    let back := b.getLastD 0
    let index := Function.update s.index back (some idx, (s.index back).2)
    let swapped := (b.set idx back).set (b.length - 1) (b.getD idx 0)
    { s with
      index := Function.update index node (erased hash (index node))
      buckets := Function.update s.buckets a swapped.dropLast
      elements := s.elements - 1 }
  else
    let buckets := Function.update s.buckets a b.dropLast
    { s with
      index := Function.update s.index node (erased hash (s.index node))
      buckets := buckets
      maxIdx := if a = s.maxIdx then lowerMax buckets s.maxIdx else s.maxIdx
      elements := s.elements - 1 }

/-- `changeKey` (bucket_pq.h:126-129, node_bucket_pq.h:131-134); `increaseKey` and `decreaseKey` call it
(bucket_pq.h:114-120, node_bucket_pq.h:119-125). -/
def changeKey (hash : Bool) (s : BQ) (node gain : Nat) : BQ := (s.deleteNode hash node).insert node gain

/-- The class `bucket_pq` (`hash = true`) or `node_bucket_pq` (`hash = false`) with its remaining members:
`size`, `empty`, `maxValue`, `maxElement`, `getKey`, `contains`
(bucket_pq.h:66-68, 83-93, 122-124, 160-162; node_bucket_pq.h:70-72, 87-97, 127-129, 165-167). -/
def cls (hash : Bool) (span : Nat) : PQClass where
  σ := BQ
  init := new span
  empty s := s.elements == 0
  insert := insert
  increaseKey := changeKey hash
  deleteMax := deleteMax hash
  size s := s.elements
  maxValue s := s.maxIdx - s.span
  maxElement s := (s.buckets s.maxIdx).getLastD 0
  decreaseKey := changeKey hash
  changeKey := changeKey hash
  getKey s v := (s.index v).2
  deleteNode := deleteNode hash
  contains s v := (s.index v).1 != none

end BQ

/-- Fields of `fifo_node_bucket_pq` (fifo_node_bucket_pq.h:49-56). -/
structure FQ where
  elements : Nat
  span : Nat
  maxIdx : Nat
  index : Nat → Option Nat × Nat
  buckets : Nat → List Nat
  offset : Nat → Nat

namespace FQ

/-- Constructor (fifo_node_bucket_pq.h:59-70). -/
def new (span : Nat) : FQ :=
  { elements := 0, span := span, maxIdx := 0, index := fun _ => (none, 0), buckets := fun _ => [],
    offset := fun _ => 0 }

/-- `insert` (fifo_node_bucket_pq.h:76-89). -/
def insert (s : FQ) (node gain : Nat) : FQ :=
  let a := bqAddr s.span gain
  let b := s.buckets a ++ [node]
  { s with
    maxIdx := if a > s.maxIdx then a else s.maxIdx
    buckets := Function.update s.buckets a b
    index := Function.update s.index node (some (b.length + s.offset a - 1), gain)
    elements := s.elements + 1 }

/-- `deleteMax` (fifo_node_bucket_pq.h:103-124). -/
def deleteMax (s : FQ) : Nat × FQ :=
  let node := (s.buckets s.maxIdx).headD 0
  let b := (s.buckets s.maxIdx).tail
  let buckets := Function.update s.buckets s.maxIdx b
  (node, { s with
    offset := Function.update s.offset s.maxIdx (s.offset s.maxIdx + 1)
    buckets := buckets
    index := Function.update s.index node (none, (s.index node).2)
    maxIdx := if b.length = 0 then lowerMax buckets s.maxIdx else s.maxIdx
    elements := s.elements - 1 })

/-- `deleteNode` (fifo_node_bucket_pq.h:143-174). -/
def deleteNode (s : FQ) (node : Nat) : FQ :=
  let a := bqAddr s.span (s.index node).2
  let idx := (s.index node).1.getD 0 - s.offset a
  let b := s.buckets a
  let offset := Function.update s.offset a (s.offset a + 1)
  if b.length > 1 then
    let front := b.headD 0
    let index := Function.update s.index front ((s.index node).1, (s.index front).2)
    let swapped := (b.set idx front).set 0 (b.getD idx 0)
    { s with
      offset := offset
      index := Function.update index node (none, (index node).2)
      buckets := Function.update s.buckets a swapped.tail
      elements := s.elements - 1 }
  else
    let buckets := Function.update s.buckets a b.tail
    { s with
      offset := offset
      index := Function.update s.index node (none, (s.index node).2)
      buckets := buckets
      maxIdx := if a = s.maxIdx then lowerMax buckets s.maxIdx else s.maxIdx
      elements := s.elements - 1 }

/-- `changeKey` (fifo_node_bucket_pq.h:138-141), also `increaseKey`, `decreaseKey` (126-132). -/
def changeKey (s : FQ) (node gain : Nat) : FQ := (s.deleteNode node).insert node gain

/-- The class `fifo_node_bucket_pq` with its remaining members (fifo_node_bucket_pq.h:72-74, 91-101,
134-136, 176-178). -/
def cls (span : Nat) : PQClass where
  σ := FQ
  init := new span
  empty s := s.elements == 0
  insert := insert
  increaseKey := changeKey
  deleteMax := deleteMax
  size s := s.elements
  maxValue s := s.maxIdx - s.span
  maxElement s := (s.buckets s.maxIdx).headD 0
  decreaseKey := changeKey
  changeKey := changeKey
  getKey s v := (s.index v).2
  deleteNode := deleteNode
  contains s v := (s.index v).1 != none

end FQ
end VieCut
