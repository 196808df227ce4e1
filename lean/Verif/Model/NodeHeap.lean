import Verif.Spec.PriorityQueue

/-!
# Model of the addressable binary heaps `maxNodeHeap` and `vecMaxNodeHeap`

Both classes have the same member functions; they differ only in the container that maps a node to its
element (`unordered_map` with missing entries, or a vector holding `UNDEFINED_NODE`), modelled by
`Option`.  A `std::vector` is a size and a total function; the proofs show that accesses stay below the
size.  `int` casts of sizes are not modelled (sizes below 2^31).  The key copy kept in
`QElement::m_key` is written but never read by these classes (except through `ekey`).
-/

namespace VieCut

/-- Fields (vecMaxNodeHeap.h:56-59, maxNodeHeap.h:97-100): `m_heap` as `hs, hkey, helem`,
`m_elements` as `es, enode, ekey, eidx`, and `m_element_index`. -/
structure NH where
  hs : Nat
  hkey : Nat → Nat
  helem : Nat → Nat
  es : Nat
  enode : Nat → Nat
  ekey : Nat → Nat
  eidx : Nat → Nat
  index : Nat → Option Nat

/-- `std::swap(f[i], f[j])`. -/
def swapFn (f : Nat → Nat) (i j : Nat) : Nat → Nat := Function.update (Function.update f i (f j)) j (f i)

namespace NH

/-- Constructor (vecMaxNodeHeap.h:33-36, maxNodeHeap.h:65-67). -/
def new : NH := ⟨0, fun _ => 0, fun _ => 0, 0, fun _ => 0, fun _ => 0, fun _ => 0, fun _ => none⟩

/-- Exchange heap positions `a` and `b` and write the new positions into the two elements
(vecMaxNodeHeap.h:85-91, 98-104, 119-126; maxNodeHeap.h:127-133, 140-146, 161-168). -/
def swapHeap (s : NH) (a b : Nat) : NH :=
  let helem := swapFn s.helem a b
  { s with hkey := swapFn s.hkey a b, helem := helem,
           eidx := Function.update (Function.update s.eidx (helem a) a) (helem b) b }

/-- `siftUp` (vecMaxNodeHeap.h:114-131, maxNodeHeap.h:156-173); recursion depth bounded by fuel. -/
def siftUp : Nat → NH → Nat → NH
  | 0, s, _ => s
  | f + 1, s, pos =>
    if pos > 0 then
      let par := (pos - 1) / 2
      if s.hkey par < s.hkey pos then siftUp f (s.swapHeap pos par) par else s
    else s

/-- `siftDown` (vecMaxNodeHeap.h:73-112, maxNodeHeap.h:114-154). -/
def siftDown : Nat → NH → Nat → NH
  | 0, s, _ => s
  | f + 1, s, pos =>
    let lhs := 2 * pos + 1
    let rhs := 2 * pos + 2
    if rhs < s.hs then
      if s.hkey lhs < s.hkey pos ∧ s.hkey rhs < s.hkey pos then s
      else
        let sp := if s.hkey lhs > s.hkey rhs then lhs else rhs
        siftDown f (s.swapHeap pos sp) sp
    else if lhs < s.hs then
      if s.hkey pos < s.hkey lhs then siftDown f (s.swapHeap pos lhs) lhs else s
    else s

/-- `insert` (vecMaxNodeHeap.h:141-151, maxNodeHeap.h:183-193). -/
def insert (s : NH) (node gain : Nat) : NH :=
  match s.index node with
  | none =>
    siftUp s.hs
      { s with
        es := s.es + 1, enode := Function.update s.enode s.es node,
        ekey := Function.update s.ekey s.es gain, eidx := Function.update s.eidx s.es s.hs,
        hs := s.hs + 1, hkey := Function.update s.hkey s.hs gain, helem := Function.update s.helem s.hs s.es,
        index := Function.update s.index node (some s.es) } s.hs
  | some _ => s

/-- The part of `deleteNode` before the sifting (vecMaxNodeHeap.h:154-173, maxNodeHeap.h:196-215). -/
def unlinkNode (s : NH) (node : Nat) : NH :=
  let ei := (s.index node).getD 0
  let hi := s.eidx ei
  let index := Function.update s.index node none
  let hkey := swapFn s.hkey hi (s.hs - 1)
  let helem := swapFn s.helem hi (s.hs - 1)
  let eidx := Function.update s.eidx (helem hi) hi
  if ei ≠ s.es - 1 then
    let enode := swapFn s.enode ei (s.es - 1)
    let ekey := swapFn s.ekey ei (s.es - 1)
    let eidx := swapFn eidx ei (s.es - 1)
    { hs := s.hs - 1, hkey := hkey, helem := Function.update helem (eidx ei) ei, es := s.es - 1,
      enode := enode, ekey := ekey, eidx := eidx, index := Function.update index (enode ei) (some ei) }
  else
    { hs := s.hs - 1, hkey := hkey, helem := helem, es := s.es - 1, enode := s.enode, ekey := s.ekey,
      eidx := eidx, index := index }

/-- `deleteNode` (vecMaxNodeHeap.h:153-180, maxNodeHeap.h:195-222). -/
def deleteNode (s : NH) (node : Nat) : NH :=
  let hi := s.eidx ((s.index node).getD 0)
  let t := s.unlinkNode node
  if t.hs > 1 ∧ hi < t.hs then
    let t := siftDown t.hs t hi
    siftUp hi t hi
  else t

/-- The part of `deleteMax` before the sifting (vecMaxNodeHeap.h:184-203, maxNodeHeap.h:226-245). -/
def unlinkMax (s : NH) : Nat × NH :=
  let ei := s.helem 0
  let node := s.enode ei
  let index := Function.update s.index node none
  let hkey := Function.update s.hkey 0 (s.hkey (s.hs - 1))
  let helem := Function.update s.helem 0 (s.helem (s.hs - 1))
  let eidx := Function.update s.eidx (helem 0) 0
  if ei ≠ s.es - 1 then
    let enode := Function.update s.enode ei (s.enode (s.es - 1))
    let ekey := Function.update s.ekey ei (s.ekey (s.es - 1))
    let eidx := Function.update eidx ei (eidx (s.es - 1))
    (node,
      { hs := s.hs - 1, hkey := hkey, helem := Function.update helem (eidx ei) ei, es := s.es - 1,
        enode := enode, ekey := ekey, eidx := eidx, index := Function.update index (enode ei) (some ei) })
  else
    (node,
      { hs := s.hs - 1, hkey := hkey, helem := helem, es := s.es - 1, enode := s.enode,
        ekey := s.ekey, eidx := eidx, index := index })

/-- `deleteMax` (vecMaxNodeHeap.h:182-214, maxNodeHeap.h:224-256); `-1` on an empty heap. -/
def deleteMax (s : NH) : Nat × NH :=
  if s.hs > 0 then
    let (node, t) := s.unlinkMax
    (node, if t.hs > 1 then siftDown t.hs t 0 else t)
  else (2 ^ 32 - 1, s)

/-- Writing a new key before sifting (vecMaxNodeHeap.h:227-230, 236-239; maxNodeHeap.h:269-272, 278-281). -/
def setKey (s : NH) (node gain : Nat) : NH :=
  let q := (s.index node).getD 0
  let h := s.eidx q
  { s with ekey := Function.update s.ekey q gain, hkey := Function.update s.hkey h gain }

/-- `decreaseKey` (vecMaxNodeHeap.h:225-232, maxNodeHeap.h:267-274). -/
def decreaseKey (s : NH) (node gain : Nat) : NH :=
  siftDown s.hs (s.setKey node gain) (s.eidx ((s.index node).getD 0))

/-- `increaseKey` (vecMaxNodeHeap.h:234-241, maxNodeHeap.h:276-283). -/
def increaseKey (s : NH) (node gain : Nat) : NH :=
  siftUp s.hs (s.setKey node gain) (s.eidx ((s.index node).getD 0))

/-- `getKey` (vecMaxNodeHeap.h:243-245, maxNodeHeap.h:285-287). -/
def getKey (s : NH) (node : Nat) : Nat := s.hkey (s.eidx ((s.index node).getD 0))

/-- `changeKey` (vecMaxNodeHeap.h:216-223, maxNodeHeap.h:258-265). -/
def changeKey (s : NH) (node gain : Nat) : NH :=
  if s.getKey node > gain then s.decreaseKey node gain
  else if s.getKey node < gain then s.increaseKey node gain
  else s

/-- The class with its remaining members (vecMaxNodeHeap.h:65-71, 133-139, 247-249;
maxNodeHeap.h:106-112, 175-181, 289-291). -/
def cls : PQClass where
  σ := NH
  init := new
  empty s := s.hs == 0
  insert := insert
  increaseKey := increaseKey
  deleteMax := deleteMax
  size s := s.hs
  maxValue s := s.hkey 0
  maxElement s := s.enode (s.helem 0)
  decreaseKey := decreaseKey
  changeKey := changeKey
  getKey := getKey
  deleteNode := deleteNode
  contains s v := s.index v != none

end NH
end VieCut
