import Verif.Model.SCC
import Verif.Model.PushRelabel
import Verif.Model.BucketPQ
import Verif.Model.MutableHistory

/-!
# Model of `findSTCactus` and `decrementalRebuild`
(lib/algorithms/global_mincut/cactus/recursive_cactus.h)

The cactus of the minimum cuts that separate two vertices `s` and `t`, computed from a maximum flow between them.  Degrees of
cycles are unbounded integers.  A result `none` is a loop that does not end.
-/

namespace VieCut
open Function

namespace STCactus

/-- `setOriginalNodes` (mutable_graph.h:300-305). -/
def setOriginalNodes (g : MGraph) (n : Nat) : MGraph :=
  { g with origNodes := n, pos := fun i => if i < g.posSize then g.pos i else 0, posSize := max g.posSize n }

/-- `resizePositions` (mutable_graph.h:92-95). -/
def resizePositions (g : MGraph) (n : Nat) : MGraph :=
  { g with origNodes := n, pos := fun i => if i < g.posSize then g.pos i else 0, posSize := n }

/-- `addContainedVertex(p, v)` and `setCurrentPosition(v, p)` (mutable_graph.h:328-330, 364-366). -/
def addMember (h : MGraph) (p v : Nat) : MGraph :=
  { h with cont := update h.cont p (h.cont p ++ [v]), pos := update h.pos v p }

/-- `setContainedVertices(p, l)` and `setCurrentPosition(v, p)` for the vertices `v` of `l` (mutable_graph.h:324-326, 364-366). -/
def setMembers (h : MGraph) (p : Nat) (l : List Nat) : MGraph :=
  { h with cont := update h.cont p l, pos := fun v => if v ∈ l then p else h.pos v }

/-- `contract` without edges (recursive_cactus.h:326-340): vertex `p` contains the original vertices of component `p`. -/
def components (v : Nat → Nat) (G : MGraph) (k : Nat) : MGraph :=
  let h := setOriginalNodes (MGraph.start k) G.origNodes
  (List.range G.origNodes).foldl (fun h n => if G.pos n < G.n then addMember h (v (G.pos n)) n else h)
    { h with cont := fun p => if p < k then [] else h.cont p }

/-- An edge of weight zero between every two vertices (recursive_cactus.h:341-347). -/
def allPairs (h : MGraph) : MGraph :=
  (List.range h.n).foldl (fun h x => (List.range h.n).foldl (fun h y => if x < y then h.newEdge x y 0 else h) h) h

/-- The weights between components (recursive_cactus.h:348-359). -/
def addWeights (v : Nat → Nat) (G : MGraph) (h : MGraph) : MGraph :=
  (List.range G.n).foldl (fun h u => (List.range (G.len u)).foldl (fun h e =>
    let ctr := v (G.edge u e).target
    if v u > ctr then
      let e_ctr := ctr - if ctr > v u then 1 else 0
      h.setEdgeWeight (v u) e_ctr ((G.edge u e).weight + (h.edge (v u) e_ctr).weight)
    else h) h) h

/-- `contract` (recursive_cactus.h:326-360). -/
def contract (v : Nat → Nat) (G : MGraph) (k : Nat) : MGraph := (addWeights v G (allPairs (components v G k))).finishConstruction

/-- Conversion of a weight to the key type of the queue. -/
def key (w : Nat) : Nat := w % 2 ^ 32

/-- The queue, `node_mapping`, `rev_node_mapping` and `stcactus`. -/
structure Ordering where
  q : BQ
  map : Nat → Nat
  rev : Nat → Nat
  st : MGraph

/-- Before the main loop (recursive_cactus.h:361-382). -/
def orderStart (mincut : Nat) (C : MGraph) (s : Nat) : Ordering :=
  let q := (List.range C.n).foldl (fun (q : BQ) n => if n ≠ s then q.insert n (key 0) else q) (BQ.new (mincut + 1))
  let q := (List.range (C.len s)).foldl (fun (q : BQ) e => q.changeKey false (C.edge s e).target (key (C.edge s e).weight)) q
  let st := (List.range C.n).foldl (fun (h : MGraph) _ => h.newNode) (resizePositions (MGraph.start C.n) C.origNodes)
  { q := q, map := fun _ => 0, rev := fun _ => 0, st := setMembers st 0 (C.cont s) }

/-- The neighbours of the vertex taken from the queue (recursive_cactus.h:385-392). -/
def raise (mincut : Nat) (C : MGraph) (next : Nat) (q : BQ) (e : Nat) : BQ :=
  let tgt := (C.edge next e).target
  let wgt := (q.index tgt).2
  if (q.index tgt).1 != none then q.changeKey false tgt (key (min (wgt + (C.edge next e).weight) mincut)) else q

/-- Body of the main loop (recursive_cactus.h:383-400). -/
def orderStep (mincut : Nat) (C : MGraph) (o : Ordering) (n : Nat) : Ordering :=
  let r := o.q.deleteMax false
  { q := (List.range (C.len r.1)).foldl (raise mincut C r.1) r.2, map := update o.map r.1 n, rev := update o.rev n r.1,
    st := setMembers o.st n (C.cont r.1) }

/-- The order of the components (recursive_cactus.h:361-401). -/
def order (mincut : Nat) (C : MGraph) (s : Nat) : Ordering :=
  let o := ((List.range (C.n - 1)).map (· + 1)).foldl (orderStep mincut C) (orderStart mincut C s)
  { o with st := o.st.finishConstruction }

/-- The degree of the current cycle after adding or subtracting the edges of `n` (recursive_cactus.h:415-423). -/
def cycleDegree (C : MGraph) (n : Nat) (cyc : List Nat) (deg : Int) : Int :=
  (List.range (C.len n)).foldl (fun d e => if (C.edge n e).target ∈ cyc then d - (C.edge n e).weight else d + (C.edge n e).weight) deg

/-- The inner while loop (recursive_cactus.h:412-428): the cycle, `i`, and the vertex `n` at the end. -/
def cycle (mincut : Nat) (C : MGraph) (rev : Nat → Nat) : Nat → Int → List Nat → Nat → Nat → Option (List Nat × Nat × Nat)
  | 0, _, _, _, _ => none
  | fuel + 1, deg, cyc, i, n =>
    if (deg = 0 ∨ deg = mincut) ∧ i + 1 < C.n then
      let n := rev i
      let deg := cycleDegree C n cyc deg
      if deg = mincut then cycle mincut C rev fuel deg (n :: cyc) (i + 1) n else cycle mincut C rev fuel deg cyc i n
    else some (cyc, i, n)

/-- `A`, `B` and `order`: the cycles, the other vertices, and in which order they come. -/
structure Layout where
  A : List (List Nat)
  B : List Nat
  ord : List Bool

/-- The outer while loop (recursive_cactus.h:408-440). -/
def layoutLoop (mincut : Nat) (C : MGraph) (map rev : Nat → Nat) : Nat → Nat → Layout → Option Layout
  | 0, _, _ => none
  | fuel + 1, i, L =>
    if i < C.n - 1 then
      (cycle mincut C rev (C.n + 1) 0 [] i (rev i)).bind fun r =>
        if r.1.length > 0 then
          layoutLoop mincut C map rev fuel r.2.1
            { L with A := L.A ++ [List.range' (r.2.1 - r.1.length) r.1.length], ord := L.ord ++ [true] }
        else layoutLoop mincut C map rev fuel (r.2.1 + 1) { L with B := L.B ++ [map r.2.2], ord := L.ord ++ [false] }
    else some L

/-- Cycles and other vertices (recursive_cactus.h:402-442). -/
def layout (mincut : Nat) (C : MGraph) (map rev : Nat → Nat) : Option Layout :=
  (layoutLoop mincut C map rev (C.n + 1) 1 { A := [], B := [0], ord := [false] }).map fun L =>
    { L with ord := L.ord ++ [false], B := L.B ++ [C.n - 1] }

/-- State of the last loop: `stcactus`, `previous`, `a_index`, `b_index`. -/
structure Build where
  st : MGraph
  previous : Nat
  a : Nat
  b : Nat

/-- The edges of one cycle (recursive_cactus.h:448-471). -/
def makeCycle (mincut : Nat) (L : Layout) (i : Nat) (s : Build) : Build :=
  let A := L.A.getD s.a []
  let s' := (List.range A.length).foldl (fun (x : Build) j =>
    let st := if j > 0 then x.st.newEdgeOrder (A.getD (j - 1) 0) (A.getD j 0) (mincut / 2)
      else x.st.newEdgeOrder x.previous (A.getD 0 0) (mincut / 2)
    if j = A.length - 1 then
      let next := if L.ord.getD (i + 1) false then st.lastNode else L.B.getD x.b 0
      let st := if L.ord.getD (i + 1) false then st.newEmptyNode else st
      { x with st := (st.newEdgeOrder (A.getD j 0) next (mincut / 2)).newEdgeOrder x.previous next (mincut / 2), previous := next }
    else { x with st := st }) s
  { s' with a := s'.a + 1 }

/-- Body of the last loop (recursive_cactus.h:446-481). -/
def buildStep (mincut : Nat) (L : Layout) (s : Build) (i : Nat) : Build :=
  if L.ord.getD i false then makeCycle mincut L i s
  else
    let st := if L.ord.getD (i + 1) false then s.st else s.st.newEdgeOrder (L.B.getD s.b 0) (L.B.getD (s.b + 1) 0) mincut
    { s with st := st, previous := L.B.getD s.b 0, b := s.b + 1 }

/-- `findSTCactus(v, G, s, num_comp)` (recursive_cactus.h:323-484). -/
def findSTCactus (mincut : Nat) (v : Nat → Nat) (G : MGraph) (s k : Nat) : Option MGraph :=
  let C := contract v G k
  let o := order mincut C (C.pos ((G.cont s).headD 0))
  (layout mincut C o.map o.rev).map fun L =>
    ((List.range (L.A.length + L.B.length - 1)).foldl (buildStep mincut L) { st := o.st, previous := 0, a := 0, b := 0 }).st.finishConstruction

/-- `decrementalRebuild(graph, s, mincut, fpid)` (recursive_cactus.h:88-96). -/
def decrementalRebuild (G : MGraph) (s mincut pid : Nat) : Option MGraph :=
  (sccMutable G (some pid)).bind fun r => findSTCactus mincut (fun x => (r.1 x).getD 0) G s r.2.1

/-- The graph after a flow was computed on it under the problem id `pid` (push_relabel.h:304-327, mutable_graph.h:183-205).  Edges
that the computation does not touch keep their old problem id, and their flow is read as zero; here it is stored. -/
def storeFlow (g : MGraph) (f : Nat → Nat → Int) (pid : Nat) : MGraph :=
  { g with edge := fun u e => if u < g.n ∧ e < g.len u then { g.edge u e with flow := f u e, pid := pid } else g.edge u e }

/-- A limited maximum flow between `s` and `t` followed by `decrementalRebuild` with the value `mincut`, as in `removeEdge`
(dynamic_mincut.h:283-288, 292-300).  `none`: the flow did not end within `fuel` rounds, or the rest did not end. -/
def flowThenRebuild (P : PQ) (trigger : Nat → Bool) (depth fuel pid : Nat) (G : MGraph) (s t limit mincut : Nat) : Option MGraph :=
  let c : PushRelabel.Cfg := { g := G, ts := [s, t], src := s, limited := true, depth := depth, sink := t, limit := limit }
  (PushRelabel.mainLoop P c trigger fuel (PushRelabel.globalRelabel P c true (PushRelabel.init P c))).bind fun r =>
    decrementalRebuild (storeFlow G r.1.flow pid) s mincut pid

end STCactus
end VieCut
