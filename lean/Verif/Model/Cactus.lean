import Verif.Model.Inexact
import Verif.Model.Convert

/-!
# Model of `cactus_mincut::findAllMincuts`

`lib/algorithms/global_mincut/cactus/cactus_mincut.h` and `minimum_cut_helpers::setVertexLocations`: kernelization of the
input, computation of the cactus of the kernel, and unpacking.  The cactus of the kernel (`recursive_cactus::flowMincut`) is a
parameter.
-/

namespace VieCut
namespace Cactus
open Function

variable {γ : Type} [GraphLike γ]

/-- Local variables of `findAllMincuts` (cactus_mincut.h:76-91): `graphs` with the partition indices and `mincut`, and
`ge_ids` paired with `guaranteed_edges`. -/
structure KState (γ : Type) where
  lv : NOIState γ
  ge : List (Nat × List (Nat × Nat))

/-- Body of the loop over the vertices (cactus_mincut.h:108-118): a vertex with a single edge of weight `mincut` is merged with its
neighbour and remembered. -/
def pendantStep (G : Graph) (mincut : Nat) (st : UF × List (Nat × Nat)) (n : Nat) : UF × List (Nat × Nat) :=
  match G.edges n with
  | [e] => if e.2 = mincut ∧ st.1.cnt > 1 then ((st.1.union n e.1).2, st.2 ++ [(n, e.1)]) else st
  | _ => st

/-- `modified_capforest(current_graph, mincut + 1)` and the loop over the vertices (cactus_mincut.h:106-118). -/
def pendants (cfg : NOICfg) (lvl : Nat) (s : NOIState γ) : UF × List (Nat × Nat) :=
  let P := selectPQ cfg.kind cfg.limited s.view.n (s.mincut + 1) s.view.maxDegree
  let uf := capforest P.toPQ cfg.limited s.view (s.mincut + 1) (cfg.rnd lvl % s.view.n)
  (List.range s.view.n).foldl (pendantStep s.view s.mincut) (uf, [])

/-- `if (uf.n() < n) { graphs.push_back(fromUnionFind(graphs.back(), &uf, true)); mincut = updateCut(graphs, mincut); }`
(cactus_mincut.h:124-130, 137-143, 150-156). -/
def contractIf (save : Bool) (contract : γ → UF → γ × (Nat → Nat)) (uf : UF) (s : NOIState γ) : NOIState γ :=
  if uf.cnt < s.view.n then pushLevel save s (contract s.cur uf) else s

/-- Loop body (cactus_mincut.h:93-164).  The remembered edges are dropped when the bound has improved. -/
def kernelStep (cfg : NOICfg) (contract : Nat → γ → UF → γ × (Nat → Nat)) (lvl : Nat) (k : KState γ) : KState γ :=
  let p := pendants cfg lvl k.lv
  let s1 := contractIf cfg.save (contract (3 * lvl)) p.1 k.lv
  let s2 := contractIf cfg.save (contract (3 * lvl + 1)) (prTests12 s1.view (s1.mincut + 1) true) s1
  let s3 := contractIf cfg.save (contract (3 * lvl + 2)) (prTests34 s2.view (s2.mincut + 1) true) s2
  { lv := s3, ge := if s3.mincut < k.lv.mincut then [] else k.ge ++ [(k.lv.maps.length, p.2)] }

/-- `while (n * 1.01 < previous_size)` (cactus_mincut.h:91-165); the comparison of the rounded product with an integer below
`2^32` is the rational one. -/
def kernelLoop (cfg : NOICfg) (contract : Nat → γ → UF → γ × (Nat → Nat)) : Nat → Nat → Nat → KState γ → KState γ
  | 0, _, _, k => k
  | f + 1, lvl, prev, k =>
    if 101 * k.lv.view.n < 100 * prev then kernelLoop cfg contract f (lvl + 1) k.lv.view.n (kernelStep cfg contract lvl k)
    else k

/-- The state before the loop (cactus_mincut.h:77-91); `mincut0` is `known_mincut`, or the result of `viecut`. -/
def kernelInit (save : Bool) (x : γ) (inCut0 : Nat → Bool) (mincut0 : Nat) : KState γ :=
  { lv := { noiInit save x inCut0 with mincut := mincut0 }, ge := [] }

/-- The state after the loop; `n + 1` rounds suffice (`C37_terminates`).  `previous_size` starts with `UNDEFINED_NODE`. -/
def kernelFinal (cfg : NOICfg) (contract : Nat → γ → UF → γ × (Nat → Nat)) (x : γ) (inCut0 : Nat → Bool) (mincut0 : Nat) :
    KState γ :=
  kernelLoop cfg contract ((GraphLike.view x).n + 1) 0 (2 ^ 32 - 1) (kernelInit cfg.save x inCut0 mincut0)

/-- The value given to `recursive_cactus` and returned: `noi.perform_minimum_cut(graphs.back())` if the kernel has more than one
vertex (cactus_mincut.h:167-170).  `noiCfg` and `noiContract` are the choices of that run. -/
def finalValue (noiCfg : NOICfg) (noiContract : Nat → γ → UF → γ × (Nat → Nat)) (k : KState γ) : Nat :=
  if k.lv.view.n > 1 then (noiFinal noiCfg noiContract k.lv.cur k.lv.inCut).mincut else k.lv.mincut

/-- One remembered edge is put back (minimum_cut_helpers.h:183-188): a new vertex `new_empty_node()` is connected to the
position of the neighbour. -/
def attach (mincut : Nat) (st : MGraph × (Nat → Nat)) (e : Nat × Nat) : MGraph × (Nat → Nat) :=
  (st.1.newEmptyNode.newEdgeOrder st.1.n (st.2 e.2) mincut, update st.2 e.1 st.1.n)

/-- The remembered edges of level `i`. -/
def edgesAt (ge : List (Nat × List (Nat × Nat))) (i : Nat) : List (Nat × Nat) :=
  match ge.getLast? with
  | some g => if g.1 = i then g.2 else []
  | none => []

/-- `--g_id` if the last entry belongs to level `i` (minimum_cut_helpers.h:182-190). -/
def dropAt (ge : List (Nat × List (Nat × Nat))) (i : Nat) : List (Nat × List (Nat × Nat)) :=
  match ge.getLast? with
  | some g => if g.1 = i then ge.dropLast else ge
  | none => ge

/-- The loop over the levels (minimum_cut_helpers.h:170-191).  `maps` are the partition indices of the levels still to be handled, innermost
first; the result is the extended graph and the positions of the vertices of `graphs[0]`. -/
def unpack (mincut : Nat) : List (Nat → Nat) → List (Nat × List (Nat × Nat)) → MGraph × (Nat → Nat) → MGraph × (Nat → Nat)
  | [], _, st => st
  | φ :: maps, ge, st =>
    let i := maps.length
    unpack mincut maps (dropAt ge i) ((edgesAt ge i).foldl (attach mincut) (st.1, fun v => st.2 (φ v)))

/-- `setVertexLocations` with `save_cut` (minimum_cut_helpers.h:149-201): the vertices of the kernel are where `out_graph` has put
them; the last level has no partition index to follow.  With a single graph the loop is skipped (`graphs.size() > 1`). -/
def setVertexLocations (out : MGraph) (n0 kn : Nat) (maps : List (Nat → Nat)) (ge : List (Nat × List (Nat × Nat))) (mincut : Nat) :
    MGraph :=
  let out := out.setOriginalNodes n0
  let out := { out with cont := fun p => if p < out.n then [] else out.cont p }
  let p0 := fun v => if v < kn then out.pos v else v
  let st := if maps.length = 0 then (out, p0) else
    unpack mincut maps.reverse (dropAt ge maps.length) ((edgesAt ge maps.length).foldl (attach mincut) (out, p0))
  (List.range n0).foldl (fun g v => { g with
    pos := update g.pos v (st.2 v), cont := update g.cont (st.2 v) (g.cont (st.2 v) ++ [v]) }) st.1

/-- `findAllMincuts` with a given value `mincut0` (cactus_mincut.h:67-176); `rc K c` is `recursive_cactus::flowMincut` on the kernel
`K` with minimum cut `c`.  Writing the cactus to a file and the most balanced cut (lines 178-192) are left out. -/
def findAllMincuts (cfg : NOICfg) (contract : Nat → γ → UF → γ × (Nat → Nat)) (noiCfg : NOICfg)
    (noiContract : Nat → γ → UF → γ × (Nat → Nat)) (rc : γ → Nat → MGraph) (x : γ) (inCut0 : Nat → Bool) (mincut0 : Nat) :
    Nat × MGraph :=
  let k := kernelFinal cfg contract x inCut0 mincut0
  let c := finalValue noiCfg noiContract k
  (c, setVertexLocations (rc k.lv.cur c) (GraphLike.view x).n k.lv.view.n k.lv.maps k.ge c)

end Cactus
end VieCut
