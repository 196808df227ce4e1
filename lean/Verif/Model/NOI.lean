import Verif.Model.Capforest
import Verif.Model.Contract
import Verif.Model.BucketPQ
import Verif.Model.NodeHeap

/-!
# Model of `noi_minimum_cut::perform_minimum_cut` and `minimum_cut_helpers`
-/

namespace VieCut

/-- Values of `configuration::pq` accepted by `selectPq` (noi_minimum_cut.h:94-117). -/
inductive PQKind
  | default | bqueue | heap | bstack
deriving DecidableEq, Repr

/-- `selectPq` (noi_minimum_cut.h:85-121).  `maxDeg` is `getMaxDegree()`; without limiting it replaces `mincut`. -/
def selectPQ (kind : PQKind) (limited : Bool) (n mincut maxDeg : Nat) : PQClass :=
  let mincut := if limited then mincut else maxDeg
  match kind with
  | .default => if mincut > 10000 ∧ mincut > n then NH.cls else FQ.cls mincut
  | .bqueue => FQ.cls mincut
  | .heap => NH.cls
  | .bstack => BQ.cls false mincut

/-- `minimum_cut_helpers::minimumIndex` (minimum_cut_helpers.h:29-39). -/
def minimumIndex (G : Graph) : Nat :=
  ((List.range G.n).find? (fun v => G.deg v == G.minDegree)).getD 0

/-- The algorithms are templates over the graph class; they only use its read-only interface (`number_of_nodes`,
`edges_of`, `getEdge`, degrees), given here by the adjacency-list view. -/
class GraphLike (γ : Type) where
  view : γ → Graph

/-- `graph_access`. -/
instance : GraphLike Graph := ⟨id⟩

/-- Local variables of `perform_minimum_cut`: the last graph of `graphs`, the partition indices stored in the
earlier ones (outermost first), the bound `mincut`, and the node-in-cut flags of `graphs[0]`. -/
structure NOIState (γ : Type) where
  cur : γ
  maps : List (Nat → Nat)
  mincut : Nat
  inCut : Nat → Bool

/-- The last graph, as seen by the algorithm. -/
abbrev NOIState.view {γ : Type} [GraphLike γ] (s : NOIState γ) : Graph := GraphLike.view s.cur

/-- Following the partition indices from `graphs[0]` to the last graph (minimum_cut_helpers.h:70-73). -/
def coarseID (maps : List (Nat → Nat)) (idx : Nat) : Nat := maps.foldl (fun c f => f c) idx

/-- `setInitialCutValues` and the initial `mincut` (noi_minimum_cut.h:66-70,
minimum_cut_helpers.h:44-56).  `save` is `configuration::save_cut`. -/
def noiInit {γ : Type} [GraphLike γ] (save : Bool) (x : γ) (inCut0 : Nat → Bool) : NOIState γ :=
  { cur := x, maps := [], mincut := (GraphLike.view x).minDegree,
    inCut := if save then fun idx => decide (idx = minimumIndex (GraphLike.view x)) else inCut0 }

/-- `updateCut` (minimum_cut_helpers.h:58-87) for the new graph `H` reached through `maps`. -/
def updateCut (save : Bool) (H : Graph) (maps : List (Nat → Nat)) (prev : Nat) (inCut : Nat → Bool) :
    Nat × (Nat → Bool) :=
  (if H.n > 1 then min prev H.minDegree else prev,
   if save then
     (if H.n > 1 then
        (if H.minDegree < prev then fun idx => decide (coarseID maps idx = minimumIndex H) else inCut)
      else inCut)
   else inCut)

/-- What a run of the algorithm cannot control: the random numbers used for the start vertices
(noi_minimum_cut.h:133). -/
structure NOICfg where
  kind : PQKind
  limited : Bool
  save : Bool
  rnd : Nat → Nat

/-- Contraction of the classes of `uf` and update of the bound (noi_minimum_cut.h:74-77,
exact_parallel_minimum_cut.h:108-111). -/
def coarsen {γ : Type} [GraphLike γ] (save : Bool) (contract : γ → UF → γ × (Nat → Nat)) (uf : UF)
    (s : NOIState γ) : NOIState γ :=
  let (H, φ) := contract s.cur uf
  let maps := s.maps ++ [φ]
  let (mincut, inCut) := updateCut save (GraphLike.view H) maps s.mincut s.inCut
  { cur := H, maps := maps, mincut := mincut, inCut := inCut }

/-- Loop body (noi_minimum_cut.h:72-77) at level `lvl`.  `contract` is `contraction::fromUnionFind`
for the graph class in use. -/
def noiStep {γ : Type} [GraphLike γ] (cfg : NOICfg) (contract : Nat → γ → UF → γ × (Nat → Nat)) (lvl : Nat)
    (s : NOIState γ) : NOIState γ :=
  let P := selectPQ cfg.kind cfg.limited s.view.n s.mincut s.view.maxDegree
  let uf := capforest P.toPQ cfg.limited s.view s.mincut (cfg.rnd lvl % s.view.n)
  coarsen cfg.save (contract lvl) uf s

/-- `while (graphs.back()->number_of_nodes() > 2 && mincut > 0)` (noi_minimum_cut.h:72-77). -/
def noiLoop {γ : Type} [GraphLike γ] (cfg : NOICfg) (contract : Nat → γ → UF → γ × (Nat → Nat)) :
    Nat → Nat → NOIState γ → NOIState γ
  | 0, _, s => s
  | f + 1, lvl, s =>
    if s.view.n > 2 ∧ s.mincut > 0 then noiLoop cfg contract f (lvl + 1) (noiStep cfg contract lvl s) else s

/-- Final local state of `perform_minimum_cut` (noi_minimum_cut.h:61-83); `G.n` iterations suffice
(`noi_terminates`). -/
def noiFinal {γ : Type} [GraphLike γ] (cfg : NOICfg) (contract : Nat → γ → UF → γ × (Nat → Nat)) (x : γ)
    (inCut0 : Nat → Bool) : NOIState γ :=
  noiLoop cfg contract (GraphLike.view x).n 0 (noiInit cfg.save x inCut0)

/-- Return value of `noi_minimum_cut<graphAccessPtr>::perform_minimum_cut`; `ord` gives the hash set iteration
orders at each level. -/
def noiMinimumCut (cfg : NOICfg) (ord : Nat → Nat → List Nat → List Nat) (G : Graph) : Nat :=
  (noiFinal cfg (fun lvl H uf => fromUnionFind H uf (ord lvl)) G (fun _ => false)).mincut

/-- Node-in-cut flags of the input graph after `perform_minimum_cut` with `save_cut`, `inCut0` being their
values before. -/
def noiSavedCut (cfg : NOICfg) (ord : Nat → Nat → List Nat → List Nat) (G : Graph) (inCut0 : Nat → Bool) :
    Nat → Bool :=
  (noiFinal cfg (fun lvl H uf => fromUnionFind H uf (ord lvl)) G inCut0).inCut

end VieCut
