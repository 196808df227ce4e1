import Verif.Model.MutableGraph

/-! # Histories of public operations of `mutable_graph` -/

namespace VieCut.MGraph

/-- Calls of the public interface that change edges or vertices (mutable_graph.h:99-156, 332-347, 370-795).
`contractVertexSet` takes an `unordered_set`, i.e. a duplicate-free list in some iteration order. -/
inductive Op where
  | newNode
  | newEmptyNode
  | finishConstruction
  | newEdge (s t w : Nat)
  | newEdgeOrder (s t w : Nat)
  | setEdgeWeight (u e w : Nat)
  | deleteEdge (u e : Nat)
  | contractEdge (u e : Nat)
  | contractEdgeSparseTarget (u e : Nat)
  | contractSparseTargetNoEdge (u v : Nat)
  | contractVertexSet (S : List Nat)
  | deleteVertex (v : Nat)
deriving Repr

/-- `finish_construction()` (mutable_graph.h:217-219). -/
def finishConstruction (g : MGraph) : MGraph := { g with lastNode := g.n }

/-- Effect of one call. -/
def Op.apply (g : MGraph) : Op → MGraph
  | .newNode => g.newNode
  | .newEmptyNode => g.newEmptyNode
  | .finishConstruction => g.finishConstruction
  | .newEdge s t w => g.newEdge s t w
  | .newEdgeOrder s t w => g.newEdgeOrder s t w
  | .setEdgeWeight u e w => g.setEdgeWeight u e w
  | .deleteEdge u e => g.deleteEdge u e
  | .contractEdge u e => g.contractEdge u e
  | .contractEdgeSparseTarget u e => g.contractEdgeSparseTarget u e
  | .contractSparseTargetNoEdge u v => g.contractSparseTargetNoEdge u v
  | .contractVertexSet S => g.contractVertexSet S
  | .deleteVertex v => g.deleteVertex v

/-- The state after a history of calls. -/
def run (g : MGraph) (ops : List Op) : MGraph := ops.foldl Op.apply g

/-- No vertex has two edges to the same neighbour. -/
def NoParallel (g : MGraph) : Prop :=
  ∀ u, u < g.n → ∀ e, e < g.len u → ∀ e', e' < g.len u → (g.edge u e).target = (g.edge u e').target → e = e'

instance (g : MGraph) : Decidable g.NoParallel := by unfold NoParallel; infer_instance

/-- Preconditions of the calls: arguments name existing vertices and edges; contracting an *edge* needs a graph
without parallel edges, and `contractSparseTargetNoEdge` needs two different vertices without an edge between them
(as its name says). -/
def Op.Legal (g : MGraph) : Op → Prop
  | .newNode => True
  | .newEmptyNode => True
  | .finishConstruction => True
  | .newEdge s t _ => s < g.n ∧ t < g.n
  | .newEdgeOrder s t _ => s < g.n ∧ t < g.n
  | .setEdgeWeight u e _ => u < g.n ∧ e < g.len u
  | .deleteEdge u e => u < g.n ∧ e < g.len u
  | .contractEdge u e => u < g.n ∧ e < g.len u ∧ g.NoParallel
  | .contractEdgeSparseTarget u e => u < g.n ∧ e < g.len u ∧ g.NoParallel
  | .contractSparseTargetNoEdge u v => u < g.n ∧ v < g.n ∧ u ≠ v ∧ ∀ e, e < g.len u → (g.edge u e).target ≠ v
  | .contractVertexSet S => S.Nodup
  | .deleteVertex v => v < g.n

instance (g : MGraph) (o : Op) : Decidable (o.Legal g) := by
  cases o <;> unfold Op.Legal <;> infer_instance

/-- For the four contraction calls, the vertices the caller asks to merge. -/
def Op.mergeSet (g : MGraph) : Op → Option (List Nat)
  | .contractEdge u e => some [u, (g.edge u e).target]
  | .contractEdgeSparseTarget u e => some [u, (g.edge u e).target]
  | .contractSparseTargetNoEdge u v => some [u, v]
  | .contractVertexSet S => some S
  | _ => none

/-- A history of contraction calls only. -/
def OnlyContractions (ops : List Op) : Prop :=
  ∀ o ∈ ops, match o with
    | .contractEdge _ _ | .contractEdgeSparseTarget _ _ | .contractSparseTargetNoEdge _ _ | .contractVertexSet _ => True
    | _ => False

/-- Calls that neither delete a vertex nor append one beyond the vertices announced by `start_construction`. -/
def Op.FixedVertices (g : MGraph) : Op → Prop
  | .newNode => g.lastNode ≠ g.n
  | .newEmptyNode => g.lastNode ≠ g.n
  | .deleteVertex _ => False
  | _ => True

/-- Every call of the history has fixed vertices in the state in which it is made. -/
def FixedHistory (g : MGraph) : List Op → Prop
  | [] => True
  | o :: ops => o.FixedVertices g ∧ FixedHistory (o.apply g) ops

/-- Every call of the history is legal in the state in which it is made. -/
def LegalHistory (g : MGraph) : List Op → Prop
  | [] => True
  | o :: ops => o.Legal g ∧ LegalHistory (o.apply g) ops

/-- Executable form of `LegalHistory`. -/
instance decLegalHistory : (g : MGraph) → (ops : List Op) → Decidable (LegalHistory g ops)
  | _, [] => isTrue trivial
  | g, o :: ops =>
    have := decLegalHistory (o.apply g) ops
    inferInstanceAs (Decidable (o.Legal g ∧ LegalHistory (o.apply g) ops))

instance (g : MGraph) (o : Op) : Decidable (o.FixedVertices g) := by
  cases o <;> unfold Op.FixedVertices <;> infer_instance

/-- Executable form of `FixedHistory`. -/
instance decFixedHistory : (g : MGraph) → (ops : List Op) → Decidable (FixedHistory g ops)
  | _, [] => isTrue trivial
  | g, o :: ops =>
    have := decFixedHistory (o.apply g) ops
    inferInstanceAs (Decidable (o.FixedVertices g ∧ FixedHistory (o.apply g) ops))

end VieCut.MGraph
