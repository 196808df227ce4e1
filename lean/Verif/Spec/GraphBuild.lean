import Verif.Model.GraphAccess

/-! # Specification: the graph described by a sequence of construction calls -/

namespace VieCut.CSR

/-- The edge of vertex `v` added by a call: `new_edge(v, t, w)` with `t ≠ v` adds `(t, w)`, everything else
nothing. -/
def Op.row (v : Nat) : Op → Option (Nat × Nat)
  | .newNode => none
  | .newEdge s t w => if s = v ∧ t ≠ v then some (t, w) else none

/-- The source of a call that adds an edge (self loops are ignored). -/
def Op.source : Op → Option Nat
  | .newNode => none
  | .newEdge s t _ => if s = t then none else some s

/-- The calls are made in source order for a graph with vertices `0, …, n-1`: `new_node` is called once per vertex,
sources of edges do not decrease and are vertices. -/
structure InSourceOrder (n : Nat) (ops : List Op) : Prop where
  nodes : (ops.filter (fun o => match o with | .newNode => true | _ => false)).length = n
  sorted : (ops.filterMap Op.source).Pairwise (· ≤ ·)
  lt : ∀ s ∈ ops.filterMap Op.source, s < n

end VieCut.CSR
