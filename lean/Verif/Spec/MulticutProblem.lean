import Verif.Model.Multicut
import Verif.Spec.Multiterminal
import Verif.Spec.MutableGraph

/-!
# Specification: what a multiterminal-cut subproblem stands for

A subproblem consists of a graph, the original terminals (found through `mapped` and `getCurrentPosition`) and the
weight of the edges already paid for.
-/

namespace VieCut
namespace Problem
open MGraph

/-- The current vertices of the original terminals. -/
def spots (ots : List Nat) (p : Problem) : List Nat := ots.map p.at'

/-- The subproblem is in order: the graph is consistent and has no parallel edges, every original vertex is found in
exactly one vertex, every vertex contains an original vertex, and the terminals are in different vertices. -/
structure Ok (ots : List Nat) (p : Problem) : Prop where
  consistent : Consistent p.graph
  simple : p.graph.NoParallel
  found : ∀ v, v < p.graph.posSize → FoundOnce p.graph v
  known : ∀ q, q < p.graph.n → p.graph.cont q ≠ [] ∧ (p.graph.cont q).Nodup ∧ ∀ v ∈ p.graph.cont q, v < p.graph.posSize
  mapped : ∀ o ∈ ots, p.mapped o < p.graph.posSize
  apart : (p.spots ots).Nodup

/-- The terminals recorded in the problem are the current vertices of the original terminals, except isolated ones. -/
structure Current (ots : List Nat) (p : Problem) : Prop where
  spots : ∀ t ∈ p.tpos, t ∈ p.spots ots
  all : ∀ s ∈ p.spots ots, 0 < p.graph.len s → s ∈ p.tpos
  nodup : p.tpos.Nodup

/-- `c` is the weight of a best solution of the subproblem: the weight already paid for plus a minimum multiterminal
cut of the current graph. -/
def Optimum (ots : List Nat) (p : Problem) (c : Nat) : Prop :=
  ∃ d, IsMinMulticut p.graph.n p.graph.toGraph.wt (p.spots ots) d ∧ c = p.deleted + d

/-- `c` is the weight of a best solution among those with property `P`. -/
def OptimumWith (ots : List Nat) (p : Problem) (P : (Nat → Nat) → Prop) (c : Nat) : Prop :=
  (∃ f, Separates (p.spots ots) f ∧ P f ∧ c = p.deleted + multicutValue p.graph.n p.graph.toGraph.wt f) ∧
  ∀ f, Separates (p.spots ots) f → P f → c ≤ p.deleted + multicutValue p.graph.n p.graph.toGraph.wt f

end Problem
end VieCut
