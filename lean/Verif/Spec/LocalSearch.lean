import Verif.Spec.Multiterminal
import Verif.Spec.MutableGraph

/-! # Specification of the flow routine used by the local search -/

namespace VieCut
namespace LocalSearch

/-- The flow computation finds an isolating cut of vertex 0 against vertex 1 and returns its value. -/
def FlowSpec (flow : MGraph → Nat × List Nat) : Prop := ∀ g : MGraph, g.Consistent → 2 ≤ g.n →
  IsolatingCut g.n g.toGraph.wt [0, 1] 0 (fun v => (flow g).2.contains v) ∧
  (flow g).1 = cutValue g.n g.toGraph.wt (fun v => (flow g).2.contains v)

end LocalSearch
end VieCut
