import Verif.Model.TemporalIO
import Mathlib.Logic.Relation

/-! # Connected components of a dynamic graph -/

namespace VieCut
namespace LargestComponent
open TemporalIO

/-- Two vertices are joined by events. -/
def Joined (events : List Event) : Nat → Nat → Prop := Relation.EqvGen fun u v => ∃ e ∈ events, e.source = u ∧ e.target = v

end LargestComponent
end VieCut
