import Verif.Spec.CactusFile

/-!
# A reader for files with a cut

Written from the format: line `v` is `1` if vertex `v` is on the one side of the cut and `0` if it is on the other side.
-/

namespace VieCut
namespace CutFile
open CactusFile

/-- The side that a line states. -/
def flag : List Char → Option Bool
  | ['0'] => some false
  | ['1'] => some true
  | _ => none

/-- The sides of the vertices, in the order of the lines; `none` if a line is neither `0` nor `1` or the last line is not ended. -/
def readCut (file : List Char) : Option (List Bool) :=
  if (fields '\n' file).getLast? = some [] then ((fields '\n' file).dropLast).mapM flag else none

/-- The vertices on the side `1`. -/
def side (l : List Bool) (v : Nat) : Bool := l.getD v false

end CutFile
end VieCut
