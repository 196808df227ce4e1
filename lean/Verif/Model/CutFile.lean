import Verif.Model.GraphIO
import Verif.Model.NOIMutable
import Verif.Model.Inexact

/-!
# Model of writing a cut (lib/io/graph_io.h: `writeCut`) and of a run of the program `mincut` (app/mincut.cpp)

A file is its list of characters.  Failures to open a file are not modelled.
-/

namespace VieCut
namespace CutFile
open GraphIO

/-- `writeCut` (graph_io.h:292-302 for `graph_access`, 304-314 for `mutable_graph`): the flag of each vertex, printed as a number, on its own
line. -/
def writeCut (n : Nat) (inCut : Nat → Bool) : List Char :=
  (List.range n).flatMap fun v => dec (if inCut v then 1 else 0) ++ ['\n']

/-- `mincut <graph> noi -s -o <output>` (app/mincut.cpp:91-92, 119-139) with one iteration and one thread: the printed value and the written file; `none`: no graph is
read.  `mincut` uses `mutable_graph` (mincut.cpp:36).  `inCut0` are the flags before the run. -/
def mincutNoi (cfg : NOICfg) (ord : Nat → Nat → List Nat → List Nat) (inCut0 : Nat → Bool) (file : List Char) : Option (Nat × List Char) :=
  (readMutable file).map fun g => (noiMinimumCutM cfg ord g, writeCut g.n (noiSavedCutM cfg ord g inCut0))

/-- `mincut <graph> vc -s -o <output>` (app/mincut.cpp:91-92, 119-139), as `mincutNoi`; `none` also if `viecut` has undefined behaviour. -/
def mincutVc (cfg : VCfg) (ord ordN ordM : Nat → Nat → List Nat → List Nat) (inCut0 : Nat → Bool) (file : List Char) : Option (Nat × List Char) :=
  (readMutable file).bind fun g =>
    (viecutFinal cfg (fun l H uf => MGraph.fromUnionFindM H uf true (ord l)) (fun l H uf => MGraph.fromUnionFindM H uf true (ordN l))
      (fun l H m r p => MGraph.contractGraphM H m r p (ordM l)) g inCut0).map fun r => (r.1, writeCut g.n r.2)

end CutFile
end VieCut
