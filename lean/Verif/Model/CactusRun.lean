import Verif.Model.Cactus
import Verif.Model.RecursiveCactus
import Verif.Model.NOIMutable

/-!
# Model of `findAllMincuts` together with `recursive_cactus`

The kernel, its conversion to a `mutable_graph`, the recursion, and the unpacking, in one run.
-/

namespace VieCut
namespace Cactus
open RecCactus

/-- `findAllMincuts` on a `graph_access` with a given value `mincut0` (cactus_mincut.h:67-176), where the cactus of the kernel is computed
by `recursive_cactus::flowMincut` (recursive_cactus.h:64-80).  `V c` are the choices of the recursion when it is called with minimum cut
`c`.  `none` is a run of the recursion that does not return, see `RecCactus.internal`. -/
def findAllRun (cfg : NOICfg) (contract : Nat → Graph → UF → Graph × (Nat → Nat)) (noiCfg : NOICfg)
    (noiContract : Nat → Graph → UF → Graph × (Nat → Nat)) (V : Nat → Env) (fuel : Nat) (x : Graph) (inCut0 : Nat → Bool) (mincut0 : Nat) :
    Option (Nat × MGraph) :=
  let k := kernelFinal cfg contract x inCut0 mincut0
  let c := finalValue noiCfg noiContract k
  (flowMincut (V c) c fuel (MGraph.fromGraphAccess k.lv.cur)).map fun C =>
    (c, setVertexLocations C x.n k.lv.view.n k.lv.maps k.ge c)

/-- `findAllMincuts` on a `mutable_graph` (cactus_mincut.h:67-176): `flowMincut` copies the kernel (recursive_cactus.h:69-70). -/
def findAllRunM (cfg : NOICfg) (contract : Nat → MGraph → UF → MGraph × (Nat → Nat)) (noiCfg : NOICfg)
    (noiContract : Nat → MGraph → UF → MGraph × (Nat → Nat)) (V : Nat → Env) (fuel : Nat) (x : MGraph) (inCut0 : Nat → Bool) (mincut0 : Nat) :
    Option (Nat × MGraph) :=
  let k := kernelFinal cfg contract x inCut0 mincut0
  let c := finalValue noiCfg noiContract k
  (flowMincut (V c) c fuel k.lv.cur).map fun C => (c, setVertexLocations C x.n k.lv.view.n k.lv.maps k.ge c)

end Cactus
end VieCut
