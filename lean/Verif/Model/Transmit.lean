import Verif.Model.Convert
import Verif.Model.Multicut

/-!
# Model of the transmission of subproblems
(lib/algorithms/multicut/mpi_communication.h: `sendProblem`, `recvProblem`)

`MPI_Send`/`MPI_Recv` deliver the vector of words unchanged.
-/

namespace VieCut

/-- `struct multicut_problem` (multicut_problem.h:43-203) with the vectors of `mappings`; `prio` is `priority_edge`,
`finished` the set `finished_blockpairs`. -/
structure MProblem where
  graph : MGraph
  terminals : List Terminal
  mappings : List (List Nat)
  lower : Int
  upper : Int
  deleted : Nat
  prio : Nat × Nat
  finished : List Nat

namespace MProblem

/-- `UNDEFINED_NODE`, `UNDEFINED_EDGE` (definitions.h:40, 42). -/
def undefinedPrio : Nat × Nat := (2 ^ 32 - 1, 2 ^ 64 - 1)

/-- `mapped(n)` (multicut_problem.h:79-85). -/
def mapped (p : MProblem) (v : Nat) : Nat := p.mappings.foldl (fun v m => m.getD v 0) v

/-- The view used by the models of the solver. -/
def toProblem (p : MProblem) : Problem :=
  { graph := p.graph, terminals := p.terminals, mapped := p.mapped, lower := p.lower, upper := p.upper, deleted := p.deleted,
    prio := if p.prio = undefinedPrio then none else some p.prio }

/-- Conversion from `FlowType` (`int64_t`) to `uint64_t`. -/
def toWord (x : Int) : Nat := (x % 2 ^ 64).toNat

/-- Conversion from `uint64_t` to `FlowType`. -/
def ofWord (w : Nat) : Int := if w < 2 ^ 63 then w else (w : Int) - 2 ^ 64

/-- The vector `data` of `sendProblem` (mpi_communication.h:72-95); `none` if `serialize` has undefined behaviour. -/
def sendData (p : MProblem) : Option (List Nat) :=
  p.graph.serialize.map fun serial =>
    [toWord p.lower, toWord p.upper, p.deleted, p.terminals.length] ++
    p.terminals.flatMap (fun t => [t.position, t.origId]) ++
    [p.mappings.length] ++ p.mappings.flatMap (fun m => m.length :: m) ++
    serial.length :: serial

/-- The terminals of `recvProblem` (mpi_communication.h:115-119): `NodeID` has 32 bits. -/
def recvTerminals : Nat → List Nat → Option (List Terminal × List Nat)
  | 0, ws => some ([], ws)
  | k + 1, t :: o :: ws => (recvTerminals k ws).map fun r => (⟨t % 2 ^ 32, o % 2 ^ 32, true⟩ :: r.1, r.2)
  | _ + 1, _ => none

/-- The mappings of `recvProblem` (mpi_communication.h:122-130). -/
def recvMappings : Nat → List Nat → Option (List (List Nat) × List Nat)
  | 0, ws => some ([], ws)
  | k + 1, s :: ws =>
    if s ≤ ws.length then
      (recvMappings k (ws.drop s)).map fun r => ((ws.take s).map (· % 2 ^ 32) :: r.1, r.2)
    else none
  | _ + 1, [] => none

/-- `recvProblem` (mpi_communication.h:102-140).  Reading past the end of `data` is undefined behaviour (`none`).  The
constructor `multicut_problem()` (multicut_problem.h:44) value-initialises the pair `priority_edge` with zeros and leaves
`finished_blockpairs` empty. -/
def recvData (ws : List Nat) : Option MProblem :=
  match ws with
  | lo :: up :: del :: nt :: ws =>
    (recvTerminals nt ws).bind fun r1 =>
      match r1.2 with
      | nm :: ws =>
        (recvMappings nm ws).bind fun r2 =>
          match r2.2 with
          | ss :: ws =>
            if ss ≤ ws.length then
              (MGraph.deserialize (ws.take ss)).map fun g =>
                { graph := g, terminals := r1.1, mappings := r2.1, lower := ofWord lo, upper := ofWord up, deleted := del,
                  prio := (0, 0), finished := [] }
            else none
          | [] => none
      | [] => none
  | _ => none

end MProblem
end VieCut
