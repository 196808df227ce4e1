import Verif.Model.SCC

/-!
# Model of `lib/algorithms/misc/core_decomposition.h`

Vectors are functions; an index outside `degrees`, `vertices`, `position` (size `n`) or `buckets` (size `size`) in the
main loop is undefined behaviour (`none`).  Numbers are unbounded (degrees and vertex numbers fit 32 bits).
-/

namespace VieCut
open Function

/-- `struct k_cores` (core_decomposition.h:27-38); `size` is `buckets.size()`. -/
structure KCores where
  deg : Nat → Nat
  vert : Nat → Nat
  pos : Nat → Nat
  buck : Nat → Nat
  size : Nat

/-- `getUnweightedNodeDegree(n)` (graph_access.h:432-435). -/
def Graph.udeg (G : Graph) (v : Nat) : Nat := (G.edges v).length

namespace KCores

/-- Loop counting the degrees (core_decomposition.h:49-57); `max_degree` is `size - 1`.  `resize` appends zeros. -/
def countStep (G : Graph) (s : KCores) (v : Nat) : KCores :=
  let d := G.udeg v
  { s with size := if d > s.size - 1 then d + 1 else s.size, deg := update s.deg v d,
           buck := update s.buck d (s.buck d + 1) }

/-- Prefix sums (core_decomposition.h:59-65): `(buckets, start)`. -/
def prefixStep (s : (Nat → Nat) × Nat) (i : Nat) : (Nat → Nat) × Nat := (update s.1 i s.2, s.2 + s.1 i)

/-- Bucket sort (core_decomposition.h:67-72). -/
def placeStep (G : Graph) (s : KCores) (v : Nat) : KCores :=
  let d := G.udeg v
  { s with pos := update s.pos v (s.buck d), vert := update s.vert (s.buck d) v,
           buck := update s.buck d (s.buck d + 1) }

/-- One iteration of `for (i = max_degree; i > 0; --i)` (core_decomposition.h:74-76). -/
def shiftStep (b : Nat → Nat) (i : Nat) : Nat → Nat := update b i (b (i - 1))

/-- State before the main loop (core_decomposition.h:44-77). -/
def prepare (G : Graph) : KCores :=
  let s1 := (List.range G.n).foldl (countStep G)
    { deg := fun _ => 0, vert := fun _ => 0, pos := fun _ => 0, buck := fun _ => 0, size := 1 }
  let s2 := { s1 with buck := ((List.range s1.size).foldl prefixStep (s1.buck, 0)).1 }
  let s3 := (List.range G.n).foldl (placeStep G) s2
  { s3 with buck := update (((List.range (s3.size - 1)).map (fun i => s3.size - 1 - i)).foldl shiftStep s3.buck) 0 0 }

/-- Body of the loop over the edges of `v` (core_decomposition.h:81-97). -/
def edgeStep (n v : Nat) (s : KCores) (t : Nat) : Option KCores :=
  if ¬ t < n then none
  else if s.deg t > s.deg v then
    let d := s.deg t
    if ¬ d < s.size then none
    else
      let ps := s.buck d
      if ¬ ps < n then none
      else
        let x := s.vert ps
        let s1 := if t ≠ x then
            { s with pos := update (update s.pos t ps) x (s.pos t), vert := update (update s.vert (s.pos t) x) ps t }
          else s
        some { s1 with buck := update s1.buck d (s1.buck d + 1), deg := update s1.deg t (s1.deg t - 1) }
  else some s

/-- Body of the main loop (core_decomposition.h:79-98). -/
def nodeStep (G : Graph) (s : KCores) (i : Nat) : Option KCores :=
  ((G.edges (s.vert i)).map (·.1)).foldlM (edgeStep G.n (s.vert i)) s

end KCores

/-- `core_decomposition::batagelj_zaversnik(G)` (core_decomposition.h:43-101). -/
def batageljZaversnik (G : Graph) : Option KCores := (List.range G.n).foldlM (KCores.nodeStep G) (KCores.prepare G)

/-- `core_decomposition::createCoreGraph(kCores, k, G)` (core_decomposition.h:103-147).  The construction of
`core_graph` is the loop of `extract_block` with the block `position >= buckets[k]`.  Reading `buckets[k]` or
`vertices[buckets[k]]` out of range is undefined behaviour (`none`); a wrong minimum degree ends the program (`none`). -/
def createCoreGraph (kc : KCores) (k : Nat) (G : Graph) : Option (CSR × List Nat) :=
  if ¬ k < kc.size then none
  else if ¬ kc.buck k < G.n then none
  else (extractBlock G (fun v => decide (kc.pos v ≥ kc.buck k))).bind fun r =>
    if r.1.toGraph.minDegree ≠ kc.deg (kc.vert (kc.buck k)) then none else largestScc r.1.toGraph

end VieCut
