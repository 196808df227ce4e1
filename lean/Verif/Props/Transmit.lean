import Verif.Model.Transmit
import Verif.Spec.MulticutProblem
import Verif.Props.GraphAccess

/-!
# C17: transmission of subproblems

Everything the solver needs arrives unchanged if the graph survives its serialisation (C16).  `priority_edge` does not: it is
not sent, and a received problem has `{0, 0}` instead of the value for "none".
-/

namespace VieCut
namespace MProblem

theorem ofWord_toWord {x : Int} (h1 : -2 ^ 63 ≤ x) (h2 : x < 2 ^ 63) : ofWord (toWord x) = x := by
  unfold ofWord toWord
  split <;> omega

theorem recvTerminals_append (ts : List Terminal) (h : ∀ t ∈ ts, t.position < 2 ^ 32 ∧ t.origId < 2 ^ 32) (rest : List Nat) :
    recvTerminals ts.length (ts.flatMap (fun t => [t.position, t.origId]) ++ rest) =
      some (ts.map (fun t => ⟨t.position, t.origId, true⟩), rest) := by
  induction ts with
  | nil => rfl
  | cons t ts ih =>
    have h1 := h t (by simp)
    show (recvTerminals ts.length (ts.flatMap (fun t => [t.position, t.origId]) ++ rest)).map _ = _
    rw [ih (fun t ht => h t (by simp [ht])), Nat.mod_eq_of_lt h1.1, Nat.mod_eq_of_lt h1.2]
    rfl

theorem recvMappings_append (ms : List (List Nat)) (h : ∀ m ∈ ms, ∀ v ∈ m, v < 2 ^ 32) (rest : List Nat) :
    recvMappings ms.length (ms.flatMap (fun m => m.length :: m) ++ rest) = some (ms, rest) := by
  induction ms with
  | nil => rfl
  | cons m ms ih =>
    have h1 : m.map (· % 2 ^ 32) = m := by
      conv_rhs => rw [← List.map_id m]
      exact List.map_congr_left fun v hv => Nat.mod_eq_of_lt (h m (by simp) v hv)
    have h2 : (m :: ms).flatMap (fun m => m.length :: m) ++ rest =
        m.length :: (m ++ (ms.flatMap (fun m => m.length :: m) ++ rest)) := by simp
    rw [h2]
    show (if m.length ≤ (m ++ _).length then _ else _) = _
    rw [if_pos (by simp), List.drop_left, List.take_left, ih (fun m hm => h m (by simp [hm])), h1]
    rfl

theorem recvData_append {p : MProblem} {ws : List Nat} {g : MGraph}
    (ht : ∀ t ∈ p.terminals, t.position < 2 ^ 32 ∧ t.origId < 2 ^ 32) (hm : ∀ m ∈ p.mappings, ∀ v ∈ m, v < 2 ^ 32)
    (h1 : p.graph.serialize = some ws) (h2 : MGraph.deserialize ws = some g) :
    ∃ data, p.sendData = some data ∧ recvData data =
      some ⟨g, p.terminals.map (fun t => ⟨t.position, t.origId, true⟩), p.mappings, ofWord (toWord p.lower), ofWord (toWord p.upper),
        p.deleted, (0, 0), []⟩ := by
  refine ⟨_, by unfold sendData; rw [h1]; rfl, ?_⟩
  unfold recvData
  simp only [List.cons_append, List.nil_append, List.append_assoc]
  rw [recvTerminals_append _ ht]
  simp only [Option.bind_some]
  rw [recvMappings_append _ hm]
  simp only [Option.bind_some]
  rw [if_pos (le_refl _), List.take_length, h2]
  rfl

/-- C17: a problem whose graph satisfies the conditions of C16, with node ids of 32 bits and bounds of 64 bits, arrives with the
same bounds, deleted weight, terminals (marked as having no valid flow), mappings and graph.  (Missing for the
full claim: graphs with ambiguous encoding, C16; `priority_edge`, see `C17_priority_edge`.) -/
theorem C17_transmission_partial (p : MProblem) (hg : p.graph.Consistent)
    (hfit : ∀ u, u < p.graph.n → ∀ e ∈ p.graph.toGraph.edges u, e.1 < p.graph.numEdges)
    (hpos : p.graph.posSize = p.graph.origNodes) (horig : p.graph.n ≤ p.graph.origNodes)
    (hloc : ∀ v, v < p.graph.posSize → p.graph.FoundOnce v) (hn : p.graph.n < 2 ^ 32)
    (hb : p.graph.n + p.graph.numEdges < 2 ^ 64 - 1)
    (ht : ∀ t ∈ p.terminals, t.position < 2 ^ 32 ∧ t.origId < 2 ^ 32) (hm : ∀ m ∈ p.mappings, ∀ v ∈ m, v < 2 ^ 32)
    (hl : -2 ^ 63 ≤ p.lower ∧ p.lower < 2 ^ 63) (hu : -2 ^ 63 ≤ p.upper ∧ p.upper < 2 ^ 63) :
    ∃ data p', p.sendData = some data ∧ recvData data = some p' ∧
      p'.lower = p.lower ∧ p'.upper = p.upper ∧ p'.deleted = p.deleted ∧
      p'.terminals = p.terminals.map (fun t => ⟨t.position, t.origId, true⟩) ∧ p'.mappings = p.mappings ∧
      p'.graph.Consistent ∧ p'.graph.n = p.graph.n ∧ p'.graph.numEdges = p.graph.numEdges ∧
      (∀ u, u < p.graph.n → (p'.graph.toGraph.edges u).Perm (p.graph.toGraph.edges u)) ∧
      (∀ u, u < p.graph.n → p'.graph.part u = p.graph.part u) ∧ p'.graph.origNodes = p.graph.origNodes ∧
      (∀ v, v < p.graph.posSize → p'.graph.pos v = p.graph.pos v ∧ p'.graph.FoundOnce v) := by
  obtain ⟨ws, g, a1, a2, a3, a4, a5, a6, a7, a8, a9, a10⟩ := C16_round_trip_partial p.graph hg hfit hpos horig hloc hn hb
  obtain ⟨data, b1, b2⟩ := recvData_append ht hm a1 a2
  exact ⟨data, _, b1, b2, ofWord_toWord hl.1 hl.2, ofWord_toWord hu.1 hu.2, rfl, rfl, rfl, a3, a4, a5, a6, a7, a9, a10⟩

/-- The received problem has the same best solutions: the same optimum for every list of original terminals that are in the
graph. -/
theorem C17_same_optimum_partial (p : MProblem) (hg : p.graph.Consistent)
    (hfit : ∀ u, u < p.graph.n → ∀ e ∈ p.graph.toGraph.edges u, e.1 < p.graph.numEdges)
    (hpos : p.graph.posSize = p.graph.origNodes) (horig : p.graph.n ≤ p.graph.origNodes)
    (hloc : ∀ v, v < p.graph.posSize → p.graph.FoundOnce v) (hn : p.graph.n < 2 ^ 32)
    (hb : p.graph.n + p.graph.numEdges < 2 ^ 64 - 1)
    (ht : ∀ t ∈ p.terminals, t.position < 2 ^ 32 ∧ t.origId < 2 ^ 32) (hm : ∀ m ∈ p.mappings, ∀ v ∈ m, v < 2 ^ 32)
    (hl : -2 ^ 63 ≤ p.lower ∧ p.lower < 2 ^ 63) (hu : -2 ^ 63 ≤ p.upper ∧ p.upper < 2 ^ 63)
    (ots : List Nat) (hots : ∀ o ∈ ots, p.mapped o < p.graph.posSize) :
    ∃ data p', p.sendData = some data ∧ recvData data = some p' ∧ p'.toProblem.spots ots = p.toProblem.spots ots ∧
      ∀ c, p'.toProblem.Optimum ots c ↔ p.toProblem.Optimum ots c := by
  obtain ⟨data, p', b1, b2, _, _, b5, _, b7, _, b9, _, b11, _, _, b14⟩ :=
    C17_transmission_partial p hg hfit hpos horig hloc hn hb ht hm hl hu
  have hmap : p'.mapped = p.mapped := by unfold mapped; rw [b7]
  have hs : p'.toProblem.spots ots = p.toProblem.spots ots := by
    refine List.map_congr_left fun o ho => ?_
    show p'.graph.pos (p'.mapped o) = p.graph.pos (p.mapped o)
    rw [hmap]; exact (b14 _ (hots o ho)).1
  refine ⟨data, p', b1, b2, hs, fun c => ?_⟩
  have hw : ∀ u v, u < p.graph.n → p'.graph.toGraph.wt u v = p.graph.toGraph.wt u v := by
    intro u v hu
    unfold Graph.wt
    exact ((b11 u hu).filter _ |>.map _).sum_eq
  have hval : ∀ f, multicutValue p'.graph.n p'.graph.toGraph.wt f = multicutValue p.graph.n p.graph.toGraph.wt f := by
    intro f
    rw [b9]
    unfold multicutValue
    refine Finset.sum_congr rfl fun v hv => ?_
    refine Finset.sum_congr rfl fun u hu => ?_
    rw [hw u v (lt_trans (Finset.mem_range.1 hu) (Finset.mem_range.1 hv))]
  unfold Problem.Optimum IsMinMulticut
  rw [hs]
  show (∃ d, ((∃ f, _ ∧ multicutValue p'.graph.n p'.graph.toGraph.wt f = d) ∧
    ∀ f, _ → d ≤ multicutValue p'.graph.n p'.graph.toGraph.wt f) ∧ c = p'.deleted + d) ↔ _
  simp only [hval, b5]
  rfl

/-- A problem on a square with a chord, an isolated vertex and a contracted vertex. -/
def sampleMP : MProblem :=
  { graph := (MGraph.start 6).run [.newEdge 0 1 3, .newEdge 1 2 1, .newEdge 2 3 3, .newEdge 0 3 1, .newEdge 0 2 4,
      .contractVertexSet [0, 1]]
    terminals := [⟨0, 0, false⟩, ⟨2, 1, true⟩]
    mappings := [[5, 4, 3, 2, 1, 0]]
    lower := -1
    upper := 12
    deleted := 7
    prio := undefinedPrio
    finished := [5] }

/-- C17 is false for `priority_edge`: a problem without priority edge arrives with the priority edge `{0, 0}`, which
`findEdgeSingleBranch` (edge_selection.h:266) takes for a given one, although vertex 0 need not have an edge. -/
theorem C17_priority_edge : sampleMP.prio = undefinedPrio ∧ sampleMP.toProblem.prio = none ∧
    ∃ data p', sampleMP.sendData = some data ∧ recvData data = some p' ∧ p'.prio = (0, 0) ∧ p'.toProblem.prio = some (0, 0) ∧
      p'.finished ≠ sampleMP.finished := by
  refine ⟨rfl, rfl, _, _, rfl, rfl, ?_⟩
  decide +kernel

/-- C17 is false for graphs with ambiguous encoding (C16): the single edge of the graph is lost, so a problem with optimum 1
arrives with optimum 0. -/
theorem C17_edge_lost :
    let p : MProblem := ⟨(MGraph.start 5).run [.newEdge 0 4 1], [⟨0, 0, true⟩, ⟨4, 1, true⟩], [], -1, 10, 0, undefinedPrio, []⟩
    p.graph.Consistent ∧ p.toProblem.Optimum [0, 4] 1 ∧
    ∃ data p', p.sendData = some data ∧ recvData data = some p' ∧ p'.toProblem.Optimum [0, 4] 0 := by
  have hsep : ∀ f : Nat → Nat, Separates [0, 4] f → f 0 ≠ f 4 := fun f hf => hf 0 (by simp) 4 (by simp) (by decide)
  have hs : Separates [0, 4] (fun v => if v = 4 then 1 else 0) := by
    intro s hs t ht
    simp only [List.mem_cons, List.not_mem_nil, or_false] at hs ht
    rcases hs with rfl | rfl <;> rcases ht with rfl | rfl <;> decide
  refine ⟨(MGraph.consistent_iff).2 ((MGraph.Valid.start 5).run _ (by decide +kernel)), ⟨1, ⟨⟨_, hs, by decide +kernel⟩, ?_⟩, rfl⟩, _, _, rfl, rfl,
    ⟨0, ⟨⟨_, hs, by decide +kernel⟩, fun _ _ => Nat.zero_le _⟩, by decide +kernel⟩⟩
  intro f hf
  unfold multicutValue
  refine le_trans ?_ (Finset.single_le_sum (fun _ _ => Nat.zero_le _) (Finset.mem_range.2 (show 4 < 5 by decide)))
  refine le_trans ?_ (Finset.single_le_sum (fun _ _ => Nat.zero_le _) (Finset.mem_range.2 (show 0 < 4 by decide)))
  rw [if_pos (hsep f hf)]
  decide +kernel

/-- Non-vacuity: the hypotheses hold for the sample problem (which has isolated vertices). -/
example : sampleMP.graph.Consistent ∧ (∀ u, u < sampleMP.graph.n → ∀ e ∈ sampleMP.graph.toGraph.edges u, e.1 < sampleMP.graph.numEdges) ∧
    sampleMP.graph.posSize = sampleMP.graph.origNodes ∧ sampleMP.graph.n ≤ sampleMP.graph.origNodes ∧
    (∀ v, v < sampleMP.graph.posSize → sampleMP.graph.FoundOnce v) ∧ sampleMP.graph.n < 2 ^ 32 ∧
    sampleMP.graph.n + sampleMP.graph.numEdges < 2 ^ 64 - 1 ∧
    (∀ t ∈ sampleMP.terminals, t.position < 2 ^ 32 ∧ t.origId < 2 ^ 32) ∧ (∀ m ∈ sampleMP.mappings, ∀ v ∈ m, v < 2 ^ 32) ∧
    (∀ o ∈ [0, 3], sampleMP.mapped o < sampleMP.graph.posSize) ∧ sampleMP.graph.n = 5 := by
  have hl : MGraph.LegalHistory (MGraph.start 6) [.newEdge 0 1 3, .newEdge 1 2 1, .newEdge 2 3 3, .newEdge 0 3 1, .newEdge 0 2 4,
      .contractVertexSet [0, 1]] := by decide +kernel
  have hfx : MGraph.FixedHistory (MGraph.start 6) [.newEdge 0 1 3, .newEdge 1 2 1, .newEdge 2 3 3, .newEdge 0 3 1, .newEdge 0 2 4,
      .contractVertexSet [0, 1]] := by decide +kernel
  have hL := (MGraph.Located.start 6).run (MGraph.Valid.start 6) _ hl hfx
  refine ⟨(MGraph.consistent_iff).2 ((MGraph.Valid.start 6).run _ hl), ?_, ?_, ?_, fun v hv => hL.1.foundOnce hv, ?_⟩ <;>
    decide +kernel

end MProblem
end VieCut
