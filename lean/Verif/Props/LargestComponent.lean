import Verif.Proof.LargestComponent
import Verif.Props.TemporalIO
import Verif.Props.Structure

/-! # C63: the largest component of a dynamic graph -/

namespace VieCut
open TemporalIO GraphIO LargestComponent Function

/-- **C63.**  Take the events of a dynamic graph with `n` vertices and the number `comp v` of the component of each vertex.  The file that is written
belongs to a component with the most vertices; reading it (C61) gives exactly the events inside this component, once each and in the order of time, with
unchanged weights and times.  The vertices are renumbered without gaps in their order: the new number is how many vertices of the
component come before. -/
theorem C63_largest_component (n ct : Nat) (comp : Nat → Nat) (events : List Event) (hn : n < 2 ^ 32) (hct : 0 < ct)
    (he : ∀ e ∈ events, e.source < n ∧ e.target < n ∧ -(2 ^ 63) < e.weight ∧ e.weight < 2 ^ 63 ∧ e.time < 2 ^ 64) :
    ∃ mc, mc < ct ∧ (∀ c, c < ct → ((List.range n).filter fun v => comp v = c).length ≤ ((List.range n).filter fun v => comp v = mc).length) ∧
      (∃ n' out, Outcome (writeLargest n ct comp events) n' out) ∧
      ∀ n' out, Outcome (writeLargest n ct comp events) n' out →
        out.Perm ((events.filter fun e => comp e.source = mc ∧ comp e.target = mc).map fun e =>
          ⟨((List.range e.source).filter fun u => comp u = mc).length, ((List.range e.target).filter fun u => comp u = mc).length, e.weight, e.time⟩) ∧
        out.Pairwise (fun a b => a.time ≤ b.time) := by
  obtain ⟨m1, m2⟩ := maxComp_spec (compSize n comp) ct hct
  generalize hmc : maxComp ct (compSize n comp) = mc at m1 m2
  have hnum := (number_spec comp mc n).2
  have hplace : ∀ v, place comp mc v ≤ v := fun v => le_trans (List.length_filter_le _ _) (by simp)
  let line : Event → Line := fun e => .event 0 (place comp mc e.source + 1) (place comp mc e.target + 1) [] (form e.weight) e.time
  let ls : List Line := (events.filter fun e => comp e.source = mc ∧ comp e.target = mc).map line
  have hvalid : ∀ l ∈ ls, l.Valid := by
    intro l hl
    obtain ⟨e, he', rfl⟩ := List.mem_map.1 hl
    obtain ⟨a1, a2, a3, a4, a5⟩ := he e (List.mem_filter.1 he').1
    have p1 := hplace e.source
    have p2 := hplace e.target
    exact ⟨by omega, by omega, by omega, by omega, fun c hc => absurd hc (List.not_mem_nil), (form_spec a3 a4).2.2, a5⟩
  have hfile : writeLargest n ct comp events = fileOf ls := by
    unfold writeLargest
    dsimp only
    rw [hmc]
    have : ∀ l : List Event, (∀ e ∈ l, e ∈ events) → (l.flatMap fun e => if comp e.source = mc ∧ comp e.target = mc then
        dec ((number n comp mc).1 e.source) ++ ' ' :: (dec ((number n comp mc).1 e.target) ++ ' ' :: (decInt e.weight ++ ' ' :: dec e.time)) ++ ['\n']
      else []) = fileOf ((l.filter fun e => comp e.source = mc ∧ comp e.target = mc).map line) := by
      intro l
      induction l with
      | nil => intro _; rfl
      | cons e l ih =>
        intro hl
        obtain ⟨a1, a2, a3, a4, -⟩ := he e (hl e (by simp))
        rw [List.flatMap_cons, ih fun x hx => hl x (by simp [hx])]
        by_cases hc : comp e.source = mc ∧ comp e.target = mc
        · rw [if_pos hc, List.filter_cons_of_pos (by simpa using hc), hnum _ a1 hc.1, hnum _ a2 hc.2]
          show _ = (line e).text ++ ['\n'] ++ fileOf _
          congr 2
          show _ = List.replicate 0 ' ' ++ (dec _ ++ ' ' :: (dec _ ++ ' ' :: ([] ++ ((form e.weight).text ++ dec e.time))))
          rw [(form_spec a3 a4).1]
          simp
        · rw [if_neg hc, List.filter_cons_of_neg (by simpa using hc)]
          rfl
    exact this events fun e h => h
  have hev : eventsOf ls = (events.filter fun e => comp e.source = mc ∧ comp e.target = mc).map fun e =>
      ⟨place comp mc e.source, place comp mc e.target, e.weight, e.time⟩ := by
    show ((events.filter fun e => comp e.source = mc ∧ comp e.target = mc).map line).filterMap Line.meaning = _
    rw [List.filterMap_map, ← List.filterMap_eq_map]
    refine List.filterMap_congr fun e he' => ?_
    obtain ⟨a1, a2, a3, a4, a5⟩ := he e (List.mem_filter.1 he').1
    show some (Event.mk (place comp mc e.source + 1 - 1) (place comp mc e.target + 1 - 1) (form e.weight).value e.time) = _
    rw [(form_spec a3 a4).2.1]
    rfl
  obtain ⟨r1, r2⟩ := C61_events ls hvalid
  rw [hfile]
  refine ⟨mc, m1, m2, r1, fun n' out ho => ?_⟩
  obtain ⟨q1, q2, -⟩ := r2 n' out ho
  rw [hev] at q1
  exact ⟨q1, q2⟩

/-- Two components, of two and three vertices: the vertices 1, 3, 4 are kept. -/
example : (∀ e ∈ [Event.mk 0 2 1 3, ⟨4, 1, 5, 9⟩, ⟨1, 3, -5, 4⟩],
      e.source < 5 ∧ e.target < 5 ∧ -(2 ^ 63) < e.weight ∧ e.weight < 2 ^ 63 ∧ e.time < 2 ^ 64) ∧
    writeLargest 5 2 (fun v => if v = 0 ∨ v = 2 then 0 else 1) [⟨0, 2, 1, 3⟩, ⟨4, 1, 5, 9⟩, ⟨1, 3, -5, 4⟩] = "3 1 5 9\n1 2 -5 4\n".toList := by
  decide +kernel

/-- **C63, program.**  For all events of a dynamic graph with `n ≥ 1` vertices, the program writes a file, and there is a set `K` of vertices, the connected component of
a vertex in the graph of all events, such that no component has more vertices than `K`, and reading the file (C61) gives exactly the events inside
`K`, once each and in the order of time, with unchanged weights and times and the vertices of `K` renumbered in their order without gaps. -/
theorem C63_program (n : Nat) (events : List Event) (hn : n < 2 ^ 32) (hpos : 0 < n)
    (he : ∀ e ∈ events, e.source < n ∧ e.target < n ∧ -(2 ^ 63) < e.weight ∧ e.weight < 2 ^ 63 ∧ e.time < 2 ^ 64) :
    ∃ file K, program n events = some file ∧
      (∃ r, r < n ∧ ∀ v, v < n → (K v = true ↔ Joined events r v)) ∧
      (∀ (K' : Nat → Bool) r, r < n → (∀ v, v < n → (K' v = true ↔ Joined events r v)) →
        ((List.range n).filter K').length ≤ ((List.range n).filter K).length) ∧
      (∃ n' out, Outcome file n' out) ∧
      ∀ n' out, Outcome file n' out →
        out.Perm ((events.filter fun e => K e.source && K e.target).map fun e =>
          ⟨((List.range e.source).filter K).length, ((List.range e.target).filter K).length, e.weight, e.time⟩) ∧
        out.Pairwise (fun a b => a.time ≤ b.time) := by
  have he' : ∀ e ∈ events, e.source < n ∧ e.target < n := fun e h => ⟨(he e h).1, (he e h).2.1⟩
  obtain ⟨b1, b2, -⟩ := build_spec n events he' (MGraph.start n) (MGraph.Valid.start n) rfl
  have b1' : (build n events).Valid := b1
  have b2' : (build n events).toGraph.n = n := by rw [MGraph.toGraph_n]; exact b2
  obtain ⟨label, count, s1, s2⟩ := C21_scc (build n events).toGraph b1'.wf.tgt_lt
  rw [b2'] at s2
  let comp : Nat → Nat := fun v => (label v).getD 0
  have hcomp : ∀ u v, u < n → v < n → (comp u = comp v ↔ Joined events u v) := by
    intro u v hu hv
    rw [← mutual_iff he', ← s2.classes u v hu hv]
    obtain ⟨c, hc, -⟩ := s2.total u hu
    obtain ⟨d, hd, -⟩ := s2.total v hv
    show (label u).getD 0 = (label v).getD 0 ↔ _
    rw [hc, hd]
    simp
  have hlt : ∀ v, v < n → comp v < count := by
    intro v hv
    obtain ⟨c, hc, hc'⟩ := s2.total v hv
    show (label v).getD 0 < count
    rw [hc]
    exact hc'
  obtain ⟨mc, m1, m2, m3, m4⟩ := C63_largest_component n count comp events hn (lt_of_le_of_lt (Nat.zero_le _) (hlt 0 hpos)) he
  obtain ⟨r, hr, hrm⟩ : ∃ r, r < n ∧ comp r = mc := by
    have h0 := m2 (comp 0) (hlt 0 hpos)
    have h1 : 0 < ((List.range n).filter fun v => comp v = comp 0).length :=
      List.length_pos_of_mem (List.mem_filter.2 ⟨List.mem_range.2 hpos, by simp⟩)
    obtain ⟨r, hr⟩ := List.exists_mem_of_length_pos (lt_of_lt_of_le h1 h0)
    obtain ⟨q1, q2⟩ := List.mem_filter.1 hr
    exact ⟨r, List.mem_range.1 q1, by simpa using q2⟩
  refine ⟨writeLargest n count comp events, fun v => decide (comp v = mc), by rw [program, s1]; rfl, ⟨r, hr, fun v hv => ?_⟩, ?_, m3, ?_⟩
  · rw [decide_eq_true_eq, ← hcomp r v hr hv, hrm]
    exact eq_comm
  · intro K' r' hr' hK'
    refine le_trans (le_of_eq ?_) (m2 (comp r') (hlt r' hr'))
    congr 1
    refine List.filter_congr fun v hv => ?_
    have hv := List.mem_range.1 hv
    rw [Bool.eq_iff_iff, hK' v hv, ← hcomp r' v hr' hv, decide_eq_true_eq]
    exact eq_comm
  · intro n' out ho
    obtain ⟨o1, o2⟩ := m4 n' out ho
    refine ⟨?_, o2⟩
    have : (events.filter fun e => decide (comp e.source = mc) && decide (comp e.target = mc)) =
        events.filter fun e => decide (comp e.source = mc ∧ comp e.target = mc) := by
      refine List.filter_congr fun e _ => ?_
      simp
    rw [this]
    exact o1

/-- The assumptions of `C63_program` hold for whatever is read from a file of events (C61) with at least one event. -/
theorem C63_applies (ls : List Line) (h : ∀ l ∈ ls, l.Valid) (hne : eventsOf ls ≠ []) (n : Nat) (events : List Event)
    (ho : Outcome (fileOf ls) n events) :
    n < 2 ^ 32 ∧ 0 < n ∧
      ∀ e ∈ events, e.source < n ∧ e.target < n ∧ -(2 ^ 63) < e.weight ∧ e.weight < 2 ^ 63 ∧ e.time < 2 ^ 64 := by
  obtain ⟨h1, -, h3, h4⟩ := (C61_events ls h).2 n events ho
  obtain ⟨e0, he0⟩ := List.exists_mem_of_ne_nil _ hne
  have hpos : 0 < n := lt_of_le_of_lt (Nat.zero_le _) (h3 e0 (h1.mem_iff.2 he0)).1
  refine ⟨?_, hpos, fun e he => ⟨(h3 e he).1, (h3 e he).2, ?_⟩⟩
  · rcases h4 with h4 | ⟨e, he, h4⟩
    · omega
    · have := events_bound h (h1.mem_iff.1 he)
      omega
  · obtain ⟨l, hl, hm⟩ := List.mem_filterMap.1 (h1.mem_iff.1 he)
    have hv := h l hl
    cases l with
    | comment _ => cases hm
    | event lead u v gap w t =>
      obtain ⟨-, -, -, -, -, hw, ht⟩ := hv
      cases hm
      cases w <;> simp only [Weight.abs] at hw <;> simp only [Weight.value] <;> refine ⟨?_, ?_, ht⟩ <;> omega

/-- The program on two components, of two and three vertices: the vertices 1, 3, 4 are kept. -/
example : program 5 [⟨0, 2, 1, 3⟩, ⟨4, 1, 5, 9⟩, ⟨1, 3, -5, 4⟩] = some "3 1 5 9\n1 2 -5 4\n".toList := by
  decide +kernel

end VieCut
