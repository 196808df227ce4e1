import Verif.Proof.TemporalIO
import Mathlib.Data.List.Sort

/-! # C61: reading the events of a dynamic graph -/

namespace VieCut
open TemporalIO GraphIO

/-- **C61, events.**  For every file whose lines are comments and events in one of the documented forms, reading gives a result, and every possible
result has each event of the file exactly once, in the order of time, for a graph with as many vertices as the largest number. -/
theorem C61_events (ls : List Line) (h : ∀ l ∈ ls, l.Valid) :
    (∃ n out, Outcome (fileOf ls) n out) ∧
    ∀ n out, Outcome (fileOf ls) n out →
      out.Perm (eventsOf ls) ∧ out.Pairwise (fun a b => a.time ≤ b.time) ∧
      (∀ e ∈ out, e.source < n ∧ e.target < n) ∧ (n = 0 ∨ ∃ e ∈ out, n = max e.source e.target + 1) := by
  have hl : loop (fileOf ls) (readLines (fileOf ls)) 0 [] = some (true, (eventsOf ls).foldl larger 0, eventsOf ls) := by
    rw [lines_file ls h, loop_file _ ls h]
    simp
  constructor
  · refine ⟨_, (eventsOf ls).mergeSort (fun a b => decide (a.time ≤ b.time)), true, _, hl, ?_⟩
    rw [if_pos rfl]
    refine ⟨List.mergeSort_perm _ _, ?_⟩
    have := List.pairwise_mergeSort (le := fun a b : Event => decide (a.time ≤ b.time))
      (by intro a b c; simp only [decide_eq_true_eq]; omega) (by intro a b; simp only [Bool.or_eq_true, decide_eq_true_eq]; omega) (eventsOf ls)
    simpa using this
  · rintro n out ⟨sorted, es, he, ho⟩
    rw [hl] at he
    simp only [Option.some.injEq, Prod.mk.injEq] at he
    obtain ⟨rfl, rfl, rfl⟩ := he
    rw [if_pos rfl] at ho
    obtain ⟨-, h2, h3⟩ := foldl_larger (eventsOf ls) (fun e he => events_bound h he) 0
    refine ⟨ho.1, ho.2, fun e he => h2 e (ho.1.mem_iff.1 he), ?_⟩
    rcases h3 with h3 | ⟨e, he, h3⟩
    · exact Or.inl h3
    · exact Or.inr ⟨e, ho.1.mem_iff.2 he, h3⟩

/-- An edge that is inserted and removed at the same time. -/
def tieSample : List Line :=
  [.comment " events".toList, .event 1 1 2 [] (.plus 3) 7, .event 0 1 2 ['\t'] (.minus 3) 7, .event 0 4 2 [] .none 5, .event 0 2 3 [] (.plain 9) 6]

/-- The hypothesis holds for a file with all forms of events. -/
example : ∀ l ∈ tieSample, l.Valid := by
  intro l hl
  simp only [tieSample, List.mem_cons, List.not_mem_nil, or_false] at hl
  rcases hl with rfl | rfl | rfl | rfl | rfl <;> simp [Line.Valid, Weight.abs]

/-- **C61, events of the same time.**  Their order is open: an insertion and a removal of an edge at the same time may be returned in
the order of the file and in the opposite one, so that the edge is there at the end or not. -/
theorem C61_ties_open :
    Outcome (fileOf tieSample) 4 [⟨3, 1, 1, 5⟩, ⟨1, 2, 9, 6⟩, ⟨0, 1, 3, 7⟩, ⟨0, 1, -3, 7⟩] ∧
    Outcome (fileOf tieSample) 4 [⟨3, 1, 1, 5⟩, ⟨1, 2, 9, 6⟩, ⟨0, 1, -3, 7⟩, ⟨0, 1, 3, 7⟩] := by
  have hl : loop (fileOf tieSample) (readLines (fileOf tieSample)) 0 [] =
      some (true, 4, [⟨0, 1, 3, 7⟩, ⟨0, 1, -3, 7⟩, ⟨3, 1, 1, 5⟩, ⟨1, 2, 9, 6⟩]) := by decide +kernel
  refine ⟨⟨true, _, hl, ?_⟩, ⟨true, _, hl, ?_⟩⟩ <;> rw [if_pos rfl] <;> exact ⟨by decide +kernel, by decide +kernel⟩

/-- **C61, files with a header `p`.**  Reading gives the announced number of vertices and the edges `e u v` with `u < v` in the order of the file.
Missing for the full property: the edges with `u > v`, see `C61_dimacs_dropped`. -/
theorem C61_dimacs_partial (N m : Nat) (es : List (Nat × Nat)) (hn : N < 2 ^ 32)
    (h : ∀ e ∈ es, 1 ≤ e.1 ∧ e.1 < 2 ^ 32 ∧ 1 ≤ e.2 ∧ e.2 < 2 ^ 32) (n : Nat) (out : List Event) :
    Outcome (dimacsFile N m es) n out ↔ n = N ∧ out = numbered 1 (es.filter fun e => e.1 < e.2) := by
  have h1 : readLines (dimacsFile N m es) =
      (['p', ' '] ++ (dec N ++ ' ' :: dec m)) :: es.map fun e => ['e', ' '] ++ (dec e.1 ++ ' ' :: dec e.2) := by
    unfold dimacsFile
    rw [readLines_line _ _ (by simp [newline_dec])]
    have := readLines_flatMap (fun e : Nat × Nat => ['e', ' '] ++ (dec e.1 ++ ' ' :: dec e.2)) es (by simp [newline_dec]) []
    rw [List.append_nil] at this
    rw [this]
    simp [readLines]
  have h2 : atoiFrom2 (['p', ' '] ++ (dec N ++ ' ' :: dec m)) = some (N, some (dec m)) := by
    unfold atoiFrom2
    rw [if_neg (by simp)]
    show some (fastAtoi (dec N ++ ' ' :: dec m)) = _
    rw [fastAtoi_sp (by omega)]
  have h3 : readDimacs (dimacsFile N m es) = some (N, numbered 1 (es.filter fun e => e.1 < e.2)) := by
    unfold readDimacs
    rw [h1]
    dsimp only
    rw [h2, dimacsLoop_file es h]
    simp [Nat.mod_eq_of_lt hn]
  have hl : loop (dimacsFile N m es) (readLines (dimacsFile N m es)) 0 [] =
      some (false, N, numbered 1 (es.filter fun e => e.1 < e.2)) := by
    rw [h1, loop, if_pos (by simp), h3]
    rfl
  constructor
  · rintro ⟨sorted, l, he, ho⟩
    rw [hl] at he
    simp only [Option.some.injEq, Prod.mk.injEq] at he
    obtain ⟨rfl, rfl, rfl⟩ := he
    exact ⟨rfl, by simpa using ho⟩
  · rintro ⟨rfl, rfl⟩
    exact ⟨false, _, hl, by simp⟩

/-- The hypotheses hold for a path of four vertices, all of whose edges are returned. -/
example : (∀ e ∈ [(1, 2), (2, 3), (3, 4)], 1 ≤ e.1 ∧ e.1 < 2 ^ 32 ∧ 1 ≤ e.2 ∧ e.2 < 2 ^ 32) ∧
    numbered 1 ([(1, 2), (2, 3), (3, 4)].filter fun e => e.1 < e.2) = [⟨0, 1, 1, 1⟩, ⟨1, 2, 1, 2⟩, ⟨2, 3, 1, 3⟩] := by decide

/-- **C61, refuted for edges with the larger vertex first.**  A path given as `e 1 2`, `e 3 2` is read as a graph with a vertex without edges. -/
theorem C61_dimacs_dropped : Outcome (dimacsFile 3 2 [(1, 2), (3, 2)]) 3 [⟨0, 1, 1, 1⟩] :=
  (C61_dimacs_partial 3 2 _ (by decide) (by decide) _ _).2 ⟨rfl, by decide⟩

end VieCut
