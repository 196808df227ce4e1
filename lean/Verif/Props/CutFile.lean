import Verif.Model.CutFile
import Verif.Spec.CutFile
import Verif.Proof.CactusFile
import Verif.Proof.Dynamic
import Verif.Props.GraphIO
import Verif.Props.NOIMutable
import Verif.Props.Inexact

/-! # C62: the file with the minimum cut -/

namespace VieCut
open CutFile CactusFile GraphIO

theorem CutFile.mapM_flag (S : Nat → Bool) (l : List Nat) :
    (l.map fun v => dec (if S v then 1 else 0)).mapM flag = some (l.map S) := by
  induction l with
  | nil => rfl
  | cons v l ih =>
    have hv : flag (dec (if S v then 1 else 0)) = some (S v) := by cases S v <;> decide
    rw [List.map_cons, List.mapM_cons, hv, ih]
    rfl

/-- **C62, file.**  The written file has one line for each vertex, which states its side. -/
theorem C62_written (n : Nat) (S : Nat → Bool) : readCut (writeCut n S) = some ((List.range n).map S) := by
  have h : fields '\n' (writeCut n S) = ((List.range n).map fun v => dec (if S v then 1 else 0)) ++ [[]] := by
    rw [← fields_lines]
    · unfold writeCut
      rw [List.flatMap_map]
    · intro l hl
      obtain ⟨v, -, rfl⟩ := List.mem_map.1 hl
      exact fun hm => ne_newline_of_digit (isDigit_of_mem_dec hm) rfl
  unfold readCut
  rw [h, List.getLast?_concat, if_pos rfl, List.dropLast_concat, mapM_flag]

/-- A file with sides. -/
example : writeCut 3 (fun v => v == 1) = "0\n1\n0\n".toList ∧ readCut "0\n1\n0\n".toList = some [false, true, false] := by decide

/-- The graph that is read has the cuts that the file describes. -/
theorem CutFile.read_cuts (F : MetisFile) (h : F.Good) (hG : Graph.WF ⟨F.rows⟩) :
    ∃ g, readMutable F.text = some g ∧ g.Consistent ∧ g.Fresh ∧ g.n = F.n ∧ g.toGraph.totalWeight ≤ Graph.totalWeight ⟨F.rows⟩ ∧
      ∀ T, cutValue F.n g.toGraph.wt T = cutValue F.n (Graph.wt ⟨F.rows⟩) T := by
  obtain ⟨g, h1, h2, h3, h4, h5⟩ := C40_read_mutable_partial F h hG
  have hv := (MGraph.consistent_iff).1 h2
  have hcount : Graph.n ⟨F.rows⟩ = F.n := h.count
  have hgn : g.toGraph.n = F.n := by rw [MGraph.toGraph_n, h4]
  refine ⟨g, h1, h2, h3, h4, ?_, fun T => ?_⟩
  · refine totalWeight_mono hG hv.wf (by rw [hgn, hcount]) fun u v hu => ?_
    by_cases hv' : v < F.n
    · exact le_of_eq (h5 u v (by omega) hv')
    · rw [hv.wf.wt_of_ge_right (by omega)]
      exact Nat.zero_le _
  · unfold cutValue
    refine Finset.sum_congr rfl fun u hu => Finset.sum_congr rfl fun v hv => ?_
    rw [h5 u v (Finset.mem_range.1 hu) (Finset.mem_range.1 hv)]

/-- The file states the cut that was written. -/
theorem CutFile.written_cut {n c : Nat} {w w' : Nat → Nat → Nat} (hw : ∀ T, cutValue n w T = cutValue n w' T) {S : Nat → Bool}
    (hmin : IsMinCut n w c) (hS : ProperCut n S) (hc : cutValue n w S = c) :
    ∃ sides, readCut (writeCut n S) = some sides ∧ sides.length = n ∧ IsMinCut n w' c ∧ ProperCut n (side sides) ∧
      cutValue n w' (side sides) = c := by
  have hside : ∀ v, v < n → side ((List.range n).map S) v = S v := by
    intro v hv
    unfold side
    rw [List.getD_eq_getElem?_getD, List.getElem?_map, List.getElem?_range hv]
    rfl
  refine ⟨_, C62_written n S, by simp, ?_, ?_, ?_⟩
  · obtain ⟨⟨S, s1, s2⟩, s3⟩ := hmin
    exact ⟨⟨S, s1, by rw [← hw]; exact s2⟩, fun T hT => by rw [← hw]; exact s3 T hT⟩
  · obtain ⟨⟨a, a1, a2⟩, b, b1, b2⟩ := hS
    exact ⟨⟨a, a1, by rw [hside a a1]; exact a2⟩, b, b1, by rw [hside b b1]; exact b2⟩
  · rw [cutValue_congr hside, ← hw]
    exact hc

/-- **C62, program.**  For every METIS file of an undirected graph (C40) with at least two vertices, the program `mincut` with the algorithm `noi` prints the
value of a minimum cut of the graph that the file describes, and the written file has one line for each vertex and states a cut of this value. -/
theorem C62_program (F : MetisFile) (h : F.Good) (hG : Graph.WF ⟨F.rows⟩) (hn : 2 ≤ F.n) (hb : Graph.totalWeight ⟨F.rows⟩ < 2 ^ 64) (cfg : NOICfg)
    (hsave : cfg.save = true) (hfit : PQFits cfg.kind F.n (Graph.totalWeight ⟨F.rows⟩))
    (ord : Nat → Nat → List Nat → List Nat) (hord : ∀ l, IsOrder (ord l)) (inCut0 : Nat → Bool) :
    ∃ value out sides, mincutNoi cfg ord inCut0 F.text = some (value, out) ∧ readCut out = some sides ∧
      sides.length = F.n ∧ IsMinCut F.n (Graph.wt ⟨F.rows⟩) value ∧ ProperCut F.n (side sides) ∧
      cutValue F.n (Graph.wt ⟨F.rows⟩) (side sides) = value := by
  obtain ⟨g, h1, h2, h3, h4, ht, hval⟩ := read_cuts F h hG
  have hgn : g.toGraph.n = F.n := by rw [MGraph.toGraph_n, h4]
  have hmd : g.toGraph.minDegree ≤ g.toGraph.totalWeight :=
    le_trans (Graph.minDegree_le (show 0 < g.toGraph.n by omega)) (Graph.deg_le_total (by omega))
  have hfit' : PQFits cfg.kind g.n (if cfg.limited then g.toGraph.minDegree else g.toGraph.totalWeight) :=
    hfit.mono (by omega) (by split <;> omega)
  have hmin := C02_noi_exact_mutable g h2 h3 (by omega) (by omega) cfg hfit' ord hord
  obtain ⟨c1, c2, -⟩ := C04_saved_cut_mutable g h2 h3 (by omega) (by omega) cfg hsave hfit' ord hord inCut0
  rw [h4] at hmin c1 c2
  obtain ⟨sides, d⟩ := written_cut hval hmin c1 c2
  exact ⟨_, _, sides, by rw [mincutNoi, h1, Option.map_some, h4], d⟩

/-- **C62, program with `viecut` (partial).**  As `C62_program`, for graphs with at most 10000 vertices.  Missing: larger graphs, for which the
value need not be minimum and the saved flags are not treated (see C12). -/
theorem C62_program_vc_partial (F : MetisFile) (h : F.Good) (hG : Graph.WF ⟨F.rows⟩) (hn : 2 ≤ F.n) (hs : F.n ≤ 10000)
    (hb : Graph.totalWeight ⟨F.rows⟩ < 2 ^ 64) (cfg : VCfg) (hsave : cfg.noi.save = true) (hσ : ∀ l k x, (cfg.lpShuffle l k x).Perm x)
    (hfit : PQFits cfg.noi.kind F.n (Graph.totalWeight ⟨F.rows⟩))
    (ord ordN ordM : Nat → Nat → List Nat → List Nat) (hord : ∀ l, IsOrder (ord l)) (hordN : ∀ l, IsOrder (ordN l))
    (hordM : ∀ l, IsOrder (ordM l)) (inCut0 : Nat → Bool) :
    ∃ value out sides, mincutVc cfg ord ordN ordM inCut0 F.text = some (value, out) ∧ readCut out = some sides ∧
      sides.length = F.n ∧ IsMinCut F.n (Graph.wt ⟨F.rows⟩) value ∧ ProperCut F.n (side sides) ∧
      cutValue F.n (Graph.wt ⟨F.rows⟩) (side sides) = value := by
  obtain ⟨g, h1, h2, h3, h4, ht, hval⟩ := read_cuts F h hG
  obtain ⟨v, flags, e1, -, -, e2⟩ := C12_viecut_mutable g h2 h3 (by omega) (by omega) cfg hσ (hfit.mono (by omega) ht) ord ordN ordM hord hordN hordM
    inCut0
  obtain ⟨e3, e4⟩ := e2 (by omega)
  obtain ⟨c1, c2⟩ := e4 hsave
  rw [h4] at e3 c1 c2
  obtain ⟨sides, d⟩ := written_cut hval e3 c1 c2
  exact ⟨_, _, sides, by rw [mincutVc, h1, Option.bind_some, e1, Option.map_some, h4], d⟩

/-- The weighted file of C40 meets the assumptions; the cut splits off vertex 2 with value 7. -/
example : weightedFile.Good ∧ Graph.WF ⟨weightedFile.rows⟩ ∧ 2 ≤ weightedFile.n ∧ Graph.totalWeight ⟨weightedFile.rows⟩ < 2 ^ 64 ∧
    PQFits .default weightedFile.n (Graph.totalWeight ⟨weightedFile.rows⟩) ∧
    mincutNoi ⟨.default, true, true, fun _ => 0⟩ (fun _ _ l => l) (fun _ => false) weightedFile.text = some (7, "0\n0\n1\n".toList) :=
  ⟨weightedFile_good, Graph.wf_of_check (by decide +kernel), by decide, by decide, by unfold PQFits; decide, by decide +kernel⟩

/-- The remaining assumptions of `C62_program_vc_partial` hold as well. -/
example : weightedFile.n ≤ 10000 ∧
    mincutVc ⟨⟨.default, true, true, fun _ => 0⟩, fun _ _ => 0, fun _ _ l => l⟩ (fun _ _ l => l) (fun _ _ l => l) (fun _ _ l => l) (fun _ => false)
      weightedFile.text = some (7, "0\n0\n1\n".toList) := by
  decide +kernel

end VieCut
