import Verif.Model.VectorIO
import Verif.Proof.GraphIO

/-!
# C50: vector files
-/

namespace VieCut
namespace VectorIO
open GraphIO Function

theorem getline_line {l : List Char} (hl : '\n' ∉ l) (rest : List Char) : getline (l ++ '\n' :: rest) = (l, rest, false) := by
  have hp : ∀ c ∈ l, decide (c ≠ '\n') = true := by
    intro c hc
    refine decide_eq_true ?_
    rintro rfl
    exact hl hc
  unfold getline
  rw [List.dropWhile_append_of_pos hp, List.takeWhile_append_of_pos hp]
  simp

theorem getline_last {l : List Char} (hl : '\n' ∉ l) : getline l = (l, [], true) := by
  have hp : ∀ c ∈ l, decide (c ≠ '\n') = true := by
    intro c hc
    refine decide_eq_true ?_
    rintro rfl
    exact hl hc
  have h1 : l.dropWhile (fun c => decide (c ≠ '\n')) = [] := by
    have := List.dropWhile_append_of_pos (l₂ := []) hp
    simpa using this
  have h2 : l.takeWhile (fun c => decide (c ≠ '\n')) = l := by
    have := List.takeWhile_append_of_pos (l₂ := []) hp
    simpa using this
  unfold getline
  rw [h1, h2]

theorem step_eof (other : List Char → Nat) (s : Reader) (h : s.eof = true) : step other s = s := by
  unfold step
  rw [if_pos h]

/-- The text of a file with the lines `ls`, each with a newline, and a rest without newline. -/
def fileText (ls : List (List Char)) (rest : List Char) : List Char := ls.flatMap (· ++ ['\n']) ++ rest

theorem read_lines (other : List Char → Nat) (ls : List (List Char)) (hl : ∀ l ∈ ls, '\n' ∉ l ∧ isComment l = false) (rest : List Char)
    (vec : List Nat) (s : Reader) (hs : s = ⟨(getline (fileText ls rest)).1, (getline (fileText ls rest)).2.1, (getline (fileText ls rest)).2.2, vec⟩) :
    (step other)^[ls.length] s = ⟨(getline rest).1, (getline rest).2.1, (getline rest).2.2, vec ++ ls.map (value other)⟩ := by
  induction ls generalizing vec s with
  | nil => subst hs; simp [fileText]
  | cons l ls ih =>
    rw [List.length_cons, iterate_succ_apply]
    obtain ⟨h1, h2⟩ := hl l List.mem_cons_self
    have e : fileText (l :: ls) rest = l ++ '\n' :: fileText ls rest := by simp [fileText]
    rw [e, getline_line h1] at hs
    have := ih (fun x hx => hl x (List.mem_cons_of_mem _ hx)) (vec ++ [value other l]) (step other s) (by
      subst hs
      unfold step
      dsimp only
      rw [if_neg (by simp), if_neg (by rw [h2]; simp)]
      rfl)
    rw [this]
    simp

/-- What is read from a file without comments: one number for every line that ends with a newline.  Text after the last
newline is ignored.  The loop has ended after as many iterations as there are such lines. -/
theorem C50_read_partial (other : List Char → Nat) (ls : List (List Char)) (hl : ∀ l ∈ ls, '\n' ∉ l ∧ isComment l = false)
    (rest : List Char) (hr : '\n' ∉ rest) (N : Nat) (hN : ls.length ≤ N) :
    (read other N (fileText ls rest)).eof = true ∧ (read other N (fileText ls rest)).vec = ls.map (value other) := by
  obtain ⟨M, rfl⟩ := Nat.exists_eq_add_of_le hN
  unfold read
  rw [Nat.add_comm, iterate_add_apply, read_lines other ls hl rest [] (Reader.next ⟨[], fileText ls rest, false, []⟩) rfl, getline_last hr]
  have hfix : ∀ v, step other { line := rest, rest := [], eof := true, vec := v } = { line := rest, rest := [], eof := true, vec := v } := by
    intro v
    unfold step
    rw [if_pos rfl]
  dsimp only
  rw [iterate_fixed (hfix _)]
  exact ⟨rfl, by simp⟩

theorem value_dec (other : List Char → Nat) {x : Nat} (hx : x < 2 ^ 53) : value other (dec x) = x := by
  unfold value
  rw [if_pos ⟨dec_ne_nil x, List.all_eq_true.2 fun c hc => isDigit_of_mem_dec hc⟩]
  have : Nat.ofDigitChars 10 (dec x) 0 = x := Nat.ofDigitChars_ten_toDigits
  rw [this]
  unfold toDouble
  rw [if_pos hx]

theorem dec_line (x : Nat) : '\n' ∉ dec x ∧ isComment (dec x) = false := by
  have hd : ∀ c ∈ dec x, c.isDigit = true := fun c hc => isDigit_of_mem_dec hc
  refine ⟨fun h => ?_, ?_⟩
  · have := hd _ h; revert this; decide
  · unfold isComment
    cases h : dec x with
    | nil => exact absurd h (dec_ne_nil x)
    | cons c l =>
      have := hd c (by rw [h]; simp)
      rw [List.head?_cons]
      by_cases hc : c = '%'
      · subst hc; revert this; decide
      · simp [hc]

/-- A vector that has been written is read back, if its numbers are smaller than 2^53, for example vertices or blocks. -/
theorem C50_round_trip (other : List Char → Nat) (vec : List Nat) (hv : ∀ x ∈ vec, x < 2 ^ 53) (N : Nat) (hN : vec.length ≤ N) :
    (read other N (write vec)).eof = true ∧ (read other N (write vec)).vec = vec := by
  have e : write vec = fileText (vec.map dec) [] := by
    unfold write fileText
    rw [List.append_nil, List.flatMap_map]
  rw [e]
  obtain ⟨h1, h2⟩ := C50_read_partial other (vec.map dec) (fun l hl => by
    obtain ⟨x, _, rfl⟩ := List.mem_map.1 hl
    exact dec_line x) [] (by simp) N (by rw [List.length_map]; exact hN)
  refine ⟨h1, h2.trans ?_⟩
  rw [List.map_map]
  conv_rhs => rw [← List.map_id vec]
  exact List.map_congr_left fun x hx => value_dec other (hv x hx)

/-- The loop never ends once a comment has been read: for every file with a comment line, whatever follows. -/
theorem C50_comment_hangs (other : List Char → Nat) (ls : List (List Char)) (hl : ∀ l ∈ ls, '\n' ∉ l ∧ isComment l = false)
    (c : List Char) (hc : '\n' ∉ c) (hcom : isComment c = true) (rest : List Char) (N : Nat) :
    (read other N (fileText ls (c ++ '\n' :: rest))).eof = false := by
  have key : ∀ M, (step other)^[M + ls.length] (Reader.next { line := [], rest := fileText ls (c ++ '\n' :: rest), eof := false, vec := [] }) =
      { line := c, rest := rest, eof := false, vec := ls.map (value other) } := by
    intro M
    rw [iterate_add_apply, read_lines other ls hl (c ++ '\n' :: rest) [] (Reader.next ⟨[], fileText ls (c ++ '\n' :: rest), false, []⟩) rfl, getline_line hc]
    refine iterate_fixed ?_ M
    unfold step
    dsimp only
    rw [if_neg (by simp), if_pos hcom]
  unfold read
  by_contra hne
  have heof : ((step other)^[N] (Reader.next { line := [], rest := fileText ls (c ++ '\n' :: rest), eof := false, vec := [] })).eof = true := by
    simpa using hne
  have hfix : step other ((step other)^[N] (Reader.next { line := [], rest := fileText ls (c ++ '\n' :: rest), eof := false, vec := [] })) =
      (step other)^[N] (Reader.next { line := [], rest := fileText ls (c ++ '\n' :: rest), eof := false, vec := [] }) := step_eof other _ heof
  have h1 := key N
  rw [Nat.add_comm, iterate_add_apply, iterate_fixed hfix] at h1
  rw [h1] at heof
  cases heof

/-- A number of 64 bits is not always read back. -/
theorem C50_large (other : List Char → Nat) : (read other 1 (write [2 ^ 53 + 1])).vec = [2 ^ 53] := by
  have e : write [2 ^ 53 + 1] = fileText [dec (2 ^ 53 + 1)] [] := by simp [write, fileText]
  rw [e, (C50_read_partial other [dec (2 ^ 53 + 1)] (fun l hl => by
    rw [List.mem_singleton.1 hl]; exact dec_line _) [] (by simp) 1 (by simp)).2]
  have h1 : Nat.ofDigitChars 10 (dec (2 ^ 53 + 1)) 0 = 2 ^ 53 + 1 := Nat.ofDigitChars_ten_toDigits
  have h2 : value other (dec (2 ^ 53 + 1)) = 2 ^ 53 := by
    unfold value
    rw [if_pos ⟨dec_ne_nil _, List.all_eq_true.2 fun c hc => isDigit_of_mem_dec hc⟩, h1]
    decide +kernel
  simp [h2]

/-- The hypotheses of the theorems are met: a vector; a file whose last line has no newline. -/
example : (read (fun _ => 0) 3 (write [3, 0, 17])).vec = [3, 0, 17] ∧
    (read (fun _ => 0) 3 ['4', '\n', '5', '\n', '6']).vec = [4, 5] ∧
    (read (fun _ => 0) 9 ['4', '\n', '%', '\n', '6', '\n']).eof = false := by
  decide +kernel

end VectorIO
end VieCut
