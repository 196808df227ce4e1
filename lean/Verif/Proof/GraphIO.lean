import Verif.Spec.GraphIO

/-! # Lemmas about reading graph files -/

namespace VieCut
namespace GraphIO

theorem isDigit_of_mem_dec {x : Nat} {c : Char} (h : c ∈ dec x) : c.isDigit = true :=
  Nat.isDigit_of_mem_toDigits (by omega) (by omega) h

theorem dec_ne_nil (x : Nat) : dec x ≠ [] := Nat.toDigits_ne_nil

theorem not_digit_of_space {c : Char} (h : isSpace c = true) : c.isDigit = false := by
  unfold isSpace at h
  simp only [Bool.or_eq_true, beq_iff_eq] at h
  rcases h with (((rfl | rfl) | rfl) | rfl) | rfl <;> decide

theorem digit_not_space {c : Char} (h : c.isDigit = true) : isSpace c = false := by
  cases hs : isSpace c
  · rfl
  · rw [not_digit_of_space hs] at h; cases h

theorem ne_newline_of_digit {c : Char} (h : c.isDigit = true) : c ≠ '\n' := by rintro rfl; cases h

theorem ne_newline_of_space {c : Char} (h : isSpace c = true) : c ≠ '\n' := by rintro rfl; cases h

/-! ### Lines -/

theorem readLines_line (l rest : List Char) (h : '\n' ∉ l) : readLines (l ++ '\n' :: rest) = l :: readLines rest := by
  induction l with
  | nil => rfl
  | cons c l ih =>
    have hc : c ≠ '\n' := fun he => h (by simp [he])
    have hl : '\n' ∉ l := fun he => h (by simp [he])
    rw [List.cons_append, readLines, if_neg hc, ih hl]

theorem readLines_flatMap {α : Type} (f : α → List Char) (ls : List α) (h : ∀ a ∈ ls, '\n' ∉ f a) (rest : List Char) :
    readLines (ls.flatMap (fun a => f a ++ ['\n']) ++ rest) = ls.map f ++ readLines rest := by
  induction ls with
  | nil => rfl
  | cons a ls ih =>
    have h1 : (a :: ls).flatMap (fun a => f a ++ ['\n']) ++ rest = f a ++ '\n' :: (ls.flatMap (fun a => f a ++ ['\n']) ++ rest) := by simp
    rw [h1, readLines_line _ _ (h a (by simp)), ih (fun b hb => h b (by simp [hb]))]
    rfl

theorem readLines_final (s : List Char) (h : s.getLast? ≠ some '\n') (hne : s ≠ []) : readLines (s ++ ['\n']) = readLines s := by
  induction s with
  | nil => exact absurd rfl hne
  | cons c s ih =>
    by_cases hs : s = []
    · subst hs
      have hc : c ≠ '\n' := fun he => h (by simp [he])
      show (if c = '\n' then _ else _) = (if c = '\n' then _ else _)
      rw [if_neg hc, if_neg hc]; rfl
    · have h1 : s.getLast? ≠ some '\n' := by
        rw [List.getLast?_cons_of_ne_nil hs] at h
        exact h
      show (if c = '\n' then [] :: readLines (s ++ ['\n']) else match readLines (s ++ ['\n']) with | [] => [[c]] | l :: ls => (c :: l) :: ls) = _
      rw [ih h1 hs]
      rfl

/-! ### Numbers -/

/-- The position after a number that is followed by `R`. -/
def after : List Char → Option (List Char)
  | [] => none
  | _ :: cs => some cs

theorem atoiLoop_digits (ds : List Char) (hd : ∀ c ∈ ds, c.isDigit = true) (R : List Char) (hR : ∀ c ∈ R.head?, c.isDigit = false) :
    ∀ x, atoiLoop (x % 2 ^ 64) (ds ++ R) = (Nat.ofDigitChars 10 ds x % 2 ^ 64, after R) := by
  induction ds with
  | nil =>
    intro x
    rw [Nat.ofDigitChars_nil]
    cases R with
    | nil => rfl
    | cons c cs =>
      show (if c.isDigit = true then _ else _) = _
      rw [if_neg (by rw [hR c rfl]; simp)]; rfl
  | cons c ds ih =>
    intro x
    show (if c.isDigit = true then _ else _) = _
    rw [if_pos (hd c (by simp)), Nat.ofDigitChars_cons]
    have h1 : ((x % 2 ^ 64) * 10 + (c.toNat - 48)) % 2 ^ 64 = (10 * x + (c.toNat - '0'.toNat)) % 2 ^ 64 := by
      show _ = (10 * x + (c.toNat - 48)) % 2 ^ 64
      omega
    rw [h1]
    exact ih (fun d hd' => hd d (by simp [hd'])) _

theorem fastAtoi_dec {x : Nat} (hx : x < 2 ^ 64) (R : List Char) (hR : ∀ c ∈ R.head?, c.isDigit = false) :
    fastAtoi (dec x ++ R) = (x, after R) := by
  have h := atoiLoop_digits (dec x) (fun c hc => isDigit_of_mem_dec hc) R hR 0
  unfold fastAtoi
  rw [show (0 : Nat) = 0 % 2 ^ 64 from rfl, h]
  have : Nat.ofDigitChars 10 (dec x) 0 = x := Nat.ofDigitChars_ten_toDigits
  rw [this, Nat.mod_eq_of_lt hx]

theorem extract_dec (x : Nat) (R : List Char) (hR : ∀ c ∈ R.head?, c.isDigit = false) (sp : List Char) (hsp : ∀ c ∈ sp, isSpace c = true) :
    extract (sp ++ (dec x ++ R)) = some (x, R) := by
  have h1 : (sp ++ (dec x ++ R)).dropWhile isSpace = dec x ++ R := by
    rw [List.dropWhile_append_of_pos hsp]
    cases hd : dec x with
    | nil => exact absurd hd (dec_ne_nil x)
    | cons c l =>
      rw [List.cons_append, List.dropWhile_cons_of_neg]
      rw [digit_not_space (isDigit_of_mem_dec (by rw [hd]; simp))]; simp
  have h2 : R.takeWhile Char.isDigit = [] := by
    cases R with
    | nil => rfl
    | cons c cs => rw [List.takeWhile_cons_of_neg]; rw [hR c rfl]; simp
  have h3 : R.dropWhile Char.isDigit = R := by
    cases R with
    | nil => rfl
    | cons c cs => rw [List.dropWhile_cons_of_neg]; rw [hR c rfl]; simp
  unfold extract
  rw [h1]
  dsimp only
  rw [List.takeWhile_append_of_pos (fun c hc => isDigit_of_mem_dec hc), List.dropWhile_append_of_pos (fun c hc => isDigit_of_mem_dec hc),
    h2, h3, List.append_nil, if_neg (dec_ne_nil x)]
  have : Nat.ofDigitChars 10 (dec x) 0 = x := Nat.ofDigitChars_ten_toDigits
  rw [this]

/-! ### Entries of a line -/

/-- The loop body at a position inside the line. -/
theorem readEntries_step (ew : Bool) (node fuel : Nat) (l : List Char) (hl : l ≠ []) :
    readEntries ew node (fuel + 1) (some l) =
      if (fastAtoi l).1 % 2 ^ 32 = 0 then some []
      else if (fastAtoi l).1 % 2 ^ 32 - 1 = node then readEntries ew node fuel (fastAtoi l).2
      else if ew then
        match (fastAtoi l).2 with
        | none => none
        | some cs' => (readEntries ew node fuel (fastAtoi cs').2).map (((fastAtoi l).1 % 2 ^ 32 - 1, (fastAtoi cs').1) :: ·)
      else (readEntries ew node fuel (fastAtoi l).2).map (((fastAtoi l).1 % 2 ^ 32 - 1, 1) :: ·) := by
  cases l with
  | nil => exact absurd rfl hl
  | cons c cs => rfl

theorem readEntries_space (ew : Bool) (node fuel : Nat) (l : List Char) (hl : ∀ c ∈ l, isSpace c = true) :
    readEntries ew node (fuel + 1) (some l) = some [] := by
  cases l with
  | nil => rfl
  | cons c cs =>
    rw [readEntries_step _ _ _ _ (by simp)]
    have : fastAtoi (c :: cs) = (0, some cs) := by
      show (if c.isDigit = true then _ else _) = _
      rw [if_neg (by rw [not_digit_of_space (hl c (by simp))]; simp)]
    rw [this]; rfl

theorem readEntries_after (ew : Bool) (node fuel : Nat) (l : List Char) (hl : ∀ c ∈ l, isSpace c = true) :
    readEntries ew node (fuel + 1) (after l) = some [] := by
  cases l with
  | nil => rfl
  | cons c cs => exact readEntries_space _ _ _ _ (fun c hc => hl c (by simp [hc]))

open MetisFile

/-- What follows a number: the trailing text or a separator and further numbers. -/
def follow (sep : Char) (trail : List Char) (l : List Nat) : List Char :=
  if l = [] then trail else sep :: joinNums sep trail l

theorem joinNums_cons (sep : Char) (trail : List Char) (x : Nat) (l : List Nat) :
    joinNums sep trail (x :: l) = dec x ++ follow sep trail l := by
  cases l <;> rfl

theorem follow_head {sep : Char} {trail : List Char} (hs : isSpace sep = true) (ht : ∀ c ∈ trail, isSpace c = true) (l : List Nat) :
    ∀ c ∈ (follow sep trail l).head?, c.isDigit = false := by
  intro c hc
  unfold follow at hc
  split at hc
  · exact not_digit_of_space (ht c (List.mem_of_mem_head? hc))
  · rw [Option.mem_def, List.head?_cons, Option.some.injEq] at hc
    rw [← hc]; exact not_digit_of_space hs

theorem readEntries_follow {ew : Bool} {node : Nat} {sep : Char} {trail : List Char} (ht : ∀ c ∈ trail, isSpace c = true)
    (es : List (Nat × Nat)) (res : List (Nat × Nat)) (fuel : Nat)
    (ih : readEntries ew node (fuel + 1) (some (joinNums sep trail (numbers ew es))) = some res) (h0 : es = [] → res = []) :
    readEntries ew node (fuel + 1) (after (follow sep trail (numbers ew es))) = some res := by
  cases es with
  | nil =>
    rw [h0 rfl]
    exact readEntries_after _ _ _ _ ht
  | cons e es =>
    have : numbers ew (e :: es) ≠ [] := by cases ew <;> simp [numbers]
    unfold follow
    rw [if_neg this]
    exact ih

/-- The entries of a line are read as written, except that self loops are skipped (with weights, there must be none). -/
theorem readEntries_line {ew : Bool} {node : Nat} {sep : Char} {trail : List Char} (hs : isSpace sep = true)
    (ht : ∀ c ∈ trail, isSpace c = true) (es : List (Nat × Nat)) (hfit : ∀ e ∈ es, e.1 + 1 < 2 ^ 32 ∧ e.2 < 2 ^ 64)
    (hl : ew = true → ∀ e ∈ es, e.1 ≠ node) : ∀ fuel, es.length ≤ fuel →
    readEntries ew node (fuel + 1) (some (joinNums sep trail (numbers ew es))) =
      some ((es.filter (fun e => e.1 != node)).map fun e => (e.1, if ew then e.2 else 1)) := by
  induction es with
  | nil => intro fuel _; exact readEntries_space _ _ _ _ ht
  | cons e es ih =>
    intro fuel hf
    obtain ⟨f1, f2⟩ := hfit e (by simp)
    cases fuel with
    | zero => simp at hf
    | succ fuel =>
      have ih' := ih (fun e he => hfit e (by simp [he])) (fun h e he => hl h e (by simp [he])) fuel (by simpa using hf)
      have hfo := readEntries_follow ht es _ fuel ih' (by rintro rfl; rfl)
      cases ew with
      | false =>
        have hn : numbers false (e :: es) = (e.1 + 1) :: numbers false es := rfl
        rw [hn, joinNums_cons, readEntries_step _ _ _ _ (by simp [dec_ne_nil]), fastAtoi_dec (by omega) _ (follow_head hs ht _)]
        dsimp only
        rw [Nat.mod_eq_of_lt f1, if_neg (by omega), Nat.add_sub_cancel, hfo]
        by_cases h : e.1 = node
        · rw [if_pos h, List.filter_cons_of_neg (by simp [h])]
        · rw [if_neg h, List.filter_cons_of_pos (by simp [h])]; rfl
      | true =>
        have hn : numbers true (e :: es) = (e.1 + 1) :: e.2 :: numbers true es := rfl
        rw [hn, joinNums_cons, readEntries_step _ _ _ _ (by simp [dec_ne_nil]), fastAtoi_dec (by omega) _ (follow_head hs ht _)]
        have hfl : follow sep trail (e.2 :: numbers true es) = sep :: (dec e.2 ++ follow sep trail (numbers true es)) := by
          unfold follow
          rw [if_neg (by simp), joinNums_cons]; rfl
        have hne := hl rfl e (by simp)
        rw [hfl]
        dsimp only [after]
        rw [fastAtoi_dec f2 _ (follow_head hs ht _)]
        dsimp only
        rw [Nat.mod_eq_of_lt f1, if_neg (by omega), Nat.add_sub_cancel, if_neg hne, hfo, List.filter_cons_of_pos (by simp [hne])]
        rfl

theorem length_joinNums (sep : Char) (trail : List Char) (l : List Nat) : l.length ≤ (joinNums sep trail l).length := by
  induction l with
  | nil => exact Nat.zero_le _
  | cons x l ih =>
    rw [joinNums_cons, List.length_append, List.length_cons]
    have h1 : 1 ≤ (dec x).length := List.length_pos_iff.2 (dec_ne_nil x)
    have h2 : l.length ≤ (follow sep trail l).length := by
      unfold follow
      split
      · rename_i h; simp [h]
      · rw [List.length_cons]; omega
    omega

theorem length_numbers (ew : Bool) (es : List (Nat × Nat)) : es.length ≤ (numbers ew es).length := by
  induction es with
  | nil => exact le_refl _
  | cons e es ih =>
    have : numbers ew (e :: es) = (if ew then [e.1 + 1, e.2] else [e.1 + 1]) ++ numbers ew es := rfl
    rw [this, List.length_append, List.length_cons]
    cases ew <;> simp <;> omega

theorem readRow_line {ew : Bool} {node lead : Nat} {sep : Char} {trail : List Char} (hs : isSpace sep = true)
    (ht : ∀ c ∈ trail, isSpace c = true) (es : List (Nat × Nat)) (hfit : ∀ e ∈ es, e.1 + 1 < 2 ^ 32 ∧ e.2 < 2 ^ 64)
    (hl : ew = true → ∀ e ∈ es, e.1 ≠ node) :
    readRow ew node (lineText ew (.vertex lead sep es trail)) =
      some ((es.filter (fun e => e.1 != node)).map fun e => (e.1, if ew then e.2 else 1)) := by
  unfold readRow lineText
  dsimp only
  rw [List.dropWhile_append_of_pos (by
    intro c hc
    rw [(List.mem_replicate.1 hc).2]; rfl)]
  cases es with
  | nil =>
    exact readEntries_space _ _ _ _ (fun c hc => ht c ((List.dropWhile_sublist _).subset hc))
  | cons e es =>
    have hne : ∃ x l, numbers ew (e :: es) = x :: l := by cases ew <;> exact ⟨_, _, rfl⟩
    obtain ⟨x, l, hx⟩ := hne
    have hd : (joinNums sep trail (numbers ew (e :: es))).dropWhile (· == ' ') = joinNums sep trail (numbers ew (e :: es)) := by
      rw [hx, joinNums_cons]
      cases hdx : dec x with
      | nil => exact absurd hdx (dec_ne_nil x)
      | cons c cs =>
        have hc : c.isDigit = true := isDigit_of_mem_dec (x := x) (by rw [hdx]; simp)
        rw [List.cons_append, List.dropWhile_cons_of_neg]
        rw [beq_iff_eq]; rintro rfl; cases hc
    rw [hd]
    refine readEntries_line hs ht (e :: es) hfit hl _ ?_
    rw [List.length_append]
    have := length_numbers ew (e :: es)
    have := length_joinNums sep trail (numbers ew (e :: es))
    omega

/-! ### The reader's fuel -/

theorem atoiLoop_length (cs : List Char) : ∀ x r, (atoiLoop x cs).2 = some r → r.length < cs.length := by
  induction cs with
  | nil => intro x r h; cases h
  | cons c cs ih =>
    intro x r h
    unfold atoiLoop at h
    split at h
    · have := ih _ _ h; simp; omega
    · rw [Option.some.injEq] at h; subst h; simp

/-- The fuel of `readRow` is always sufficient: more fuel does not change the result. -/
theorem readEntries_fuel (ew : Bool) (node : Nat) : ∀ f f' (p : Option (List Char)), (∀ l ∈ p, l.length < f ∧ l.length < f') →
    0 < f → 0 < f' → readEntries ew node f p = readEntries ew node f' p := by
  intro f
  induction f with
  | zero => intro f' p _ h; omega
  | succ f ih =>
    intro f' p hp _ hf'
    obtain ⟨f', rfl⟩ : ∃ k, f' = k + 1 := ⟨f' - 1, by omega⟩
    cases p with
    | none => rfl
    | some l =>
      cases l with
      | nil => rfl
      | cons c cs =>
        have hlen := hp _ rfl
        simp only [List.length_cons] at hlen
        rw [readEntries_step _ _ _ _ (by simp), readEntries_step _ _ _ _ (by simp)]
        have h1 : ∀ q : Option (List Char), (∀ l ∈ q, l.length < cs.length + 1) → readEntries ew node f q = readEntries ew node f' q :=
          fun q hq => ih f' q (fun l hl => ⟨by have := hq l hl; omega, by have := hq l hl; omega⟩) (by omega) (by omega)
        have h2 : ∀ l ∈ (fastAtoi (c :: cs)).2, l.length < cs.length + 1 := fun l hl => by
          have := atoiLoop_length (c :: cs) 0 l hl
          simpa using this
        rw [h1 _ h2]
        cases hr : (fastAtoi (c :: cs)).2 with
        | none => rfl
        | some cs' =>
          dsimp only
          rw [h1 (fastAtoi cs').2 (fun l hl => by
            have a := atoiLoop_length cs' 0 l hl
            have b := h2 cs' hr
            omega)]

end GraphIO
end VieCut
