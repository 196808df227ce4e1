import Verif.Spec.TemporalIO
import Verif.Proof.GraphIO

/-! # Lemmas about reading files of dynamic graphs -/

namespace VieCut
namespace TemporalIO
open GraphIO

theorem vertex_eq {u : Nat} (h1 : 1 ≤ u) (h2 : u < 2 ^ 32) : vertex u = u - 1 := by
  unfold vertex
  rw [if_neg (by omega), Nat.mod_eq_of_lt (by omega)]

theorem toInt_eq {w : Nat} (h : w < 2 ^ 63) : toInt w = w := by unfold toInt; rw [if_pos h]

attribute [local irreducible] vertex toInt fastAtoi larger

theorem dropWhile_dec {p : Char → Bool} (hp : ∀ c, c.isDigit = true → p c = false) (x : Nat) (R : List Char) :
    (dec x ++ R).dropWhile p = dec x ++ R := by
  cases hd : dec x with
  | nil => exact absurd hd (dec_ne_nil x)
  | cons c l =>
    rw [List.cons_append, List.dropWhile_cons_of_neg]
    rw [hp c (isDigit_of_mem_dec (by rw [hd]; simp))]; simp

theorem notBlank_digit (c : Char) (h : c.isDigit = true) : (c == ' ') = false := by
  cases hc : c == ' '
  · rfl
  · rw [beq_iff_eq] at hc; subst hc; cases h

theorem notTab_digit (c : Char) (h : c.isDigit = true) : (c == ' ' || c == '\t') = false := by
  rw [notBlank_digit c h, Bool.false_or]
  cases hc : c == '\t'
  · rfl
  · rw [beq_iff_eq] at hc; subst hc; cases h

theorem fastAtoi_end {x : Nat} (hx : x < 2 ^ 64) : fastAtoi (dec x) = (x, none) := by
  have := fastAtoi_dec hx [] (by simp)
  rwa [List.append_nil] at this

theorem fastAtoi_sp {x : Nat} (hx : x < 2 ^ 64) (R : List Char) : fastAtoi (dec x ++ ' ' :: R) = (x, some R) :=
  fastAtoi_dec hx (' ' :: R) (by simp)

/-- The number of a line that starts with a digit. -/
theorem dec_cons (x : Nat) : ∃ c l, dec x = c :: l ∧ c.isDigit = true := by
  cases hd : dec x with
  | nil => exact absurd hd (dec_ne_nil x)
  | cons c l => exact ⟨c, l, rfl, isDigit_of_mem_dec (by rw [hd]; simp)⟩

theorem not_sign {c : Char} (h : c.isDigit = true) : ¬(c = '+' ∨ c = '-') := by
  rintro (rfl | rfl) <;> cases h

theorem readEvent_text {lead u v : Nat} {gap : List Char} {w : Weight} {t : Nat} (h : (Line.event lead u v gap w t).Valid) :
    readEvent (Line.event lead u v gap w t).text = some ⟨u - 1, v - 1, w.value, t⟩ := by
  obtain ⟨hu1, hu2, hv1, hv2, hg, hw, ht⟩ := h
  unfold readEvent Line.text
  rw [List.dropWhile_append_of_pos (by intro c hc; rw [List.eq_of_mem_replicate hc]; rfl), dropWhile_dec notBlank_digit,
    fastAtoi_sp (by omega)]
  dsimp only [Option.bind_some]
  rw [fastAtoi_sp (by omega)]
  dsimp only [Option.bind_some]
  rw [List.dropWhile_append_of_pos (by intro c hc; rcases hg c hc with rfl | rfl <;> rfl), vertex_eq hu1 hu2, vertex_eq hv1 hv2]
  cases w with
  | none =>
    show (match List.dropWhile _ (dec t) with | [] => _ | c :: l3 => _) = _
    have h1 := dropWhile_dec notTab_digit t []
    rw [List.append_nil] at h1
    rw [h1]
    obtain ⟨c, l, hd, hc⟩ := dec_cons t
    have h2 := fastAtoi_end ht
    rw [hd] at h2 ⊢
    dsimp only
    rw [if_neg (not_sign hc), h2]
    rfl
  | plain w =>
    have h1 : Weight.text (.plain w) ++ dec t = dec w ++ ' ' :: dec t := by simp [Weight.text]
    rw [h1, dropWhile_dec notTab_digit]
    obtain ⟨c, l, hd, hc⟩ := dec_cons w
    obtain ⟨c', l', hd', hc'⟩ := dec_cons t
    have hw' : w < 2 ^ 63 := hw
    have h2 := fastAtoi_sp (x := w) (by omega) (dec t)
    have h3 := fastAtoi_end ht
    rw [hd, List.cons_append] at h2 ⊢
    dsimp only
    rw [if_neg (not_sign hc), h2, hd']
    dsimp only
    rw [hd'] at h3
    rw [h3, toInt_eq hw']
    rfl
  | plus w =>
    have h1 : Weight.text (.plus w) ++ dec t = '+' :: (dec w ++ ' ' :: dec t) := by simp [Weight.text]
    have hw' : w < 2 ^ 63 := hw
    rw [h1, List.dropWhile_cons_of_neg (by decide)]
    dsimp only
    rw [if_pos (Or.inl rfl), fastAtoi_sp (by omega)]
    dsimp only [Option.bind_some]
    rw [fastAtoi_end ht, if_neg (by decide), toInt_eq hw']
    rfl
  | minus w =>
    have h1 : Weight.text (.minus w) ++ dec t = '-' :: (dec w ++ ' ' :: dec t) := by simp [Weight.text]
    have hw' : w < 2 ^ 63 := hw
    rw [h1, List.dropWhile_cons_of_neg (by decide)]
    dsimp only
    rw [if_pos (Or.inr rfl), fastAtoi_sp (by omega)]
    dsimp only [Option.bind_some]
    rw [fastAtoi_end ht, if_pos rfl, toInt_eq hw']
    rfl

theorem newline_dec (x : Nat) : '\n' ∉ dec x := fun h => ne_newline_of_digit (isDigit_of_mem_dec h) rfl

theorem newline_text {l : Line} (h : l.Valid) : '\n' ∉ l.text := by
  cases l with
  | comment text =>
    have h' : '\n' ∉ text := h
    simpa [Line.text] using h'
  | event lead u v gap w t =>
    obtain ⟨-, -, -, -, hg, -, -⟩ := h
    have hgap : '\n' ∉ gap := fun hm => by rcases hg _ hm with h | h <;> exact absurd h (by decide)
    have hw : '\n' ∉ w.text := by cases w <;> simp [Weight.text, newline_dec]
    simp [Line.text, newline_dec, hgap, hw]

theorem head_event {lead u v : Nat} {gap : List Char} {w : Weight} {t : Nat} {c : Char} (h : c.isDigit = false) (h' : c ≠ ' ') :
    (Line.event lead u v gap w t).text.head? ≠ some c := by
  show (List.replicate lead ' ' ++ (dec u ++ ' ' :: (dec v ++ ' ' :: (gap ++ (w.text ++ dec t))))).head? ≠ some c
  cases lead with
  | zero =>
    obtain ⟨d, l, hd, hdig⟩ := dec_cons u
    rw [hd]
    intro he
    simp at he
    subst he
    rw [h] at hdig; cases hdig
  | succ k =>
    rw [List.replicate_succ]
    intro he
    simp at he
    exact h' he.symm

/-- The loop on a well-formed file. -/
theorem loop_file (file : List Char) (ls : List Line) (h : ∀ l ∈ ls, l.Valid) :
    ∀ n es, loop file (ls.map Line.text) n es = some (true, (eventsOf ls).foldl larger n, es ++ eventsOf ls) := by
  induction ls with
  | nil => intro n es; simp [loop, eventsOf]
  | cons l ls ih =>
    intro n es
    have ih := ih (fun a ha => h a (by simp [ha]))
    have hv := h l (by simp)
    rw [List.map_cons, loop]
    cases l with
    | comment text =>
      rw [if_neg (by simp [Line.text]), if_pos (by simp [Line.text, isComment]), ih]
      rfl
    | event lead u v gap w t =>
      rw [if_neg (head_event rfl (by decide)), if_neg, readEvent_text hv]
      · dsimp only [Option.bind_some]
        rw [ih]
        simp [eventsOf, Line.meaning]
      · unfold isComment
        rw [beq_iff_eq]
        exact head_event rfl (by decide)

theorem lines_file (ls : List Line) (h : ∀ l ∈ ls, l.Valid) : readLines (fileOf ls) = ls.map Line.text := by
  have := readLines_flatMap Line.text ls (fun a ha => newline_text (h a ha)) []
  rw [List.append_nil] at this
  unfold fileOf
  rw [this]
  simp [readLines]

theorem events_bound {ls : List Line} (h : ∀ l ∈ ls, l.Valid) {e : Event} (he : e ∈ eventsOf ls) : max e.source e.target + 1 < 2 ^ 32 := by
  obtain ⟨l, hl, hm⟩ := List.mem_filterMap.1 he
  have hv := h l hl
  cases l with
  | comment _ => cases hm
  | event lead u v gap w t =>
    obtain ⟨hu1, hu2, hv1, hv2, -⟩ := hv
    cases hm
    show max (u - 1) (v - 1) + 1 < _
    omega

/-- The number of vertices. -/
theorem foldl_larger (es : List Event) (h : ∀ e ∈ es, max e.source e.target + 1 < 2 ^ 32) :
    ∀ n, n ≤ es.foldl larger n ∧ (∀ e ∈ es, e.source < es.foldl larger n ∧ e.target < es.foldl larger n) ∧
      (es.foldl larger n = n ∨ ∃ e ∈ es, es.foldl larger n = max e.source e.target + 1) := by
  induction es with
  | nil => intro n; simp
  | cons e es ih =>
    intro n
    obtain ⟨h1, h2, h3⟩ := ih (fun a ha => h a (by simp [ha])) (larger n e)
    have he := h e (by simp)
    have hl : larger n e = max n (max e.source e.target + 1) := by
      unfold larger
      split <;> omega
    rw [List.foldl_cons]
    refine ⟨by omega, ?_, ?_⟩
    · intro a ha
      rcases List.mem_cons.1 ha with rfl | ha
      · omega
      · exact h2 a ha
    · rcases h3 with h3 | ⟨a, ha, h3⟩
      · by_cases hc : n ≤ max e.source e.target
        · exact Or.inr ⟨e, by simp, by omega⟩
        · exact Or.inl (by omega)
      · exact Or.inr ⟨a, by simp [ha], h3⟩

/-- The loop of `readDimacs` on the lines of the edges. -/
theorem dimacsLoop_file (es : List (Nat × Nat)) (h : ∀ e ∈ es, 1 ≤ e.1 ∧ e.1 < 2 ^ 32 ∧ 1 ≤ e.2 ∧ e.2 < 2 ^ 32) :
    ∀ k, dimacsLoop k (es.map fun e => ['e', ' '] ++ (dec e.1 ++ ' ' :: dec e.2)) =
      some (numbered k (es.filter fun e => e.1 < e.2)) := by
  induction es with
  | nil => intro k; rfl
  | cons e es ih =>
    intro k
    have ih := ih (fun a ha => h a (by simp [ha]))
    obtain ⟨h1, h2, h3, h4⟩ := h e (by simp)
    rw [List.map_cons, dimacsLoop]
    have ha : atoiFrom2 (['e', ' '] ++ (dec e.1 ++ ' ' :: dec e.2)) = some (e.1, some (dec e.2)) := by
      unfold atoiFrom2
      rw [if_neg (by simp)]
      show some (fastAtoi (dec e.1 ++ ' ' :: dec e.2)) = _
      rw [fastAtoi_sp (by omega)]
    rw [ha]
    dsimp only [Option.bind_some]
    rw [fastAtoi_end (by omega), vertex_eq h1 h2, vertex_eq h3 h4]
    by_cases hc : e.1 < e.2
    · rw [if_pos (by omega), ih, List.filter_cons_of_pos (by simpa using hc)]
      rfl
    · rw [if_neg (by omega), ih, List.filter_cons_of_neg (by simpa using hc)]

end TemporalIO
end VieCut
