import Mathlib.Tactic.Common
import Mathlib.Data.List.Basic

/-!
# Cuts of a chain of cycles and edges
-/

namespace VieCut

/-- Number of neighbours in a list on different sides. -/
def changes (X : Nat → Bool) : List Nat → Nat
  | [] => 0
  | [_] => 0
  | a :: b :: l => (if X a = X b then 0 else 1) + changes X (b :: l)

/-- Value of a cut of the edge between `p` and `q` (if `A` is empty) or of the cycle through `p`, `A` and `q`. -/
def segCost (c : Nat) (X : Nat → Bool) (p : Nat) (A : List Nat) (q : Nat) : Nat :=
  if A = [] then (if X p = X q then 0 else c) else (c / 2) * (changes X (p :: (A ++ [q])) + if X p = X q then 0 else 1)

/-- Value of a cut of the chain that starts at `p`. -/
def cost (c : Nat) (X : Nat → Bool) : Nat → List (List Nat × Nat) → Nat
  | _, [] => 0
  | p, x :: l => segCost c X p x.1 x.2 + cost c X x.2 l

/-- The vertices of the chain after the first one. -/
def verts (l : List (List Nat × Nat)) : List Nat := l.flatMap fun x => x.1 ++ [x.2]

/-- The last vertex of the chain that starts at `p`. -/
def endv : Nat → List (List Nat × Nat) → Nat
  | p, [] => p
  | _, x :: l => endv x.2 l

variable {c : Nat} {X : Nat → Bool}

theorem changes_cc (a b : Nat) (l : List Nat) : changes X (a :: b :: l) = (if X a = X b then 0 else 1) + changes X (b :: l) := rfl

theorem changes_one (a : Nat) : changes X [a] = 0 := rfl

theorem changes_skip {p : Nat} {A r : List Nat} (h : ∀ x ∈ A, X x = X p) : changes X (p :: (A ++ r)) = changes X (p :: r) := by
  induction A generalizing p with
  | nil => rfl
  | cons a A ih =>
    have ha := h a List.mem_cons_self
    rw [List.cons_append]
    rw [changes_cc, if_pos ha.symm, Nat.zero_add, ih (fun x hx => by rw [h x (List.mem_cons_of_mem _ hx), ha])]
    cases r with
    | nil => rfl
    | cons b r =>
      rw [changes_cc, changes_cc, ha]

theorem changes_const {p : Nat} {A : List Nat} (h : ∀ x ∈ A, X x = X p) : changes X (p :: A) = 0 := by
  have := changes_skip (r := []) h
  rw [List.append_nil] at this
  rw [this]; rfl

theorem changes_zero {p : Nat} {A : List Nat} (h : changes X (p :: A) = 0) : ∀ x ∈ A, X x = X p := by
  induction A generalizing p with
  | nil => simp
  | cons a A ih =>
    rw [changes_cc] at h
    have h1 : X p = X a := by
      by_contra hc
      rw [if_neg hc] at h; omega
    have h2 := ih (p := a) (by rw [if_pos h1] at h; omega)
    intro x hx
    rcases List.mem_cons.1 hx with rfl | hx
    · exact h1.symm
    · rw [h2 x hx, h1]

theorem changes_succ {p n : Nat} {A : List Nat} (h : changes X (p :: A) = n + 1) :
    ∃ A1 y A2, A = A1 ++ y :: A2 ∧ (∀ x ∈ A1, X x = X p) ∧ X y ≠ X p ∧ changes X (y :: A2) = n := by
  induction A generalizing p with
  | nil => rw [changes_one] at h; omega
  | cons a A ih =>
    rw [changes_cc] at h
    by_cases h1 : X p = X a
    · rw [if_pos h1, Nat.zero_add] at h
      obtain ⟨A1, y, A2, r1, r2, r3, r4⟩ := ih h
      refine ⟨a :: A1, y, A2, by rw [r1]; rfl, ?_, by rw [h1]; exact r3, r4⟩
      intro x hx
      rcases List.mem_cons.1 hx with rfl | hx
      · exact h1.symm
      · rw [r2 x hx, h1]
    · rw [if_neg h1] at h
      exact ⟨[], a, A, rfl, by simp, fun hh => h1 hh.symm, by omega⟩

/-- The cuts of value `c` of one cycle or edge. -/
def Pattern (X : Nat → Bool) (p : Nat) (A : List Nat) (q : Nat) : Prop :=
  ∃ A1 A2 A3, A = A1 ++ A2 ++ A3 ∧ (∀ x ∈ A1, X x = X p) ∧ (∀ x ∈ A2, X x ≠ X p) ∧ (∀ x ∈ A3, X x = X p) ∧
    ((X q ≠ X p ∧ A3 = []) ∨ (X q = X p ∧ A2 ≠ []))

theorem pattern_cost {p q : Nat} {A : List Nat} (hc : A ≠ [] → 2 * (c / 2) = c) (h : Pattern X p A q) : segCost c X p A q = c := by
  obtain ⟨A1, A2, A3, rfl, h1, h2, h3, h4⟩ := h
  unfold segCost
  by_cases hA : A1 ++ A2 ++ A3 = []
  · rw [if_pos hA]
    simp only [List.append_eq_nil_iff] at hA
    rcases h4 with ⟨h4, -⟩ | ⟨-, h4⟩
    · rw [if_neg (fun hh => h4 hh.symm)]
    · exact absurd hA.1.2 h4
  · rw [if_neg hA]
    have hc := hc hA
    have hbool : ∀ {a b c : Bool}, a ≠ c → b ≠ c → a = b := by decide
    have e0 : changes X (p :: (A1 ++ A2 ++ A3 ++ [q])) = changes X (p :: (A2 ++ (A3 ++ [q]))) := by
      rw [List.append_assoc, List.append_assoc, changes_skip h1]
    rw [e0]
    rcases h4 with ⟨h4, rfl⟩ | ⟨h4, h5⟩
    · rw [if_neg (fun hh => h4 hh.symm)]
      have : changes X (p :: (A2 ++ ([] ++ [q]))) = 1 := by
        cases A2 with
        | nil =>
          show changes X [p, q] = 1
          rw [changes_cc, if_neg (fun hh => h4 hh.symm)]; rfl
        | cons y A2 =>
          have hy := h2 y List.mem_cons_self
          rw [List.cons_append]
          rw [changes_cc, if_neg (fun hh => hy hh.symm), List.nil_append, changes_skip (fun x hx => hbool (h2 x (List.mem_cons_of_mem _ hx)) hy),
            changes_cc, if_pos (hbool hy h4)]; rfl
      rw [this]; omega
    · rw [if_pos h4.symm]
      have : changes X (p :: (A2 ++ (A3 ++ [q]))) = 2 := by
        cases A2 with
        | nil => exact absurd rfl h5
        | cons y A2 =>
          have hy := h2 y List.mem_cons_self
          rw [List.cons_append]
          rw [changes_cc, if_neg (fun hh => hy hh.symm), changes_skip (fun x hx => hbool (h2 x (List.mem_cons_of_mem _ hx)) hy)]
          cases A3 with
          | nil =>
            rw [List.nil_append]
            rw [changes_cc, if_neg (fun hh => hy (by rw [hh, h4]))]; rfl
          | cons z A3 =>
            have hz := h3 z List.mem_cons_self
            rw [List.cons_append]
            rw [changes_cc, if_neg (fun hh => hy (by rw [hh, hz])), changes_const]
            intro x hx
            rcases List.mem_append.1 hx with h | h
            · rw [h3 x (List.mem_cons_of_mem _ h), hz]
            · rw [List.mem_singleton.1 h, h4, hz]
      rw [this]; omega

theorem segCost_const {p q : Nat} {A : List Nat} (h : ∀ x ∈ A ++ [q], X x = X p) : segCost c X p A q = 0 := by
  have hq := h q (by simp)
  unfold segCost
  split
  · rw [if_pos hq.symm]
  · rw [if_pos hq.symm, changes_const h]; simp

/-- A cycle or edge is not cut, or cut by at least `c`, and by `c` only in the given ways. -/
theorem segCost_cases (h0 : 0 < c) {p q : Nat} {A : List Nat} (hc : A ≠ [] → 2 * (c / 2) = c) :
    (segCost c X p A q = 0 ∧ ∀ x ∈ A ++ [q], X x = X p) ∨ (c ≤ segCost c X p A q ∧ (segCost c X p A q = c → Pattern X p A q)) := by
  by_cases hA : A = []
  · subst hA
    unfold segCost
    rw [if_pos rfl]
    by_cases hq : X p = X q
    · left
      rw [if_pos hq]
      exact ⟨rfl, fun x hx => by rw [List.mem_singleton.1 hx, hq]⟩
    · right
      rw [if_neg hq]
      exact ⟨Nat.le_refl _, fun _ => ⟨[], [], [], rfl, by simp, by simp, by simp, Or.inl ⟨fun hh => hq hh.symm, rfl⟩⟩⟩
  · have hc := hc hA
    unfold segCost
    rw [if_neg hA]
    cases hn : changes X (p :: (A ++ [q])) with
    | zero =>
      left
      have h1 := changes_zero hn
      rw [if_pos (h1 q (by simp)).symm]
      exact ⟨by simp, h1⟩
    | succ n =>
      right
      obtain ⟨B1, y, B2, r1, r2, r3, r4⟩ := changes_succ hn
      have hbool : ∀ {a b c : Bool}, a ≠ c → b ≠ c → a = b := by decide
      by_cases hq : X p = X q
      · rw [if_pos hq, Nat.add_zero]
        -- the list ends on the first side
        cases n with
        | zero =>
          exfalso
          have h1 := changes_zero r4
          have hmem : q ∈ y :: B2 := by
            have : (B1 ++ y :: B2).getLast? = some q := by rw [← r1]; simp
            rw [List.getLast?_append] at this
            have h2 : (y :: B2).getLast? ≠ none := by simp
            cases h3 : (y :: B2).getLast? with
            | none => exact absurd h3 h2
            | some z =>
              rw [h3] at this
              simp at this
              subst this
              exact List.mem_of_getLast? h3
          rcases List.mem_cons.1 hmem with h2 | h2
          · exact r3 (by rw [← h2, hq])
          · exact r3 (by rw [← h1 q h2, hq])
        | succ n =>
          obtain ⟨D1, z, D2, t1, t2, t3, t4⟩ := changes_succ r4
          refine ⟨?_, fun he => ?_⟩
          · have : c / 2 * 2 ≤ c / 2 * (n + 1 + 1) := Nat.mul_le_mul_left _ (by omega)
            omega
          · have hn0 : n = 0 := by
              by_contra hne
              have : c / 2 * 3 ≤ c / 2 * (n + 1 + 1) := Nat.mul_le_mul_left _ (by omega)
              have : 0 < c / 2 := by omega
              omega
            subst hn0
            have h1 := changes_zero t4
            -- the last element is not part of the cycle list
            have hz : X z = X p := hbool t3 (fun hh => r3 hh.symm)
            have hsplit : ∃ D3, z :: D2 = D3 ++ [q] := by
              refine ⟨(z :: D2).dropLast, ?_⟩
              have h2 : (z :: D2).getLast? = some q := by
                have : (B1 ++ y :: (D1 ++ z :: D2)).getLast? = some q := by rw [← t1, ← r1]; simp
                rw [show B1 ++ y :: (D1 ++ z :: D2) = (B1 ++ y :: D1) ++ z :: D2 by simp, List.getLast?_append] at this
                cases h3 : (z :: D2).getLast? with
                | none => simp at h3
                | some w => rw [h3] at this; simpa using this
              rw [List.dropLast_append_getLast?]
              exact h2
            obtain ⟨D3, hD3⟩ := hsplit
            have hD : ∀ x ∈ D3 ++ [q], X x = X p := by
              intro x hx
              rw [← hD3] at hx
              rcases List.mem_cons.1 hx with h | h
              · rw [h, hz]
              · rw [h1 x h, hz]
            refine ⟨B1, y :: D1, D3, ?_, r2, ?_, fun x hx => hD x (List.mem_append_left _ hx), Or.inr ⟨hq.symm, by simp⟩⟩
            · have : A ++ [q] = (B1 ++ y :: D1 ++ D3) ++ [q] := by
                rw [r1, t1, hD3]; simp
              exact List.append_cancel_right this
            · intro x hx
              rcases List.mem_cons.1 hx with h | h
              · rw [h]; exact r3
              · rw [t2 x h]; exact r3
      · rw [if_neg hq]
        refine ⟨?_, fun he => ?_⟩
        · have : c / 2 * 2 ≤ c / 2 * (n + 1 + 1) := Nat.mul_le_mul_left _ (by omega)
          omega
        · have hn0 : n = 0 := by
            by_contra hne
            have : c / 2 * 3 ≤ c / 2 * (n + 1 + 1) := Nat.mul_le_mul_left _ (by omega)
            have : 0 < c / 2 := by omega
            omega
          subst hn0
          have h1 := changes_zero r4
          have hsplit : ∃ D3, y :: B2 = D3 ++ [q] := by
            refine ⟨(y :: B2).dropLast, ?_⟩
            have h2 : (y :: B2).getLast? = some q := by
              have : (B1 ++ y :: B2).getLast? = some q := by rw [← r1]; simp
              rw [List.getLast?_append] at this
              cases h3 : (y :: B2).getLast? with
              | none => simp at h3
              | some w => rw [h3] at this; simpa using this
            rw [List.dropLast_append_getLast?]
            exact h2
          obtain ⟨D3, hD3⟩ := hsplit
          refine ⟨B1, D3, [], ?_, r2, ?_, by simp, Or.inl ⟨fun hh => hq hh.symm, rfl⟩⟩
          · have : A ++ [q] = (B1 ++ D3) ++ [q] := by rw [r1, hD3]; simp
            rw [List.append_nil]
            exact List.append_cancel_right this
          · intro x hx
            have hx : x ∈ y :: B2 := by rw [hD3]; exact List.mem_append_left _ hx
            rcases List.mem_cons.1 hx with h | h
            · rw [h]; exact r3
            · rw [h1 x h]; exact r3

theorem verts_append (s1 s2 : List (List Nat × Nat)) : verts (s1 ++ s2) = verts s1 ++ verts s2 := List.flatMap_append

theorem verts_cons (x : List Nat × Nat) (l : List (List Nat × Nat)) : verts (x :: l) = x.1 ++ [x.2] ++ verts l := List.flatMap_cons

theorem endv_append (p : Nat) (s1 s2 : List (List Nat × Nat)) : endv p (s1 ++ s2) = endv (endv p s1) s2 := by
  induction s1 generalizing p with
  | nil => rfl
  | cons x l ih => exact ih x.2

theorem endv_mem (p : Nat) (l : List (List Nat × Nat)) : endv p l = p ∨ endv p l ∈ verts l := by
  induction l generalizing p with
  | nil => exact Or.inl rfl
  | cons x l ih =>
    right
    rw [verts_cons]
    rcases ih x.2 with h | h
    · show endv x.2 l ∈ _
      rw [h]; simp
    · exact List.mem_append_right _ h

theorem cost_append (p : Nat) (s1 s2 : List (List Nat × Nat)) : cost c X p (s1 ++ s2) = cost c X p s1 + cost c X (endv p s1) s2 := by
  induction s1 generalizing p with
  | nil => simp [cost, endv]
  | cons x l ih =>
    show segCost c X p x.1 x.2 + cost c X x.2 (l ++ s2) = segCost c X p x.1 x.2 + cost c X x.2 l + cost c X (endv x.2 l) s2
    rw [ih, Nat.add_assoc]

theorem cost_const {p : Nat} {l : List (List Nat × Nat)} (h : ∀ x ∈ verts l, X x = X p) : cost c X p l = 0 := by
  induction l generalizing p with
  | nil => rfl
  | cons x l ih =>
    rw [verts_cons] at h
    have hx : X x.2 = X p := h _ (by simp)
    unfold cost
    rw [segCost_const (fun y hy => h y (List.mem_append_left _ hy)), ih (fun y hy => by rw [h y (List.mem_append_right _ hy), hx])]

theorem cost_cases (h0 : 0 < c) {p : Nat} {l : List (List Nat × Nat)} (hc : ∀ x ∈ l, x.1 ≠ [] → 2 * (c / 2) = c) :
    (cost c X p l = 0 ∧ ∀ x ∈ verts l, X x = X p) ∨ (c ≤ cost c X p l ∧ (cost c X p l = c →
      ∃ s1 A q s2, l = s1 ++ (A, q) :: s2 ∧ (∀ x ∈ verts s1, X x = X p) ∧ Pattern X (endv p s1) A q ∧ ∀ x ∈ verts s2, X x = X q)) := by
  induction l generalizing p with
  | nil => exact Or.inl ⟨rfl, by simp [verts]⟩
  | cons x l ih =>
    have ih := ih (p := x.2) (fun y hy => hc y (List.mem_cons_of_mem _ hy))
    have hs := segCost_cases (X := X) (p := p) (q := x.2) h0 (hc x List.mem_cons_self)
    have hdef : cost c X p (x :: l) = segCost c X p x.1 x.2 + cost c X x.2 l := rfl
    rcases hs with ⟨s1, s2⟩ | ⟨s1, s2⟩
    · have hx : X x.2 = X p := s2 _ (by simp)
      rcases ih with ⟨i1, i2⟩ | ⟨i1, i2⟩
      · left
        refine ⟨by omega, fun y hy => ?_⟩
        rw [verts_cons] at hy
        rcases List.mem_append.1 hy with h | h
        · exact s2 y h
        · rw [i2 y h, hx]
      · right
        refine ⟨by omega, fun he => ?_⟩
        obtain ⟨t1, A, q, t2, r1, r2, r3, r4⟩ := i2 (by omega)
        refine ⟨x :: t1, A, q, t2, by rw [r1]; rfl, fun y hy => ?_, r3, r4⟩
        rw [verts_cons] at hy
        rcases List.mem_append.1 hy with h | h
        · exact s2 y h
        · rw [r2 y h, hx]
    · right
      refine ⟨by omega, fun he => ?_⟩
      rcases ih with ⟨i1, i2⟩ | ⟨i1, i2⟩
      · exact ⟨[], x.1, x.2, l, rfl, by simp [verts], s2 (by omega), i2⟩
      · omega

/-- A cut of one of the given ways has the value `c`. -/
theorem cost_pattern {p : Nat} {s1 s2 : List (List Nat × Nat)} {A : List Nat} {q : Nat} (hc : A ≠ [] → 2 * (c / 2) = c)
    (h1 : ∀ x ∈ verts s1, X x = X p) (h2 : Pattern X (endv p s1) A q) (h3 : ∀ x ∈ verts s2, X x = X q) :
    cost c X p (s1 ++ (A, q) :: s2) = c := by
  rw [cost_append, cost_const h1]
  unfold cost
  rw [pattern_cost hc h2, cost_const h3]; omega

end VieCut
