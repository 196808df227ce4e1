import Verif.Model.Random
import Mathlib.Data.List.Perm.Basic
import Mathlib.Data.List.Basic

namespace VieCut.Rand

theorem draw_le (lb rb x : Nat) (h : lb ≤ rb) : lb ≤ draw lb rb x ∧ draw lb rb x ≤ rb := by
  unfold draw
  have := Nat.mod_lt x (show 0 < rb - lb + 1 by omega)
  constructor
  · omega
  · omega

theorem swapAt_spec {α : Type} {l : List α} {i j : Nat} (hi : i < l.length) (hj : j < l.length) :
    ∃ l', swapAt l i j = some l' ∧ l'.Perm l := by
  unfold swapAt
  rw [List.getElem?_eq_getElem hi, List.getElem?_eq_getElem hj]
  refine ⟨_, rfl, ?_⟩
  exact List.set_set_perm hi hj

theorem swap4_spec {α : Type} {l : List α} {a b : Nat} (ha : a + 3 < l.length) (hb : b + 3 < l.length) :
    ∃ l', swap4 l a b = some l' ∧ l'.Perm l := by
  obtain ⟨l1, e1, p1⟩ := swapAt_spec (l := l) (i := a) (j := b) (by omega) (by omega)
  have h1 := p1.length_eq
  obtain ⟨l2, e2, p2⟩ := swapAt_spec (l := l1) (i := a + 1) (j := b + 1) (by omega) (by omega)
  have h2 := p2.length_eq
  obtain ⟨l3, e3, p3⟩ := swapAt_spec (l := l2) (i := a + 2) (j := b + 2) (by omega) (by omega)
  have h3 := p3.length_eq
  obtain ⟨l4, e4, p4⟩ := swapAt_spec (l := l3) (i := a + 3) (j := b + 3) (by omega) (by omega)
  refine ⟨l4, ?_, p4.trans (p3.trans (p2.trans p1))⟩
  unfold swap4
  rw [e1, Option.bind_some, e2, Option.bind_some, e3, Option.bind_some, e4]

/-- A loop whose body always rearranges the vector. -/
theorem fold_perm {α : Type} {l : List α} (f : List α → Nat → Option (List α)) (is : List Nat)
    (hf : ∀ s i, i ∈ is → s.length = l.length → ∃ s', f s i = some s' ∧ s'.Perm s) :
    ∃ l', is.foldl (fun s i => s.bind fun s => f s i) (some l) = some l' ∧ l'.Perm l := by
  have gen : ∀ (is : List Nat) (s : List α), s.Perm l →
      (∀ s i, i ∈ is → s.length = l.length → ∃ s', f s i = some s' ∧ s'.Perm s) →
      ∃ l', is.foldl (fun s i => s.bind fun s => f s i) (some s) = some l' ∧ l'.Perm l := by
    intro is
    induction is with
    | nil => intro s hs _; exact ⟨s, rfl, hs⟩
    | cons i is ih =>
      intro s hs hf
      obtain ⟨s', e, p⟩ := hf s i (by simp) hs.length_eq
      rw [List.foldl_cons, Option.bind_some, e]
      exact ih s' (p.trans hs) (fun s j hj => hf s j (by simp [hj]))
  exact gen is l (List.Perm.refl l) hf

theorem good_spec (r : Nat → Nat) {α : Type} (l : List α) : ∃ l', good r l = some l' ∧ l'.Perm l := by
  unfold good
  by_cases h : l.length < 4
  · rw [if_pos h]; exact ⟨l, rfl, List.Perm.refl l⟩
  · rw [if_neg h]
    refine fold_perm (fun s i => swap4 s _ _) _ ?_
    intro s i _ hs
    have h1 := (draw_le 0 (l.length - 4) (r (2 * i)) (Nat.zero_le _)).2
    have h2 := (draw_le 0 (l.length - 4) (r (2 * i + 1)) (Nat.zero_le _)).2
    exact swap4_spec (by omega) (by omega)

theorem goodSmall_spec (r : Nat → Nat) {α : Type} (l : List α) : ∃ l', goodSmall r l = some l' ∧ l'.Perm l := by
  unfold goodSmall
  by_cases h : l.length < 2
  · rw [if_pos h]; exact ⟨l, rfl, List.Perm.refl l⟩
  · rw [if_neg h]
    refine fold_perm (fun s i => swapAt s _ _) _ ?_
    intro s i _ hs
    have h1 := (draw_le 0 (l.length - 1) (r (2 * i)) (Nat.zero_le _)).2
    have h2 := (draw_le 0 (l.length - 1) (r (2 * i + 1)) (Nat.zero_le _)).2
    exact swapAt_spec (by omega) (by omega)

theorem initVec_length (init : Bool) (l : List Nat) : (initVec init l).length = l.length := by
  unfold initVec; cases init <;> simp

theorem goodInit_spec (r : Nat → Nat) (init : Bool) (l : List Nat) :
    ∃ l', goodInit r init l = some l' ∧ l'.Perm (initVec init l) := by
  unfold goodInit
  by_cases h : l.length < 10
  · rw [if_pos h]; exact goodSmall_spec r _
  · rw [if_neg h]
    refine fold_perm (fun s i => swap4 s _ _) _ ?_
    intro s i _ hs
    rw [initVec_length] at hs
    have h1 := (draw_le 0 (l.length - 4) (r (2 * i)) (Nat.zero_le _)).2
    have h2 := (draw_le 0 (l.length - 4) (r (2 * i + 1)) (Nat.zero_le _)).2
    exact swap4_spec (by omega) (by omega)

theorem fast_spec (r : Nat → Nat) (init : Bool) (l : List Nat) :
    ∃ l', fast r init l = some l' ∧ l'.Perm (initVec init l) := by
  unfold fast
  by_cases h : l.length < 10
  · rw [if_pos h]; exact ⟨_, rfl, List.Perm.refl _⟩
  · rw [if_neg h]
    refine fold_perm (fun s i => swap4 s _ _) _ ?_
    intro s i hi hs
    rw [initVec_length] at hs
    rw [List.mem_range] at hi
    have h2 := Nat.mod_lt (i + draw 0 20 (r i)) (show 0 < l.length - 4 by omega)
    exact swap4_spec (by omega) (by omega)

theorem local_go (σ : Nat → List Nat → List Nat) (hσ : ∀ k l, (σ k l).Perm l) :
    ∀ (fuel k : Nat) (l : List Nat), l.length ≤ fuel → (local'.go σ fuel k l).Perm l := by
  intro fuel
  induction fuel with
  | zero => intro k l _; exact List.Perm.refl l
  | succ fuel ih =>
    intro k l hl
    unfold local'.go
    by_cases h : l = []
    · rw [if_pos h, h]
    · rw [if_neg h]
      have hlen : 0 < l.length := List.length_pos_iff.2 h
      have h1 := ih (k + 1) (l.drop 128) (by rw [List.length_drop]; omega)
      have := (hσ k (l.take 128)).append h1
      rwa [List.take_append_drop] at this

/-- With enough fuel every block is shuffled: a further unit of fuel changes nothing. -/
theorem local_go_fuel (σ : Nat → List Nat → List Nat) :
    ∀ (fuel k : Nat) (l : List Nat), l.length ≤ fuel → local'.go σ (fuel + 1) k l = local'.go σ fuel k l := by
  intro fuel
  induction fuel with
  | zero =>
    intro k l hl
    have : l = [] := List.length_eq_zero_iff.1 (by omega)
    subst this; unfold local'.go; rfl
  | succ fuel ih =>
    intro k l hl
    rw [local'.go.eq_def]
    conv_rhs => rw [local'.go.eq_def]
    simp only
    by_cases h : l = []
    · rw [if_pos h, if_pos h]
    · have hlen : 0 < l.length := List.length_pos_iff.2 h
      rw [if_neg h, if_neg h, ih (k + 1) (l.drop 128) (by rw [List.length_drop]; omega)]

theorem circular_spec (r : Nat → Nat) (l : List Nat) (hl : 2 ≤ l.length) :
    ∃ l', circular r l = some l' ∧ l'.Perm (List.range l.length) := by
  unfold circular
  rw [if_neg (by omega)]
  have hr : (List.range l.length).length = l.length := List.length_range
  refine fold_perm (l := List.range l.length) (fun s i =>
      let posA := draw 0 (l.length - 1) (r (2 * i))
      let posB := (posA + 1 + r (2 * i + 1) % (l.length - 1)) % l.length
      match s[posA]?, s[posB]? with
      | some a, some b => if posA ≠ b ∧ posB ≠ a then swapAt s posA posB else some s
      | _, _ => none) _ ?_
  intro s i _ hs
  rw [hr] at hs
  have h1 := (draw_le 0 (l.length - 1) (r (2 * i)) (Nat.zero_le _)).2
  have h2 := Nat.mod_lt (draw 0 (l.length - 1) (r (2 * i)) + 1 + r (2 * i + 1) % (l.length - 1)) (show 0 < l.length by omega)
  have hA : draw 0 (l.length - 1) (r (2 * i)) < s.length := by omega
  have hB : (draw 0 (l.length - 1) (r (2 * i)) + 1 + r (2 * i + 1) % (l.length - 1)) % l.length < s.length := by omega
  simp only
  rw [List.getElem?_eq_getElem hA, List.getElem?_eq_getElem hB]
  simp only
  split
  · exact swapAt_spec hA hB
  · exact ⟨s, rfl, List.Perm.refl s⟩

end VieCut.Rand
