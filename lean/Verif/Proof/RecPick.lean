import Verif.Proof.RecMain

/-!
# C57: the choices of flow edges
-/

namespace VieCut
namespace RecCactus
open MGraph Function

theorem heaviest_some {deg : Nat → Nat} {p : Nat → Bool} : ∀ (l : List Nat) (b : Nat × Option Nat), (b.2 = none → b.1 = 0) →
    ((∃ n ∈ l, 0 < deg n ∧ p n = true) ∨ b.2 ≠ none) →
    ∃ n, (l.foldl (fun (b : Nat × Option Nat) n => if deg n > b.1 ∧ p n then (deg n % 2 ^ 32, some n) else b) b).2 = some n ∧
      ((n ∈ l ∧ 0 < deg n ∧ p n = true) ∨ b.2 = some n) := by
  intro l
  induction l with
  | nil =>
    intro b _ h
    simp only [List.not_mem_nil, false_and, exists_false, false_or] at h
    obtain ⟨n, hn⟩ := Option.ne_none_iff_exists'.1 h
    exact ⟨n, hn, .inr hn⟩
  | cons x l ih =>
    intro b h0 h
    rw [List.foldl_cons]
    by_cases hx : deg x > b.1 ∧ p x = true
    · rw [if_pos hx]
      obtain ⟨n, h1, h2⟩ := ih (deg x % 2 ^ 32, some x) (by simp) (.inr (by simp))
      refine ⟨n, h1, ?_⟩
      rcases h2 with ⟨h2, h3⟩ | h2
      · exact .inl ⟨by simp [h2], h3⟩
      · simp only [Option.some.injEq] at h2
        subst h2
        exact .inl ⟨by simp, by omega, hx.2⟩
    · rw [if_neg hx]
      obtain ⟨n, h1, h2⟩ := ih b h0 (by
        rcases h with ⟨n, hn, h1, h2⟩ | h
        · rcases List.mem_cons.1 hn with rfl | hn
          · right
            intro hb
            exact hx ⟨by rw [h0 hb]; exact h1, h2⟩
          · exact .inl ⟨n, hn, h1, h2⟩
        · exact .inr h)
      refine ⟨n, h1, ?_⟩
      rcases h2 with ⟨h2, h3⟩ | h2
      · exact .inl ⟨by simp [h2], h3⟩
      · exact .inr h2

theorem exists_edge {E : Nat → Prop} {G : MGraph} {c : Nat} (hp : Piece E G c) (h : G.numEdges ≠ 0) : ∃ u, u < G.n ∧ 0 < G.len u := by
  by_contra hn
  push Not at hn
  apply h
  rw [hp.valid.num]
  refine Finset.sum_eq_zero fun u hu => ?_
  have := hn u (by simpa using hu)
  omega

theorem wdeg_pos {E : Nat → Prop} {G : MGraph} {c u : Nat} (hp : Piece E G c) (hu : u < G.n) : 0 < G.wdeg u ↔ 0 < G.len u := by
  rw [hp.valid.wdeg u hu (by simp)]
  unfold rowSum
  constructor
  · intro h
    by_contra h0
    rw [show G.len u = 0 by omega, Finset.sum_range_zero] at h
    omega
  · intro h
    exact lt_of_lt_of_le (hp.positive u 0 hu h) (Finset.single_le_sum (f := fun e => (G.edge u e).weight) (fun _ _ => Nat.zero_le _) (Finset.mem_range.2 h))

theorem full_true {E : Nat → Prop} {G : MGraph} {c u : Nat} (hp : Piece E G c) (hu : u < G.n) : (!(G.cont u).isEmpty) = true := by
  have := hp.full u hu
  cases h : G.cont u with
  | nil => exact absurd h this
  | cons a l => rfl

/-- `maximumWeightedFlowEdge` chooses an edge. -/
theorem maximumWeightedFlowEdge_ok {E : Nat → Prop} {G : MGraph} {c : Nat} (hp : Piece E G c) (h : G.numEdges ≠ 0) :
    (maximumWeightedFlowEdge G).1 < G.n ∧ (maximumWeightedFlowEdge G).2 < G.len (maximumWeightedFlowEdge G).1 := by
  obtain ⟨u, hu, hl⟩ := exists_edge hp h
  obtain ⟨s, h1, h2⟩ := heaviest_some (deg := G.wdeg) (p := fun n => !(G.cont n).isEmpty) (List.range G.n) (0, none) (by simp)
    (.inl ⟨u, by simpa using hu, (wdeg_pos hp hu).2 hl, full_true hp hu⟩)
  simp only [List.mem_range, reduceCtorEq, or_false] at h2
  have hs : (maximumWeightedFlowEdge G).1 = s := by
    show (heaviest G.wdeg (fun n => !(G.cont n).isEmpty) (List.range G.n)).getD 0 = s
    unfold heaviest
    rw [h1]
    rfl
  refine ⟨by rw [hs]; exact h2.1, ?_⟩
  have hlen := (wdeg_pos hp h2.1).1 h2.2.1
  have hpos : ∀ e, e < G.len s → (G.edge s e).target < G.n ∧ 0 < G.wdeg (G.edge s e).target := by
    intro e he
    obtain ⟨_, ⟨k1, _, k2⟩, _⟩ := hp.valid.pv s e ⟨h2.1, by simp, he⟩
    exact ⟨k1, (wdeg_pos hp k1).2 (by omega)⟩
  obtain ⟨e, h3, h4⟩ := heaviest_some (deg := fun e => G.wdeg (G.edge s e).target) (p := fun e => !(G.cont (G.edge s e).target).isEmpty)
    (List.range (G.len s)) (0, none) (by simp)
    (.inl ⟨0, by simpa using hlen, (hpos 0 hlen).2, full_true hp (hpos 0 hlen).1⟩)
  simp only [List.mem_range, reduceCtorEq, or_false] at h4
  have he : (maximumWeightedFlowEdge G).2 = e := by
    show (heaviest (fun e => G.wdeg (G.edge (maximumWeightedFlowEdge G).1 e).target)
      (fun e => !(G.cont (G.edge (maximumWeightedFlowEdge G).1 e).target).isEmpty) (List.range (G.len (maximumWeightedFlowEdge G).1))).getD 0 = e
    rw [hs]
    unfold heaviest
    rw [h3]
    rfl
  rw [he, hs]
  exact h4.1

/-- `findFlowEdge` chooses an edge. -/
theorem findFlowEdge_ok' {G : MGraph} (hg : G.Consistent) (hf : ∀ v, v < G.n → G.cont v ≠ []) {u : Nat} (hu : u < G.n) (hl : 0 < G.len u) (start : Nat) :
    (findFlowEdge start G).1 < G.n ∧ (findFlowEdge start G).2 < G.len (findFlowEdge start G).1 := by
  have full_true : ∀ {v : Nat}, v < G.n → (!(G.cont v).isEmpty) = true := by
    intro v hv
    have := hf v hv
    cases h : G.cont v with
    | nil => exact absurd h this
    | cons a l => rfl
  set p : Nat → Bool := fun s => !(G.cont s).isEmpty && (List.range (G.len s)).any (fun e => !(G.cont (G.edge s e).target).isEmpty) with hpd
  have hpu : p u = true := by
    rw [hpd]
    simp only [Bool.and_eq_true]
    refine ⟨full_true hu, List.any_eq_true.2 ⟨0, by simpa using hl, ?_⟩⟩
    exact full_true (hg.target u 0 hu hl)
  obtain ⟨s, hs⟩ : ∃ s, ((List.range G.n).map fun j => (start + j) % G.n).find? p = some s := by
    rw [← Option.isSome_iff_exists, List.find?_isSome]
    refine ⟨u, List.mem_map.2 ⟨(u + (G.n - start % G.n)) % G.n, ?_, ?_⟩, hpu⟩
    · exact List.mem_range.2 (Nat.mod_lt _ (by omega))
    · have h1 : start % G.n < G.n := Nat.mod_lt _ (by omega)
      rw [Nat.add_mod, Nat.mod_mod, ← Nat.add_mod, ← Nat.mod_add_div start G.n]
      rw [show start % G.n + G.n * (start / G.n) + (u + (G.n - (start % G.n + G.n * (start / G.n)) % G.n)) =
        u + start % G.n + (G.n - (start % G.n + G.n * (start / G.n)) % G.n) + G.n * (start / G.n) by omega]
      rw [Nat.add_mul_mod_self_left, Nat.mod_add_div, show u + start % G.n + (G.n - start % G.n) = u + G.n by omega, Nat.add_mod_right,
        Nat.mod_eq_of_lt hu]
  have hs1 : (findFlowEdge start G).1 = s := by
    show (((List.range G.n).map fun j => (start + j) % G.n).find? p).getD 0 = s
    rw [hs]
    rfl
  have hlt : s < G.n := by
    obtain ⟨j, _, hj⟩ := List.mem_map.1 (List.mem_of_find?_eq_some hs)
    rw [← hj]
    exact Nat.mod_lt _ (by omega)
  refine ⟨by rw [hs1]; exact hlt, ?_⟩
  have hps := List.find?_some hs
  rw [hpd] at hps
  simp only [Bool.and_eq_true] at hps
  obtain ⟨e, he⟩ : ∃ e, (List.range (G.len s)).find? (fun e => !(G.cont (G.edge s e).target).isEmpty) = some e := by
    rw [← Option.isSome_iff_exists, List.find?_isSome]
    exact List.any_eq_true.1 hps.2
  have he1 : (findFlowEdge start G).2 = e := by
    show ((List.range (G.len (findFlowEdge start G).1)).find? (fun e => !(G.cont (G.edge (findFlowEdge start G).1 e).target).isEmpty)).getD 0 = e
    rw [hs1, he]
    rfl
  rw [he1, hs1]
  exact List.mem_range.1 (List.mem_of_find?_eq_some he)

/-- `findFlowEdge` chooses an edge. -/
theorem findFlowEdge_ok {E : Nat → Prop} {G : MGraph} {c start : Nat} (hp : Piece E G c) (h : G.numEdges ≠ 0) :
    (findFlowEdge start G).1 < G.n ∧ (findFlowEdge start G).2 < G.len (findFlowEdge start G).1 := by
  obtain ⟨u, hu, hl⟩ := exists_edge hp h
  exact findFlowEdge_ok' hp.consistent hp.full hu hl start

end RecCactus
end VieCut
