import Verif.Proof.CanonizeReplace
import Mathlib.Data.List.GetD

/-!
# The search for partners ends and finds them
-/

namespace VieCut
open Function Finset MGraph

namespace GraphModification
variable {g : MGraph} {v : Nat} {nbrs : List Nat}

theorem targets_lt (hg : Valid g) {n t : Nat} (hn : n < g.n) (ht : t ∈ targets g n) : t < g.n := by
  unfold targets at ht
  obtain ⟨e, he, rfl⟩ := List.mem_map.1 ht
  exact ((valid_iff.1 hg).1 n e hn (List.mem_range.1 he)).1

/-- What the search returns can be reached without `v`. -/
theorem search_sound (hg : Valid g) (hv : v ∉ nbrs) : ∀ (fuel : Nat) (q : List Nat) (t : Nat), (∀ n ∈ q, n < g.n) →
    search g v nbrs fuel q = some t → t ∈ nbrs ∧ ∃ n ∈ q, Relation.ReflTransGen (StepAvoiding g v) n t := by
  intro fuel
  induction fuel with
  | zero => intro q t _ h; simp [search] at h
  | succ fuel ih =>
    intro q t hq h
    cases q with
    | nil => simp [search] at h
    | cons n q =>
      unfold search at h
      have hn := hq n (by simp)
      split at h
      · rename_i t' ht'
        obtain rfl : t' = t := by simpa using h
        have h1 := List.find?_some ht'
        have h2 := List.mem_of_find?_eq_some ht'
        have h3 : t' ∈ nbrs := by simpa using h1
        exact ⟨h3, n, by simp, Relation.ReflTransGen.single ⟨hn, h2, fun hh => hv (hh ▸ h3)⟩⟩
      · obtain ⟨k1, m, k2, k3⟩ := ih _ t (by
          intro x hx
          rcases List.mem_append.1 hx with hx | hx
          · exact hq x (by simp [hx])
          · exact targets_lt hg hn (List.mem_filter.1 hx).1) h
        refine ⟨k1, ?_⟩
        rcases List.mem_append.1 k2 with hx | hx
        · exact ⟨m, by simp [hx], k3⟩
        · obtain ⟨x1, x2⟩ := List.mem_filter.1 hx
          exact ⟨n, by simp, Relation.ReflTransGen.head ⟨hn, x1, by simpa using x2⟩ k3⟩

/-- After `k` steps a vertex with a neighbour in `nbrs` is reached. -/
def Near (g : MGraph) (v : Nat) (nbrs : List Nat) : Nat → Nat → Prop
  | 0, n => ∃ t ∈ targets g n, t ∈ nbrs
  | k + 1, n => ∃ m ∈ targets g n, m ≠ v ∧ Near g v nbrs k m

theorem search_ends : ∀ (k i : Nat) (q : List Nat), i < q.length → Near g v nbrs k (q.getD i 0) →
    ∃ t F, ∀ fuel, F ≤ fuel → search g v nbrs fuel q = some t := by
  intro k
  induction k with
  | zero =>
    intro i
    induction i with
    | zero =>
      intro q hq hN
      cases q with
      | nil => simp at hq
      | cons n q =>
        obtain ⟨t, t1, t2⟩ := hN
        have : ((targets g n).find? (fun t => t ∈ nbrs)).isSome := by
          rw [List.find?_isSome]; exact ⟨t, t1, by simpa using t2⟩
        obtain ⟨t', ht'⟩ := Option.isSome_iff_exists.1 this
        refine ⟨t', 1, fun fuel hf => ?_⟩
        obtain ⟨fuel, rfl⟩ : ∃ m, fuel = m + 1 := ⟨fuel - 1, by omega⟩
        simp only [search, ht']
    | succ i ih =>
      intro q hq hN
      cases q with
      | nil => simp at hq
      | cons n q =>
        cases hfd : (targets g n).find? (fun t => t ∈ nbrs) with
        | some t' =>
          refine ⟨t', 1, fun fuel hf => ?_⟩
          obtain ⟨fuel, rfl⟩ : ∃ m, fuel = m + 1 := ⟨fuel - 1, by omega⟩
          simp only [search, hfd]
        | none =>
          simp only [List.length_cons] at hq
          obtain ⟨t, F, hF⟩ := ih (q ++ (targets g n).filter (fun t => t ≠ v)) (by rw [List.length_append]; omega) (by
            rw [List.getD_append _ _ _ _ (by omega)]
            simpa using hN)
          refine ⟨t, F + 1, fun fuel hf => ?_⟩
          obtain ⟨fuel, rfl⟩ : ∃ m, fuel = m + 1 := ⟨fuel - 1, by omega⟩
          simp only [search, hfd]
          exact hF fuel (by omega)
  | succ k ihk =>
    intro i
    induction i with
    | zero =>
      intro q hq hN
      cases q with
      | nil => simp at hq
      | cons n q =>
        cases hfd : (targets g n).find? (fun t => t ∈ nbrs) with
        | some t' =>
          refine ⟨t', 1, fun fuel hf => ?_⟩
          obtain ⟨fuel, rfl⟩ : ∃ m, fuel = m + 1 := ⟨fuel - 1, by omega⟩
          simp only [search, hfd]
        | none =>
          obtain ⟨m, m1, m2, m3⟩ := hN
          have hm : m ∈ (targets g n).filter (fun t => t ≠ v) := List.mem_filter.2 ⟨m1, by simpa using m2⟩
          obtain ⟨i, hi, hie⟩ := List.mem_iff_getElem.1 hm
          obtain ⟨t, F, hF⟩ := ihk (q.length + i) (q ++ (targets g n).filter (fun t => t ≠ v)) (by rw [List.length_append]; omega) (by
            rw [List.getD_append_right _ _ _ _ (by omega), show q.length + i - q.length = i by omega, List.getD_eq_getElem _ _ hi, hie]
            exact m3)
          refine ⟨t, F + 1, fun fuel hf => ?_⟩
          obtain ⟨fuel, rfl⟩ : ∃ m, fuel = m + 1 := ⟨fuel - 1, by omega⟩
          simp only [search, hfd]
          exact hF fuel (by omega)
    | succ i ih =>
      intro q hq hN
      cases q with
      | nil => simp at hq
      | cons n q =>
        cases hfd : (targets g n).find? (fun t => t ∈ nbrs) with
        | some t' =>
          refine ⟨t', 1, fun fuel hf => ?_⟩
          obtain ⟨fuel, rfl⟩ : ∃ m, fuel = m + 1 := ⟨fuel - 1, by omega⟩
          simp only [search, hfd]
        | none =>
          simp only [List.length_cons] at hq
          obtain ⟨t, F, hF⟩ := ih (q ++ (targets g n).filter (fun t => t ≠ v)) (by rw [List.length_append]; omega) (by
            rw [List.getD_append _ _ _ _ (by omega)]
            simpa using hN)
          refine ⟨t, F + 1, fun fuel hf => ?_⟩
          obtain ⟨fuel, rfl⟩ : ∃ m, fuel = m + 1 := ⟨fuel - 1, by omega⟩
          simp only [search, hfd]
          exact hF fuel (by omega)

theorem near_of_reach {p t : Nat} (ht : t ∈ nbrs) (hpt : p ≠ t) (hr : Relation.ReflTransGen (StepAvoiding g v) p t) : ∃ k, Near g v nbrs k p := by
  rcases Relation.ReflTransGen.cases_tail hr with h | ⟨m, h1, h2⟩
  · exact absurd h.symm hpt
  · induction h1 using Relation.ReflTransGen.head_induction_on with
    | refl => exact ⟨0, t, h2.2.1, ht⟩
    | head hs hrest ih =>
      rename_i a b
      by_cases hbt : b = t
      · exact ⟨0, t, hbt ▸ hs.2.1, ht⟩
      · obtain ⟨k, hk⟩ := ih hbt (hrest.tail h2)
        exact ⟨k + 1, b, hs.2.1, hs.2.2, hk⟩

end GraphModification

namespace GraphModification
variable {E : Nat → Prop} {P : (Nat → Bool) → Prop} {C : MGraph} {c v : Nat}

/-- A list of neighbours of `v` over edges of weight `c / 2` that has, with every vertex, another one that can be reached. -/
structure Closed (C : MGraph) (v c : Nat) (L : List Nat) : Prop where
  nodup : L.Nodup
  half : ∀ p ∈ L, p < C.n ∧ p ≠ v ∧ 2 * C.W v p = c
  mate : ∀ p ∈ L, ∃ q ∈ L, q ≠ p ∧ Relation.ReflTransGen (StepAvoiding C v) p q

/-- Three vertices are not on the same side. -/
theorem Closed.two (h : CactusOf E P C c) (hc : 0 < c) (hv : v < C.n) {L : List Nat} (hL : Closed C v c L) {p q r : Nat} (hp : p ∈ L)
    (hq : q ∈ L) (hr : r ∈ L) (hpq : p ≠ q) (hpr : p ≠ r) (h1 : SameSide C v c p q) (h2 : SameSide C v c p r) : q = r := by
  by_contra hqr
  obtain ⟨p1, _, p3⟩ := hL.half p hp
  obtain ⟨q1, _, q3⟩ := hL.half q hq
  obtain ⟨r1, _, r3⟩ := hL.half r hr
  have := h.joined_le3 hv q1 p1 r1 hpq.symm hqr hpr h1.symm h2
  omega

theorem pairUp_spec (h : CactusOf E P C c) (hc : 0 < c) (hv : v < C.n) : ∀ (m : Nat) (L : List Nat), L.length ≤ m → Closed C v c L →
    ∃ ps F, (∀ fuel, F ≤ fuel → ∀ rounds, m ≤ rounds → pairUp C v fuel rounds L = some ps) ∧
      L.Perm (ps.flatMap fun p => [p.1, p.2]) ∧ ∀ p ∈ ps, p.1 ∈ L ∧ p.2 ∈ L ∧ p.1 ≠ p.2 ∧ SameSide C v c p.1 p.2 := by
  intro m
  induction m with
  | zero =>
    intro L hm hL
    obtain rfl : L = [] := List.length_eq_zero_iff.1 (by omega)
    exact ⟨[], 0, fun fuel _ rounds _ => by cases rounds <;> simp [pairUp], by simp, by simp⟩
  | succ m ih =>
    intro L hm hL
    have hside : ∀ p ∈ L, ∀ q, Relation.ReflTransGen (StepAvoiding C v) p q → SameSide C v c p q := fun p hp q hr =>
      (h.joined_of_reach hv (hL.half p hp).1 (hL.half p hp).2.1 hr).2.2
    match L, hm, hL, hside with
    | [], _, _, _ => exact ⟨[], 0, fun fuel _ rounds _ => by cases rounds <;> simp [pairUp], by simp, by simp⟩
    | [p], _, hL, _ =>
      obtain ⟨q, q1, q2, _⟩ := hL.mate p (by simp)
      simp at q1
      exact absurd q1 q2
    | [p, q], _, hL, hside =>
      refine ⟨[(p, q)], 0, fun fuel _ rounds _ => by cases rounds <;> simp [pairUp], by simp, ?_⟩
      obtain ⟨r, r1, r2, r3⟩ := hL.mate p (by simp)
      simp only [List.mem_cons, List.not_mem_nil, or_false] at r1
      obtain rfl : r = q := r1.resolve_left r2
      intro x hx
      rw [List.mem_singleton] at hx
      subst hx
      exact ⟨by simp, by simp, r2.symm, hside p (by simp) _ r3⟩
    | p :: q :: r :: l, hm, hL, hside =>
      set rest := q :: r :: l with hrest
      obtain ⟨hpr, hnr⟩ := List.nodup_cons.1 hL.nodup
      obtain ⟨x, x1, x2, x3⟩ := hL.mate p (by simp)
      have x1 : x ∈ rest := by
        rcases List.mem_cons.1 x1 with hh | hh
        · exact absurd hh x2
        · exact hh
      have hvr : v ∉ rest := fun hh => (hL.half v (List.mem_cons_of_mem _ hh)).2.1 rfl
      obtain ⟨k, hk⟩ := near_of_reach x1 x2.symm x3
      obtain ⟨t, F1, hF1⟩ := search_ends k 0 [p] (by simp) (by simpa using hk)
      obtain ⟨t1, y, y1, y2⟩ := search_sound h.valid hvr F1 [p] t (by
        intro n hn
        rw [List.mem_singleton.1 hn]
        exact (hL.half p (by simp)).1) (hF1 F1 (le_refl _))
      obtain rfl := List.mem_singleton.1 y1
      have hyt : SameSide C v c y t := hside y (by simp) t y2
      have hty : t ≠ y := fun hh => hpr (hh ▸ t1)
      have hLe : Closed C v c (rest.erase t) := by
        refine ⟨hnr.erase t, fun z hz => hL.half z (List.mem_cons_of_mem _ (List.mem_of_mem_erase hz)), ?_⟩
        intro z hz
        obtain ⟨z1, z2⟩ := (hnr.mem_erase_iff).1 hz
        have hzL : z ∈ y :: rest := List.mem_cons_of_mem _ z2
        have hzy : z ≠ y := fun hh => hpr (hh ▸ z2)
        obtain ⟨w, w1, w2, w3⟩ := hL.mate z hzL
        have hzw : SameSide C v c z w := hside z hzL w w3
        refine ⟨w, ?_, w2, w3⟩
        rw [hnr.mem_erase_iff]
        have htL : t ∈ y :: rest := List.mem_cons_of_mem _ t1
        refine ⟨?_, ?_⟩
        · rintro rfl
          exact hzy (hL.two h hc hv w1 hzL (by simp) w2 hty hzw.symm hyt.symm)
        · rcases List.mem_cons.1 w1 with rfl | hh
          · exact absurd (hL.two h hc hv (by simp) hzL htL w2 hty.symm hzw.symm hyt) z1
          · exact hh
      have hlen : (rest.erase t).length ≤ m := by
        rw [List.length_erase_of_mem t1]
        simp only [List.length_cons] at hm ⊢
        omega
      obtain ⟨ps, F2, e1, e2, e3⟩ := ih (rest.erase t) hlen hLe
      refine ⟨(y, t) :: ps, max F1 F2, ?_, ?_, ?_⟩
      · intro fuel hf rounds hr
        obtain ⟨rounds, rfl⟩ : ∃ m, rounds = m + 1 := ⟨rounds - 1, by omega⟩
        rw [hrest, pairUp, ← hrest]
        rw [hF1 fuel (by omega), Option.bind_some, e1 fuel (by omega) rounds (by omega)]
        rfl
      · rw [List.flatMap_cons]
        show (y :: rest).Perm (y :: t :: ps.flatMap _)
        exact ((List.perm_cons_erase t1).trans (e2.cons t)).cons y
      · intro z hz
        rcases List.mem_cons.1 hz with rfl | hz
        · exact ⟨by simp, List.mem_cons_of_mem _ t1, hty.symm, hyt⟩
        · obtain ⟨k1, k2, k3, k4⟩ := e3 z hz
          exact ⟨List.mem_cons_of_mem _ (List.mem_of_mem_erase k1), List.mem_cons_of_mem _ (List.mem_of_mem_erase k2), k3, k4⟩

end GraphModification
end VieCut
