import Verif.Proof.ParallelContract

/-! # Parallel contraction to few vertices -/

namespace VieCut
open Finset Function

namespace PCT

/-- The index lies in the array. -/
theorem meshId_lt {N p q : Nat} (hp : p < N) (hq : q < N) (hpq : p ≠ q) : meshId N p q < N * (N - 1) := by
  unfold meshId
  have h1 : (p + 1) * (N - 1) ≤ N * (N - 1) := Nat.mul_le_mul_right _ (by omega)
  rw [Nat.add_mul, Nat.one_mul] at h1
  split <;> omega

theorem meshId_split {N p q : Nat} (hp : p < N) (hq : q < N) (hpq : p ≠ q) :
    ∃ r, meshId N p q = p * (N - 1) + r ∧ r < N - 1 ∧ q = if r < p then r else r + 1 := by
  unfold meshId
  by_cases h : q > p
  · exact ⟨q - 1, by rw [if_pos h]; omega, by omega, by rw [if_neg (by omega)]; omega⟩
  · exact ⟨q, by rw [if_neg h]; omega, by omega, by rw [if_pos (by omega)]⟩

theorem meshId_inj {N p q p' q' : Nat} (hp : p < N) (hq : q < N) (hpq : p ≠ q) (hp' : p' < N) (hq' : q' < N) (hpq' : p' ≠ q')
    (h : meshId N p q = meshId N p' q') : p = p' ∧ q = q' := by
  obtain ⟨r, e1, l1, r1⟩ := meshId_split hp hq hpq
  obtain ⟨r', e2, l2, r2⟩ := meshId_split hp' hq' hpq'
  rw [e1, e2] at h
  have hpp : p = p' := by
    rcases Nat.lt_trichotomy p p' with hlt | heq | hlt
    · have : (p + 1) * (N - 1) ≤ p' * (N - 1) := Nat.mul_le_mul_right _ hlt
      rw [Nat.add_mul, Nat.one_mul] at this; omega
    · exact heq
    · have : (p' + 1) * (N - 1) ≤ p * (N - 1) := Nat.mul_le_mul_right _ hlt
      rw [Nat.add_mul, Nat.one_mul] at this; omega
  subst hpp
  have : r = r' := by omega
  subst this
  exact ⟨rfl, by rw [r1, r2]⟩

theorem meshEdges {φ : Nat → Nat} {N n p q : Nat} (hp : p < N) (hq : q < N) (hpq : p ≠ q) (hn : φ n < N)
    (l : List (Nat × Nat)) : ∀ (a : Nat → Nat), (∀ e ∈ l, φ e.1 < N) →
    l.foldl (meshEdge φ N n) a (meshId N p q) = a (meshId N p q) + if φ n = p then sumMap φ l q else 0 := by
  induction l with
  | nil => intro a _; simp [sumMap]
  | cons e l ih =>
    intro a hl
    rw [List.foldl_cons, ih _ (fun x hx => hl x (by simp [hx])), sumMap_cons]
    have he := hl e (by simp)
    unfold meshEdge
    by_cases h1 : φ e.1 ≠ φ n
    · rw [if_pos h1]
      by_cases h2 : meshId N p q = meshId N (φ n) (φ e.1)
      · obtain ⟨h3, h4⟩ := meshId_inj hp hq hpq hn he (Ne.symm h1) h2
        rw [← h2, update_self, if_pos h3.symm, if_pos h4.symm, if_pos h3.symm]
        omega
      · rw [update_of_ne h2]
        by_cases h3 : φ n = p
        · have h4 : φ e.1 ≠ q := fun h4 => h2 (by rw [h3, h4])
          rw [if_neg h4, if_pos h3, if_pos h3]; omega
        · rw [if_neg h3, if_neg h3]
    · rw [if_neg h1]
      rw [ne_eq, not_not] at h1
      by_cases h3 : φ n = p
      · rw [if_pos h3, if_pos h3, if_neg (show φ e.1 ≠ q by omega)]; omega
      · rw [if_neg h3, if_neg h3]

theorem meshLocal_eq {G : Graph} (hG : G.WF) {φ : Nat → Nat} {N p q : Nat} (hφ : ∀ u, u < G.n → φ u < N) (hp : p < N) (hq : q < N)
    (hpq : p ≠ q) (vs : List Nat) : ∀ (a : Nat → Nat), (∀ v ∈ vs, v < G.n) →
    vs.foldl (fun a n => (G.edges n).foldl (meshEdge φ N n) a) a (meshId N p q) =
      a (meshId N p q) + (vs.map fun n => if φ n = p then sumMap φ (G.edges n) q else 0).sum := by
  induction vs with
  | nil => intro a _; simp
  | cons v vs ih =>
    intro a hv
    rw [List.foldl_cons, ih _ (fun x hx => hv x (by simp [hx])),
      meshEdges hp hq hpq (hφ v (hv v (by simp))) _ _ (fun e he => hφ _ (hG.tgt_lt v e he)), List.map_cons, List.sum_cons]
    omega

theorem meshSum_eq {G : Graph} (hG : G.WF) {φ : Nat → Nat} {N T p q : Nat} (hφ : ∀ u, u < G.n → φ u < N) (hp : p < N) (hq : q < N)
    (hpq : p ≠ q) {work : Nat → List Nat} (hw : ((List.range T).flatMap work).Perm (List.range G.n)) {order : List Nat}
    (ho : order.Perm (List.range T)) : meshSum G φ N work order (meshId N p q) = between G φ p q := by
  have hwork : ∀ t ∈ order, ∀ v ∈ work t, v < G.n := by
    intro t ht v hv
    exact List.mem_range.1 (hw.mem_iff.1 (List.mem_flatMap.2 ⟨t, ho.mem_iff.1 ht, hv⟩))
  have key : ∀ (l : List Nat) (a : Nat → Nat), (∀ t ∈ l, ∀ v ∈ work t, v < G.n) →
      l.foldl (fun a t i => a i + meshLocal G φ N (work t) i) a (meshId N p q) =
        a (meshId N p q) + (l.map fun t => ((work t).map fun n => if φ n = p then sumMap φ (G.edges n) q else 0).sum).sum := by
    intro l
    induction l with
    | nil => intro a _; simp
    | cons t l ih =>
      intro a hl
      rw [List.foldl_cons, ih _ (fun x hx => hl x (by simp [hx]))]
      have := meshLocal_eq hG hφ hp hq hpq (work t) (fun _ => 0) (hl t (by simp))
      unfold meshLocal
      rw [this, List.map_cons, List.sum_cons]
      omega
  unfold meshSum
  rw [key order _ hwork, Nat.zero_add, (ho.map _).sum_eq, sum_range_map, sum_work hw]
  rfl

theorem fullMesh_spec {G : Graph} (hG : G.WF) {φ : Nat → Nat} {N T : Nat} (hφ : ∀ u, u < G.n → φ u < N)
    (hsurj : ∀ p, p < N → ∃ u, u < G.n ∧ φ u = p) {work : Nat → List Nat}
    (hw : ((List.range T).flatMap work).Perm (List.range G.n)) {order : List Nat} (ho : order.Perm (List.range T)) :
    IsContraction G (fullMesh G φ N work order) φ ∧ ∀ u, u < (fullMesh G φ N work order).n →
      (((fullMesh G φ N work order).edges u).map (·.1)).Nodup := by
  have hn : (fullMesh G φ N work order).n = N := by simp [fullMesh, Graph.n]
  have hed : ∀ p, p < N → (fullMesh G φ N work order).edges p = (List.range N).filterMap fun j =>
      if p = j then none else if between G φ p j > 0 then some (j, between G φ p j) else none := by
    intro p hp
    have : (fullMesh G φ N work order).edges p = (List.range N).filterMap fun j => if p = j then none
        else if meshSum G φ N work order (meshId N p j) > 0 then some (j, meshSum G φ N work order (meshId N p j)) else none := by
      simp [fullMesh, Graph.edges, hp]
    rw [this]
    refine List.filterMap_congr fun j hj => ?_
    by_cases hpj : p = j
    · rw [if_pos hpj, if_pos hpj]
    · rw [if_neg hpj, if_neg hpj, meshSum_eq hG hφ hp (List.mem_range.1 hj) hpj hw ho]
  have hempty : ∀ p, ¬ p < N → (fullMesh G φ N work order).edges p = [] := by
    intro p hp
    unfold Graph.edges
    have hn' : (fullMesh G φ N work order).n ≤ p := by omega
    unfold Graph.n at hn'
    simp [hn']
  have hbw : ∀ p q, between G φ p q = ∑ u ∈ range G.n, ∑ v ∈ range G.n, if φ u = p ∧ φ v = q then G.wt u v else 0 := by
    intro p q
    unfold between
    refine Finset.sum_congr rfl fun u _ => ?_
    by_cases hu : φ u = p
    · simp [hu, sumMap_edges hG]
    · simp [hu]
  have hsym : ∀ p q, between G φ p q = between G φ q p := by
    intro p q
    rw [hbw, hbw, Finset.sum_comm]
    refine Finset.sum_congr rfl fun u hu => Finset.sum_congr rfl fun v hv => ?_
    rw [hG.symm v u (mem_range.1 hv) (mem_range.1 hu)]
    by_cases h1 : φ v = p <;> by_cases h2 : φ u = q <;> simp [h1, h2]
  have hmem : ∀ u, u < N → ∀ e ∈ (fullMesh G φ N work order).edges u, e.1 < N ∧ e.1 ≠ u := by
    intro u hu e he
    rw [hed u hu] at he
    obtain ⟨j, hj, he⟩ := List.mem_filterMap.1 he
    split at he
    · cases he
    · rename_i huj
      split at he
      · cases he; exact ⟨List.mem_range.1 hj, Ne.symm huj⟩
      · cases he
  have hwt : ∀ p q, p < N → q < N → p ≠ q → (fullMesh G φ N work order).wt p q = between G φ p q := by
    intro p q hp hq hpq
    unfold Graph.wt
    rw [hed p hp]
    have gen : ∀ M, ((((List.range M).filterMap fun j => if p = j then none
        else if between G φ p j > 0 then some (j, between G φ p j) else none).filter (fun e => e.1 == q)).map (·.2)).sum =
        if q < M then between G φ p q else 0 := by
      intro M
      induction M with
      | zero => simp
      | succ M ih =>
        rw [List.range_succ, List.filterMap_append, List.filter_append, List.map_append, List.sum_append, ih]
        by_cases hM : M = q
        · subst hM
          simp only [Nat.lt_irrefl, if_false, Nat.lt_succ_self, if_true, Nat.zero_add, List.filterMap_cons, List.filterMap_nil, hpq]
          by_cases h0 : between G φ p M > 0
          · simp [h0]
          · simp [h0]; omega
        · have h1 : ((List.filterMap (fun j => if p = j then none
              else if between G φ p j > 0 then some (j, between G φ p j) else none) [M]).filter (fun e => e.1 == q)) = [] := by
            rw [List.filter_eq_nil_iff]
            intro e he
            obtain ⟨j, hj, he'⟩ := List.mem_filterMap.1 he
            rw [List.mem_singleton] at hj
            clear he
            subst hj
            split at he'
            · cases he'
            · split at he'
              · cases he'; simpa using hM
              · cases he'
          rw [h1]
          by_cases hq' : q < M
          · rw [if_pos hq', if_pos (by omega)]; simp
          · rw [if_neg hq', if_neg (by omega)]; simp
    rw [gen, if_pos hq]
  refine ⟨⟨by rw [hn]; exact hφ, by rw [hn]; exact hsurj, ⟨?_, ?_, ?_⟩, ?_⟩, ?_⟩
  · intro u e he
    by_cases hu : u < N
    · rw [hn]; exact (hmem u hu e he).1
    · rw [hempty u hu] at he; cases he
  · intro u e he
    by_cases hu : u < N
    · exact (hmem u hu e he).2
    · rw [hempty u hu] at he; cases he
  · intro u v hu hv
    rw [hn] at hu hv
    by_cases huv : u = v
    · rw [huv]
    · rw [hwt u v hu hv huv, hwt v u hv hu (Ne.symm huv), hsym]
  · intro p q hp hq hpq
    rw [hn] at hp hq
    rw [hwt p q hp hq hpq, hbw]
  · intro u hu
    rw [hn] at hu
    rw [hed u hu, List.map_filterMap]
    refine List.Nodup.filterMap ?_ List.nodup_range
    intro a b c hc hc'
    simp only [Option.mem_def, Option.map_eq_some_iff] at hc hc'
    obtain ⟨x, hx, rfl⟩ := hc
    obtain ⟨y, hy, hxy⟩ := hc'
    split at hx
    · cases hx
    · split at hx
      · split at hy
        · cases hy
        · split at hy
          · cases hx; cases hy; exact hxy.symm
          · cases hy
      · cases hx

end PCT
end VieCut
