import Verif.Proof.STCactusOrder

/-!
# The cactus built by `findSTCactus` is a path
-/

namespace VieCut
open Finset MGraph Function

namespace STCactus

variable {k s t c : Nat} {W : Nat → Nat → Nat} {C : MGraph}

/-- The degree of a component. -/
theorem degree_eq (H : Pairs k C W) {x : Nat} (hx : x < k) : cycleDegree C x [] 0 = (cutValue k W (fun v => decide (v = x)) : Nat) := by
  have h1 : ∀ (j : Nat) , (List.range j).foldl (fun (d : Int) e => if (C.edge x e).target ∈ ([] : List Nat) then d - (C.edge x e).weight
      else d + (C.edge x e).weight) 0 = ((∑ e ∈ range j, (C.edge x e).weight : Nat) : Int) := by
    intro j
    induction j with
    | zero => simp
    | succ j ih =>
      rw [List.range_succ, List.foldl_append, ih, Finset.sum_range_succ]
      simp
  unfold cycleDegree
  rw [h1]
  congr 1
  -- the edges are in bijection with the other components
  have h2 : cutValue k W (fun v => decide (v = x)) = ∑ y ∈ (range k).erase x, W x y := by
    unfold cutValue
    rw [Finset.sum_eq_single x]
    · rw [← Finset.sum_erase_add (range k) (fun v => if decide (x = x) = true ∧ decide (v = x) = false then W x v else 0) (mem_range.2 hx)]
      simp only [decide_true, true_and, decide_eq_false_iff_not, Bool.true_eq_false, if_false, Nat.add_zero]
      refine Finset.sum_congr rfl fun y hy => ?_
      rw [if_pos (Finset.ne_of_mem_erase hy)]
    · intro b _ hb
      refine Finset.sum_eq_zero fun v _ => ?_
      rw [if_neg]; simp [hb]
    · intro h; exact absurd (mem_range.2 hx) h
  rw [h2]
  refine Finset.sum_bij (fun e _ => (C.edge x e).target) ?_ ?_ ?_ ?_
  · intro e he
    obtain ⟨e1, e2, e3⟩ := H.edge x e hx (mem_range.1 he)
    exact Finset.mem_erase.2 ⟨e2, mem_range.2 e1⟩
  · intro e he e' he' h
    exact H.inj x e e' hx (mem_range.1 he) (mem_range.1 he') h
  · intro y hy
    rw [Finset.mem_erase, mem_range] at hy
    obtain ⟨e, he, ht⟩ := H.all x y hx hy.2 (Ne.symm hy.1)
    exact ⟨e, mem_range.2 he, ht⟩
  · intro e he
    exact (H.edge x e hx (mem_range.1 he)).2.2

theorem cycle_none (H : Pairs k C W) (hC : ChainCuts k W s t c) {l : List Nat} (hl : l.length = k) {o : Ordering}
    (ho : OInv k s t c W C l o) {i : Nat} (h1 : 1 ≤ i) (h2 : i < k - 1) :
    cycle c C o.rev (C.n + 1) 0 [] i (o.rev i) = some ([], i, l[i]'(by omega)) := by
  have hr := ho.rev i (by omega) h1
  have hlt : l[i]'(by omega) < k := ho.chain.lt _ (List.getElem_mem _)
  obtain ⟨l', hl'⟩ := ho.head
  have h0 : l[0]'(by omega) = s := by simp [hl']
  have hs : l[i]'(by omega) ≠ s := by
    rw [← h0]
    intro he
    have := (List.Nodup.getElem_inj_iff ho.chain.nodup).1 he
    omega
  have ht : l[i]'(by omega) ≠ t := by
    intro he
    have hm := (ho.chain.mem (i + 1) (by omega) (by omega) (by omega)).sink
    have : t ∉ l.take (i + 1) := by simpa using hm
    apply this
    rw [← he, List.take_succ_eq_append_getElem (by omega)]
    exact List.mem_append_right _ (List.mem_singleton.2 rfl)
  have hd := degree_eq H hlt
  have hmid := hC.middle hlt hs ht
  have hn : C.n + 1 = (k - 1) + 1 + 1 := by rw [H.n]; omega
  rw [hn]
  unfold cycle
  rw [if_pos ⟨Or.inl rfl, by rw [H.n]; omega⟩]
  dsimp only
  rw [hr, hd, if_neg (by exact_mod_cast (by omega : ¬ cutValue k W (fun v => decide (v = l[i])) = c))]
  unfold cycle
  rw [if_neg]
  rintro ⟨h3, -⟩
  rcases h3 with h3 | h3
  · have : cutValue k W (fun v => decide (v = l[i])) = 0 := by exact_mod_cast h3
    omega
  · have : cutValue k W (fun v => decide (v = l[i])) = c := by exact_mod_cast h3
    omega

theorem layoutLoop_eq (H : Pairs k C W) (hC : ChainCuts k W s t c) {l : List Nat} (hl : l.length = k) {o : Ordering}
    (ho : OInv k s t c W C l o) : ∀ (fuel i : Nat), 1 ≤ i → i ≤ k - 1 → k - 1 - i < fuel → ∀ B ord, 
    layoutLoop c C o.map o.rev fuel i { A := [], B := B, ord := ord } =
      some { A := [], B := B ++ List.range' i (k - 1 - i), ord := ord ++ List.replicate (k - 1 - i) false } := by
  intro fuel
  induction fuel with
  | zero => intro i _ _ h; omega
  | succ fuel ih =>
    intro i h1 h2 hf B ord
    unfold layoutLoop
    by_cases hi : i < k - 1
    · rw [if_pos (by rw [H.n]; exact hi), cycle_none H hC hl ho h1 hi]
      simp only [Option.bind_some, List.length_nil, gt_iff_lt, lt_irrefl, if_false]
      rw [ho.map i (by omega), ih (i + 1) (by omega) (by omega) (by omega)]
      have e : k - 1 - i = (k - 1 - (i + 1)) + 1 := by omega
      rw [e, List.range'_succ, List.replicate_succ, List.append_assoc, List.append_assoc]
      rfl
    · rw [if_neg (by rw [H.n]; exact hi)]
      have : k - 1 - i = 0 := by omega
      rw [this]
      simp

theorem layout_eq (H : Pairs k C W) (hC : ChainCuts k W s t c) (hk : 2 ≤ k) {l : List Nat} (hl : l.length = k) {o : Ordering}
    (ho : OInv k s t c W C l o) : layout c C o.map o.rev = some { A := [], B := List.range k, ord := List.replicate k false } := by
  unfold layout
  rw [layoutLoop_eq H hC hl ho (C.n + 1) 1 (le_refl _) (by omega) (by rw [H.n]; omega)]
  simp only [Option.map_some, H.n]
  congr 2
  · rw [List.range_eq_range']
    have e : k = 1 + ((k - 1 - 1) + 1) := by omega
    conv_rhs => rw [e, Nat.add_comm, List.range'_succ, List.range'_concat]
    simp only [List.cons_append, List.nil_append]
    congr 3
    omega
  · have e : k = (1 + (k - 1 - 1)) + 1 := by omega
    conv_rhs => rw [e, List.replicate_succ', List.replicate_add]
    rfl

theorem build_eq {st : MGraph} : ∀ j, j ≤ k - 1 →
    (List.range j).foldl (buildStep c { A := [], B := List.range k, ord := List.replicate k false }) { st := st, previous := 0, a := 0, b := 0 }
      = { st := pathTo c st j, previous := j - 1, a := 0, b := j } := by
  intro j
  induction j with
  | zero => intro _; rfl
  | succ j ih =>
    intro hj
    rw [List.range_succ, List.foldl_append, ih (by omega)]
    simp only [List.foldl_cons, List.foldl_nil]
    have ho : ∀ i, (List.replicate k false).getD i false = false := by
      intro i
      rw [List.getD_eq_getElem?_getD, List.getElem?_replicate]
      split <;> rfl
    have hb : ∀ i, i < k → (List.range k).getD i 0 = i := by
      intro i hi
      rw [List.getD_eq_getElem?_getD, List.getElem?_range hi]
      rfl
    unfold buildStep
    dsimp only
    rw [ho, ho, hb j (by omega), hb (j + 1) (by omega)]
    simp only [Bool.false_eq_true, if_false]
    congr 1
    unfold pathTo
    rw [List.range_succ, List.foldl_append]
    rfl

/-- The result: a path of the components in the order `l`. -/
theorem findSTCactus_eq {v : Nat → Nat} {G : MGraph} {s0 : Nat} (H : Pairs k (contract v G k) W) (hD : Disjoint k (contract v G k))
    (hs : (contract v G k).pos ((G.cont s0).headD 0) = s) (hC : ChainCuts k W s t c) (hk : 2 ≤ k) (hK : 2 * (c + 1) < 2 ^ 32) :
    ∃ l o, l.length = k ∧ OInv k s t c W (contract v G k) l o ∧
      findSTCactus c v G s0 k = some (pathTo c o.st (k - 1)).finishConstruction := by
  obtain ⟨l, hl, ho⟩ := order_inv H hD hC hk hK
  refine ⟨l, order c (contract v G k) s, hl, ho, ?_⟩
  unfold findSTCactus
  dsimp only
  rw [hs, layout_eq H hC hk hl ho]
  simp only [Option.map_some, List.length_nil, Nat.zero_add, List.length_range]
  rw [build_eq (k - 1) (le_refl _)]

end STCactus
end VieCut
