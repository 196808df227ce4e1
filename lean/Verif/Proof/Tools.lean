import Verif.Model.Tools
import Verif.Proof.Convert
import Verif.Spec.Tools
import Verif.Spec.MutableGraph

namespace VieCut
open Function

/-! ### `remap_cluster` -/

structure RemapInv (cluster : Nat → Nat) (k : Nat) (s : RemapState) : Prop where
  len : s.mapping.length = k
  revlen : s.rev.length = s.cnt
  none_iff : ∀ c, s.part c = none ↔ ∀ v, v < k → cluster v ≠ c
  some_eq : ∀ v, v < k → s.part (cluster v) = some (s.mapping.getD v 0)
  lt : ∀ c i, s.part c = some i → i < s.cnt
  inj : ∀ c c' i, s.part c = some i → s.part c' = some i → c = c'
  surj : ∀ i, i < s.cnt → ∃ v, v < k ∧ s.mapping.getD v 0 = i
  rev : ∀ i, i < s.cnt → s.rev.getD i [] = (List.range k).filter (fun v => s.mapping.getD v 0 == i)

theorem getD_append_lt {α : Type} {l : List α} {x d : α} {v : Nat} (h : v < l.length) :
    (l ++ [x]).getD v d = l.getD v d := by
  rw [List.getD_eq_getElem?_getD, List.getD_eq_getElem?_getD, List.getElem?_append_left h]

theorem getD_append_eq {α : Type} {l : List α} {x d : α} {v : Nat} (h : v = l.length) :
    (l ++ [x]).getD v d = x := by
  simp [List.getD_eq_getElem?_getD, h]

theorem getD_modify_lt {l : List (List Nat)} {f : List Nat → List Nat} {i j : Nat} (hj : j < l.length) :
    (l.modify i f).getD j [] = if i = j then f (l.getD j []) else l.getD j [] := by
  simp only [List.getD_eq_getElem?_getD, List.getElem?_modify, List.getElem?_eq_getElem hj]
  by_cases h : i = j <;> simp [h]

theorem RemapInv.step {cluster : Nat → Nat} {k : Nat} {s : RemapState} (h : RemapInv cluster k s) :
    RemapInv cluster (k + 1) (remapStep cluster s k) := by
  have hflt : ∀ (m : List Nat) (x i : Nat), m.length = k →
      (List.range (k + 1)).filter (fun v => (m ++ [x]).getD v 0 == i) =
      (List.range k).filter (fun v => m.getD v 0 == i) ++ if x = i then [k] else [] := by
    intro m x i hm
    rw [List.range_succ, List.filter_append]
    congr 1
    · refine List.filter_congr fun v hv => ?_
      rw [getD_append_lt (by rw [hm]; simpa using hv)]
    · rw [List.filter_cons, getD_append_eq (by omega)]
      by_cases hx : x = i
      · simp [hx]
      · simp [hx]
  unfold remapStep
  cases hp : s.part (cluster k) with
  | none =>
    simp only
    have hnew := (h.none_iff (cluster k)).1 hp
    refine ⟨by simp [h.len], by simp [h.revlen], ?_, ?_, ?_, ?_, ?_, ?_⟩
    · intro c
      simp only [update_apply]
      by_cases hc : c = cluster k
      · rw [if_pos hc]
        constructor
        · intro h'; simp at h'
        · intro h'; exact absurd hc.symm (h' k (by omega))
      · rw [if_neg hc, h.none_iff]
        constructor
        · intro h' v hv
          rcases Nat.lt_succ_iff_lt_or_eq.1 hv with h1 | h1
          · exact h' v h1
          · subst h1; exact Ne.symm hc
        · intro h' v hv; exact h' v (by omega)
    · intro v hv
      simp only [update_apply]
      rcases Nat.lt_succ_iff_lt_or_eq.1 hv with h1 | h1
      · rw [if_neg (hnew v h1), getD_append_lt (by rw [h.len]; exact h1)]
        exact h.some_eq v h1
      · subst h1; rw [if_pos rfl, getD_append_eq h.len.symm]
    · intro c i
      simp only [update_apply]
      by_cases hc : c = cluster k
      · rw [if_pos hc]; intro h'; simp only [Option.some.injEq] at h'; omega
      · rw [if_neg hc]; intro h'; have := h.lt c i h'; omega
    · intro c c' i
      simp only [update_apply]
      by_cases hc : c = cluster k
      · by_cases hc' : c' = cluster k
        · intro _ _; rw [hc, hc']
        · rw [if_pos hc, if_neg hc']
          intro h1 h2
          simp only [Option.some.injEq] at h1
          have := h.lt c' i h2; omega
      · by_cases hc' : c' = cluster k
        · rw [if_neg hc, if_pos hc']
          intro h1 h2
          simp only [Option.some.injEq] at h2
          have := h.lt c i h1; omega
        · rw [if_neg hc, if_neg hc']; exact h.inj c c' i
    · intro i hi
      simp only at hi
      rcases Nat.lt_succ_iff_lt_or_eq.1 hi with h1 | h1
      · obtain ⟨v, hv, hm⟩ := h.surj i h1
        exact ⟨v, by omega, by rw [getD_append_lt (by rw [h.len]; exact hv)]; exact hm⟩
      · exact ⟨k, by omega, by rw [getD_append_eq h.len.symm]; exact h1.symm⟩
    · intro i hi
      simp only at hi ⊢
      rw [getD_modify_lt (by simp [h.revlen]; omega), hflt _ _ _ h.len]
      rcases Nat.lt_succ_iff_lt_or_eq.1 hi with h1 | h1
      · rw [if_neg (by omega), if_neg (by omega), getD_append_lt (by rw [h.revlen]; exact h1), h.rev i h1]; simp
      · rw [if_pos h1.symm, if_pos h1.symm, getD_append_eq (by rw [h.revlen]; exact h1)]
        congr 1
        symm
        rw [List.filter_eq_nil_iff]
        intro v hv hcon
        have hv' : v < k := by simpa using hv
        have h2 := h.lt _ _ (h.some_eq v hv')
        have h3 : s.mapping.getD v 0 = i := by simpa using hcon
        omega
  | some i0 =>
    simp only
    have hi0 := h.lt _ _ hp
    refine ⟨by simp [h.len], by simp [h.revlen], ?_, ?_, h.lt, h.inj, ?_, ?_⟩
    · intro c
      rw [h.none_iff]
      constructor
      · intro h' v hv
        rcases Nat.lt_succ_iff_lt_or_eq.1 hv with h1 | h1
        · exact h' v h1
        · subst h1
          intro hc
          have := (h.none_iff c).2 h'
          rw [← hc, hp] at this; simp at this
      · intro h' v hv; exact h' v (by omega)
    · intro v hv
      rcases Nat.lt_succ_iff_lt_or_eq.1 hv with h1 | h1
      · rw [getD_append_lt (by rw [h.len]; exact h1)]; exact h.some_eq v h1
      · subst h1; rw [getD_append_eq h.len.symm]; exact hp
    · intro i hi
      obtain ⟨v, hv, hm⟩ := h.surj i hi
      exact ⟨v, by omega, by rw [getD_append_lt (by rw [h.len]; exact hv)]; exact hm⟩
    · intro i hi
      simp only at hi ⊢
      rw [getD_modify_lt (by rw [h.revlen]; exact hi), hflt _ _ _ h.len, h.rev i hi]
      by_cases h1 : i0 = i
      · rw [if_pos h1, if_pos h1]
      · rw [if_neg h1, if_neg h1]; simp

theorem remap_inv (cluster : Nat → Nat) (k : Nat) : RemapInv cluster k
    ((List.range k).foldl (remapStep cluster) { part := fun _ => none, cnt := 0, mapping := [], rev := [] }) := by
  induction k with
  | zero =>
    exact ⟨rfl, rfl, by intro c; simp, by intro v hv; omega, by intro c i hc; simp at hc,
      by intro c c' i hc; simp at hc, by intro i hi; simp at hi, by intro i hi; simp at hi⟩
  | succ k ih => rw [List.range_succ, List.foldl_append]; exact ih.step

/-! ### `extract_block` -/

/-- Number of block vertices below `v`. -/
def blockRank (inB : Nat → Bool) (v : Nat) : Nat := ((List.range v).filter inB).length

theorem blockRank_succ (inB : Nat → Bool) (v : Nat) :
    blockRank inB (v + 1) = blockRank inB v + if inB v then 1 else 0 := by
  unfold blockRank
  rw [List.range_succ, List.filter_append, List.length_append]
  cases h : inB v <;> simp [h]

theorem blockRank_mono (inB : Nat → Bool) {u v : Nat} (h : u ≤ v) : blockRank inB u ≤ blockRank inB v := by
  induction h with
  | refl => exact le_refl _
  | step h ih => rw [blockRank_succ]; omega

theorem blockRank_lt (inB : Nat → Bool) {u v : Nat} (h : u < v) (hu : inB u = true) :
    blockRank inB u < blockRank inB v := by
  have h1 := blockRank_mono inB (show u + 1 ≤ v from h)
  rw [blockRank_succ, hu, if_pos rfl] at h1; omega

theorem blockRank_inj (inB : Nat → Bool) {u v : Nat} (hu : inB u = true) (hv : inB v = true)
    (h : blockRank inB u = blockRank inB v) : u = v := by
  rcases Nat.lt_trichotomy u v with h1 | h1 | h1
  · have := blockRank_lt inB h1 hu; omega
  · exact h1
  · have := blockRank_lt inB h1 hv; omega

theorem exMap_spec (n : Nat) (inB : Nat → Bool) (k : Nat) :
    ((List.range k).foldl (exStep n inB) ([], 0)) =
      ((List.range k).map (fun v => if inB v then blockRank inB v else n + 1), blockRank inB k) := by
  induction k with
  | zero => rfl
  | succ k ih =>
    rw [List.range_succ, List.foldl_append, ih, List.foldl_cons, List.foldl_nil, List.map_append, blockRank_succ]
    unfold exStep
    cases h : inB k <;> simp [h]

theorem exMap_getD {n : Nat} {inB : Nat → Bool} {v : Nat} (hv : v < n) (hb : inB v = true) :
    (exMap n inB).1.getD v 0 = blockRank inB v := by
  unfold exMap
  rw [exMap_spec]
  simp [List.getD_eq_getElem?_getD, hv, hb]

/-- `k`-th vertex of the block. -/
def blockNth (n : Nat) (inB : Nat → Bool) (k : Nat) : Nat := ((List.range n).filter inB).getD k 0

theorem blockNth_rank (n : Nat) (inB : Nat → Bool) {v : Nat} (hv : v < n) (hb : inB v = true) :
    blockNth n inB (blockRank inB v) = v := by
  unfold blockNth
  induction n with
  | zero => omega
  | succ n ih =>
    rw [List.range_succ, List.filter_append]
    rcases Nat.lt_succ_iff_lt_or_eq.1 hv with h | h
    · have hlt : blockRank inB v < ((List.range n).filter inB).length := blockRank_lt inB h hb
      rw [List.getD_eq_getElem?_getD, List.getElem?_append_left hlt, ← List.getD_eq_getElem?_getD]
      exact ih h
    · subst h
      have : [v].filter inB = [v] := by simp [hb]
      rw [this]
      exact getD_append_eq rfl

theorem extract_fold {G : Graph} (hG : G.WF) (inB : Nat → Bool) (rev : Nat → Nat)
    (hrev : ∀ v, v < G.n → inB v = true → rev v = blockRank inB v) (N : Nat) (k : Nat) (hk : k ≤ G.n) :
    ∃ h, (List.range k).foldl (exNode G inB rev) (some (CSR.start N)) = some h ∧
      CSR.Inv h (CSR.rowsFlat (fun i => exRow G inB rev (blockNth G.n inB i)) (blockRank inB k)) ∧
      h.node = blockRank inB k ∧ h.n = N := by
  induction k with
  | zero => exact ⟨CSR.start N, rfl, CSR.Inv.start N, rfl, rfl⟩
  | succ k ih =>
    obtain ⟨h, a, b, c, d⟩ := ih (by omega)
    rw [List.range_succ, List.foldl_append, a, List.foldl_cons, List.foldl_nil]
    unfold exNode
    by_cases hb : inB k = true
    · rw [if_pos hb, Option.bind_some, blockRank_succ, if_pos hb]
      have b' : CSR.Inv h.newNode (CSR.rowsFlat (fun i => exRow G inB rev (blockNth G.n inB i)) (blockRank inB k)) :=
        ⟨b.edges, b.lt, b.le, b.first⟩
      obtain ⟨h2, a2, b2, c2, d2⟩ := CSR.copyRow_spec (blockRank inB k) (exRow G inB rev k) b' (by
          intro e he
          obtain ⟨e', he', rfl⟩ := List.mem_map.1 he
          obtain ⟨h3, h4⟩ := List.mem_filter.1 he'
          simp only
          rw [hrev _ (hG.tgt_lt k e' h3) h4]
          intro hcon
          exact hG.no_loop k e' h3 (blockRank_inj inB hb h4 hcon).symm)
        (fun x hx => le_of_lt (CSR.rowsFlat_lt x hx))
      refine ⟨h2, by rw [c]; exact a2, ?_, ?_, ?_⟩
      · rw [CSR.rowsFlat_succ]
        rw [blockNth_rank G.n inB (by omega) hb]; exact b2
      · rw [c2]; simp only [CSR.newNode]; omega
      · rw [d2]; exact d
    · have hb' : inB k = false := by simpa using hb
      rw [if_neg hb, blockRank_succ, hb']
      exact ⟨h, rfl, by simpa using b, by simpa using c, d⟩

theorem extractBlock_spec {G : Graph} (hG : G.WF) (inB : Nat → Bool) :
    ∃ h, extractBlock G inB = some (h, (exMap G.n inB).1) ∧ h.n = blockRank inB G.n ∧
      ∀ v, v < G.n → inB v = true → h.adj (blockRank inB v) =
        ((G.edges v).filter (fun e => inB e.1)).map (fun e => (blockRank inB e.1, e.2)) := by
  obtain ⟨h, a, b, c, d⟩ := extract_fold hG inB (fun v => (exMap G.n inB).1.getD v 0) (fun v hv hb => exMap_getD hv hb)
    (blockRank inB G.n) G.n (le_refl _)
  have hm2 : (exMap G.n inB).2 = blockRank inB G.n := by unfold exMap; rw [exMap_spec]
  have hh := b.finish d c (CSR.rowsFlat_sorted _ _) CSR.rowsFlat_lt
  refine ⟨h.finish, ?_, hh.n_eq, ?_⟩
  · unfold extractBlock
    simp only
    rw [hm2, a]; rfl
  · intro v hv hb
    rw [hh.adj (blockRank_lt inB hv hb), CSR.rowsFlat_filter, if_pos (blockRank_lt inB hv hb), blockNth_rank G.n inB hv hb]
    unfold exRow
    refine List.map_congr_left fun e he => ?_
    obtain ⟨h3, h4⟩ := List.mem_filter.1 he
    dsimp only
    rw [exMap_getD (hG.tgt_lt v e h3) h4]

/-! #### Mutable graphs -/

open MGraph in
/-- All edges inserted by the mutable variant. -/
def exEdges (G : Graph) (inB : Nat → Bool) (rev : Nat → Nat) (k : Nat) : List (Nat × Nat × Nat) :=
  (List.range k).flatMap (fun v => if inB v then (exRow G inB rev v).map (fun e => (blockRank inB v, e.1, e.2)) else [])

open MGraph in
theorem extractM_fold (G : Graph) (inB : Nat → Bool) (rev : Nat → Nat) (k : Nat) (hk : k ≤ G.n) :
    (List.range k).foldl (exNodeM G inB rev) (MGraph.start (blockRank inB G.n)) =
      { (exEdges G inB rev k).foldl (fun h x => h.newEdge x.1 x.2.1 x.2.2) (MGraph.start (blockRank inB G.n)) with
        lastNode := blockRank inB k } := by
  induction k with
  | zero => rfl
  | succ k ih =>
    rw [List.range_succ, List.foldl_append, ih (by omega), List.foldl_cons, List.foldl_nil]
    unfold exNodeM exEdges
    rw [List.range_succ, List.flatMap_append, List.foldl_append, blockRank_succ]
    by_cases hb : inB k = true
    · have hlt := blockRank_lt inB (show k < G.n by omega) hb
      simp only [List.flatMap_cons, List.flatMap_nil, List.append_nil, hb, if_true]
      rw [newNode_lt]
      · rw [List.foldl_map]
        have := foldNew_lastNode ((exRow G inB rev k).map (fun e => (blockRank inB k, e.1, e.2)))
          (List.foldl (fun h x => h.newEdge x.1 x.2.1 x.2.2) (MGraph.start (blockRank inB G.n))
            (List.flatMap (fun v => if inB v then (exRow G inB rev v).map (fun e => (blockRank inB v, e.1, e.2)) else [])
              (List.range k))) (blockRank inB k + 1)
        rw [List.foldl_map, List.foldl_map] at this
        exact this
      · simp only
        rw [(foldNew_frame' _ _).1]
        show blockRank inB k ≠ blockRank inB G.n
        omega
    · have hb' : inB k = false := by simpa using hb
      simp [hb']

namespace MGraph
open Finset

theorem exEdges_sum (G : Graph) (inB : Nat → Bool) (rev : Nat → Nat) (k : Nat) (f : Nat × Nat × Nat → Nat) :
    ((exEdges G inB rev k).map f).sum =
      ∑ u ∈ range k, if inB u then ((exRow G inB rev u).map (fun e => f (blockRank inB u, e.1, e.2))).sum else 0 := by
  induction k with
  | zero => simp [exEdges]
  | succ k ih =>
    unfold exEdges at *
    rw [List.range_succ, List.flatMap_append, List.map_append, List.sum_append, ih, Finset.sum_range_succ]
    congr 1
    by_cases hb : inB k = true
    · simp only [hb, if_true, List.flatMap_cons, List.flatMap_nil, List.append_nil, List.map_map]; rfl
    · have hb' : inB k = false := by simpa using hb
      simp [hb']

theorem extractBlockM_spec {g : MGraph} (hg : Valid g) (inB : Nat → Bool) :
    Valid (extractBlockM g inB).1 ∧ (extractBlockM g inB).1.Fresh ∧ (extractBlockM g inB).1.n = blockRank inB g.n ∧
    ∀ a, a < g.n → inB a = true → ∀ f, rowSum (extractBlockM g inB).1 f (blockRank inB a) =
      rowSum g (fun t w => if inB t then f (blockRank inB t) w else 0) a := by
  set rev := fun v => (exMap g.n inB).1.getD v 0 with hrevd
  have hrev : ∀ v, v < g.n → inB v = true → rev v = blockRank inB v := fun v hv hb => exMap_getD hv hb
  have hm2 : (exMap g.n inB).2 = blockRank inB g.n := by unfold exMap; rw [exMap_spec]
  have hnG : g.toGraph.n = g.n := toGraph_n g
  have htgt : ∀ u e, e ∈ g.toGraph.edges u → e.1 < g.n := fun u e he => by rw [← hnG]; exact hg.wf.tgt_lt u e he
  have e0 := extractM_fold g.toGraph inB rev g.n (by rw [hnG])
  rw [hnG] at e0
  set h := (exEdges g.toGraph inB rev g.n).foldl (fun h x => h.newEdge x.1 x.2.1 x.2.2) (MGraph.start (blockRank inB g.n))
    with hh
  obtain ⟨b1, b2, b3, -⟩ := foldNew_spec (exEdges g.toGraph inB rev g.n) (Valid.start (blockRank inB g.n)) (by
    intro x hx
    obtain ⟨u, hu, hx⟩ := List.mem_flatMap.1 hx
    by_cases hb : inB u = true
    · rw [if_pos hb] at hx
      obtain ⟨e, he, rfl⟩ := List.mem_map.1 hx
      obtain ⟨e', he', rfl⟩ := List.mem_map.1 he
      obtain ⟨h3, h4⟩ := List.mem_filter.1 he'
      show rev e'.1 < blockRank inB g.n
      rw [hrev _ (htgt u e' h3) h4]
      exact blockRank_lt inB (htgt u e' h3) h4
    · rw [if_neg hb] at hx; simp at hx)
  rw [← hh] at b1 b2 b3
  unfold pframe at b2
  simp only [Prod.mk.injEq] at b2
  obtain ⟨c1, c2, c3, c4, c5⟩ := b2
  have e : (extractBlockM g inB).1 = { h with lastNode := h.n } := by
    unfold extractBlockM
    simp only
    rw [hm2, e0]
    rfl
  have hrs : ∀ f a, rowSum (extractBlockM g inB).1 f a = rowSum h f a := by intro f a; rw [e]; rfl
  refine ⟨by rw [e]; exact ⟨b1.pv, b1.wdeg, b1.num⟩, ?_, by rw [e]; exact c1, ?_⟩
  · rw [e]
    refine ⟨?_, ?_⟩
    · show h.posSize = h.n
      rw [c3, c1]; rfl
    · intro v _
      have h1 : h.pos v = v := by rw [c2]; rfl
      have h2 : h.cont v = [v] := by rw [c4]; rfl
      exact ⟨h1, h2⟩
  · intro a ha hba f
    rw [hrs, b3, ← fwdAll_contrib hg _ ha, fwdAll_sum]
    have h0 : rowSum (start (blockRank inB g.n)) f (blockRank inB a) = 0 := by simp [rowSum, start]
    rw [h0, Nat.zero_add, exEdges_sum]
    refine Finset.sum_congr rfl fun u hu => ?_
    rw [Finset.mem_range] at hu
    have h1 := fwd_sum g hu (fun t w => contrib (fun t w => if inB t = true then f (blockRank inB t) w else 0) a (u, t, w))
    rw [h1, ← list_row_sum g hu]
    by_cases hb : inB u = true
    · rw [if_pos hb]
      unfold exRow
      rw [List.map_map, sum_filter_ite]
      congr 1
      refine List.map_congr_left fun x hx => ?_
      have hx' := htgt u x hx
      have hnl := hg.wf.no_loop u x hx
      simp only [comp]
      by_cases hbx : inB x.1 = true
      · rw [if_pos hbx, hrev _ hx' hbx]
        unfold contrib
        simp only [hb, hbx, if_true]
        have hiff : blockRank inB u < blockRank inB x.1 ↔ u < x.1 := by
          constructor
          · intro hlt
            by_contra hcon
            have := blockRank_mono inB (show x.1 ≤ u by omega); omega
          · intro hlt; exact blockRank_lt inB hlt hb
        have hi1 : blockRank inB a = blockRank inB u ↔ a = u := ⟨fun h => blockRank_inj inB hba hb h, fun h => by rw [h]⟩
        have hi2 : blockRank inB a = blockRank inB x.1 ↔ a = x.1 := ⟨fun h => blockRank_inj inB hba hbx h, fun h => by rw [h]⟩
        simp only [hiff, hi1, hi2]
        by_cases h4 : u < x.1
        · simp only [h4, if_true]
        · simp only [h4, if_false]
      · have hbx' : inB x.1 = false := by simpa using hbx
        rw [if_neg hbx]
        unfold contrib
        simp only [hbx', Bool.false_eq_true, if_false]
        have : ¬ a = x.1 := fun h => by rw [h, hbx'] at hba; simp at hba
        simp only [this, if_false]
        split <;> simp
    · have hb' : inB u = false := by simpa using hb
      rw [if_neg hb]
      symm
      apply List.sum_eq_zero
      intro y hy
      obtain ⟨x, hx, rfl⟩ := List.mem_map.1 hy
      unfold contrib
      have : ¬ a = u := fun h => by rw [h, hb'] at hba; simp at hba
      simp [hb', this]

end MGraph

theorem blockRank_range (inB : Nat → Bool) (n : Nat) :
    ((List.range n).filter inB).map (blockRank inB) = List.range (blockRank inB n) := by
  induction n with
  | zero => rfl
  | succ n ih =>
    rw [List.range_succ, List.filter_append, List.map_append, ih, blockRank_succ]
    by_cases hb : inB n = true
    · simp [hb, List.range_succ]
    · have hb' : inB n = false := by simpa using hb
      simp [hb']

namespace MGraph
open Finset

theorem count_sum (l : List (Nat × Nat)) (x : Nat × Nat) :
    l.count x = (l.map (fun e => if e.1 = x.1 ∧ e.2 = x.2 then 1 else 0)).sum := by
  induction l with
  | nil => rfl
  | cons a l ih =>
    rw [List.count_cons, List.map_cons, List.sum_cons, ih, Nat.add_comm]
    congr 1
    by_cases h : a = x
    · simp [h]
    · have : ¬ (a.1 = x.1 ∧ a.2 = x.2) := fun hc => h (Prod.ext hc.1 hc.2)
      simp [h, this]

theorem extractM_perm {g : MGraph} (hg : Valid g) (inB : Nat → Bool) {v : Nat} (hv : v < g.n) (hb : inB v = true) :
    ((extractBlockM g inB).1.toGraph.edges (blockRank inB v)).Perm
      (((g.toGraph.edges v).filter (fun e => inB e.1)).map (fun e => (blockRank inB e.1, e.2))) := by
  obtain ⟨a, b, c, d⟩ := extractBlockM_spec hg inB
  rw [List.perm_iff_count]
  intro x
  rw [count_sum, count_sum]
  have h1 := list_row_sum (extractBlockM g inB).1 (u := blockRank inB v) (by rw [c]; exact blockRank_lt inB hv hb)
    (fun t w => if t = x.1 ∧ w = x.2 then 1 else 0)
  have h2 := list_row_sum g hv (fun t w => if inB t = true then (if blockRank inB t = x.1 ∧ w = x.2 then 1 else 0) else 0)
  rw [h1, d v hv hb, ← h2, List.map_map, sum_filter_ite]
  rfl

theorem edge_setEdge (g : MGraph) (u e : Nat) (r : RevEdge) (a b : Nat) :
    (g.setEdge u e r).edge a b = if a = u ∧ b = e then r else g.edge a b := by
  unfold setEdge
  simp only [Function.update_apply]
  by_cases ha : a = u
  · by_cases hb : b = e
    · simp [ha, hb]
    · simp [ha, hb]
  · simp [ha]

/-- Reference map and stored fields agree for the current problem. -/
def FlowRel (pid : Nat) (g0 g : MGraph) (m : Nat → Nat → Int) : Prop :=
  ∀ a b, ((g.edge a b).pid = pid ∧ (g.edge a b).flow = m a b) ∨
    (g.edge a b = g0.edge a b ∧ (g.edge a b).pid ≠ pid ∧ m a b = 0)

theorem flow_step {pid : Nat} {g0 : MGraph} {s : MGraph × List Int} {t : (Nat → Nat → Int) × List Int}
    (hr : FlowRel pid g0 s.1 t.1) (ho : s.2 = t.2) (op : FlowOp) :
    FlowRel pid g0 (applyFlow pid s op).1 (refFlow t op).1 ∧ (applyFlow pid s op).2 = (refFlow t op).2 := by
  have key : ∀ (u e : Nat) (r : RevEdge) (f : Int), r.pid = pid → r.flow = f →
      FlowRel pid g0 (s.1.setEdge u e r) (fun a b => if a = u ∧ b = e then f else t.1 a b) := by
    intro u e r f h1 h2 a b
    rw [edge_setEdge]
    by_cases hab : a = u ∧ b = e
    · simp only [hab, and_self, if_true]; exact Or.inl ⟨h1, h2⟩
    · simp only [hab, if_false]; exact hr a b
  cases op with
  | set u e f => exact ⟨key u e _ f rfl rfl, ho⟩
  | add u e f =>
    simp only [applyFlow, addEdgeFlow, refFlow]
    rcases hr u e with ⟨h1, h2⟩ | ⟨h1, h2, h3⟩
    · rw [if_pos h1]
      exact ⟨key u e _ _ h1 (by rw [h2]), ho⟩
    · rw [if_neg h2, h3, Int.zero_add]
      exact ⟨key u e _ _ rfl rfl, ho⟩
  | get u e =>
    simp only [applyFlow, getEdgeFlow, refFlow]
    rcases hr u e with ⟨h1, h2⟩ | ⟨h1, h2, h3⟩
    · rw [if_pos h1]
      exact ⟨hr, by rw [ho, h2]⟩
    · rw [if_neg h2]
      refine ⟨?_, by rw [ho, h3]⟩
      have := key u e { s.1.edge u e with flow := 0, pid := pid } 0 rfl rfl
      intro a b
      have h4 := this a b
      by_cases hab : a = u ∧ b = e
      · obtain ⟨rfl, rfl⟩ := hab
        rw [edge_setEdge] at h4
        simp only [and_self, if_true] at h4
        left
        simp only [edge_setEdge, and_self, if_true, h3]
      · simp only [hab, if_false] at h4; exact h4

theorem runProblem_spec (g : MGraph) (p : Nat × List FlowOp) (hf : ∀ u e, (g.edge u e).pid ≠ p.1) :
    (g.runProblem p).2 = refProblem p.2 ∧
    ∀ u e, ((g.runProblem p).1.edge u e).pid = (g.edge u e).pid ∨ ((g.runProblem p).1.edge u e).pid = p.1 := by
  obtain ⟨pid, ops⟩ := p
  have gen : ∀ (ops : List FlowOp) (s : MGraph × List Int) (t : (Nat → Nat → Int) × List Int),
      FlowRel pid g s.1 t.1 → s.2 = t.2 →
      FlowRel pid g (ops.foldl (applyFlow pid) s).1 (ops.foldl refFlow t).1 ∧
        (ops.foldl (applyFlow pid) s).2 = (ops.foldl refFlow t).2 := by
    intro ops
    induction ops with
    | nil => intro s t h1 h2; exact ⟨h1, h2⟩
    | cons o ops ih =>
      intro s t h1 h2
      obtain ⟨h3, h4⟩ := flow_step h1 h2 o
      exact ih _ _ h3 h4
  obtain ⟨h1, h2⟩ := gen ops (g, []) (fun _ _ => 0, []) (fun a b => Or.inr ⟨rfl, hf a b, rfl⟩) rfl
  refine ⟨h2, fun u e => ?_⟩
  rcases h1 u e with ⟨h3, -⟩ | ⟨h3, -, -⟩
  · exact Or.inr h3
  · left
    show ((ops.foldl (applyFlow pid) (g, [])).1.edge u e).pid = _
    rw [h3]

/-- Same graph up to the flow fields. -/
def SameGraph (g h : MGraph) : Prop :=
  h.n = g.n ∧ h.len = g.len ∧ h.wdeg = g.wdeg ∧ h.numEdges = g.numEdges ∧
  ∀ a b, (h.edge a b).target = (g.edge a b).target ∧ (h.edge a b).weight = (g.edge a b).weight ∧
    (h.edge a b).rev = (g.edge a b).rev

theorem SameGraph.step {g h : MGraph} (hs : SameGraph g h) (pid : Nat) (o : List Int) (op : FlowOp) :
    SameGraph g (applyFlow pid (h, o) op).1 := by
  obtain ⟨a, b, c, d, e⟩ := hs
  have key : ∀ (u k : Nat) (r : RevEdge), r.target = (h.edge u k).target → r.weight = (h.edge u k).weight →
      r.rev = (h.edge u k).rev → SameGraph g (h.setEdge u k r) := by
    intro u k r h1 h2 h3
    refine ⟨a, b, c, d, fun x y => ?_⟩
    rw [edge_setEdge]
    by_cases hxy : x = u ∧ y = k
    · rw [if_pos hxy, hxy.1, hxy.2, h1, h2, h3]; exact e u k
    · rw [if_neg hxy]; exact e x y
  cases op with
  | set u k f => exact key u k _ rfl rfl rfl
  | add u k f =>
    simp only [applyFlow, addEdgeFlow]
    split <;> exact key u k _ rfl rfl rfl
  | get u k =>
    simp only [applyFlow, getEdgeFlow]
    split
    · exact ⟨a, b, c, d, e⟩
    · exact key u k _ rfl rfl rfl

theorem runProblem_same (g : MGraph) (p : Nat × List FlowOp) : SameGraph g (g.runProblem p).1 := by
  unfold runProblem
  have gen : ∀ (ops : List FlowOp) (s : MGraph × List Int), SameGraph g s.1 →
      SameGraph g (ops.foldl (applyFlow p.1) s).1 := by
    intro ops
    induction ops with
    | nil => intro s h; exact h
    | cons o ops ih => intro s h; exact ih _ (SameGraph.step h p.1 s.2 o)
  exact gen p.2 (g, []) ⟨rfl, rfl, rfl, rfl, fun _ _ => ⟨rfl, rfl, rfl⟩⟩

theorem runProblem_graph (g : MGraph) (p : Nat × List FlowOp) :
    (g.runProblem p).1.n = g.n ∧ (g.runProblem p).1.toGraph = g.toGraph ∧
    (g.Consistent → (g.runProblem p).1.Consistent) := by
  obtain ⟨a, b, c, d, e⟩ := runProblem_same g p
  generalize (g.runProblem p).1 = h at *
  refine ⟨a, ?_, ?_⟩
  · unfold toGraph
    rw [a]
    congr 1
    refine List.map_congr_left fun u _ => ?_
    rw [b]
    refine List.map_congr_left fun k _ => ?_
    rw [(e u k).1, (e u k).2.1]
  · intro hc
    refine ⟨?_, ?_, ?_, ?_, ?_, ?_, ?_⟩
    · intro u k hu hk
      rw [a] at *; rw [b] at hk; rw [(e u k).1]; exact hc.target u k hu hk
    · intro u k hu hk
      rw [a] at *; rw [b] at hk; rw [(e u k).1]; exact hc.noLoop u k hu hk
    · intro u k hu hk
      rw [a] at *; rw [b] at *; rw [(e u k).1, (e u k).2.2]; exact hc.partner u k hu hk
    · intro u k hu hk
      rw [a] at *; rw [b] at *; rw [(e u k).1, (e u k).2.2, (e _ _).1, (e _ _).2.2]; exact hc.back u k hu hk
    · intro u k hu hk
      rw [a] at *; rw [b] at *; rw [(e u k).1, (e u k).2.2, (e _ _).2.1, (e _ _).2.1]; exact hc.weight u k hu hk
    · intro u hu
      rw [a] at *; rw [c, b, hc.degree u hu]
      congr 1
      exact List.map_congr_left fun k _ => ((e u k).2.1).symm
    · rw [d, a, b]; exact hc.edges

end MGraph

open Finset in
/-- The accumulated sum is twice the multicut value. -/
theorem flow_sum {G : Graph} (hG : G.WF) (sol : Nat → Nat) :
    ((List.range G.n).map fun v => ((G.edges v).map fun e => if sol v ≠ sol e.1 then e.2 else 0).sum).sum =
      2 * multicutValue G.n G.wt sol := by
  have h1 : ∀ v, ((G.edges v).map fun e => if sol v ≠ sol e.1 then e.2 else 0).sum =
      ∑ u ∈ range G.n, if sol v ≠ sol u then G.wt v u else 0 := by
    intro v
    have h2 := MGraph.sum_filter_ite (G.edges v) (fun e => decide (sol v ≠ sol e.1)) (·.2)
    have h3 := filter_sum_range ((G.edges v).filter (fun e => decide (sol v ≠ sol e.1))) G.n
      (fun e he => hG.tgt_lt v e (List.mem_filter.1 he).1)
    simp only [decide_eq_true_eq] at h2
    rw [← h2, h3]
    refine Finset.sum_congr rfl fun u _ => ?_
    rw [List.filter_filter]
    by_cases hc : sol v ≠ sol u
    · rw [if_pos hc]
      unfold Graph.wt
      congr 2
      refine List.filter_congr fun e _ => ?_
      by_cases he : e.1 = u
      · simp [he, hc]
      · simp [he]
    · rw [if_neg hc]
      have : (G.edges v).filter (fun e => (e.1 == u) && decide (sol v ≠ sol e.1)) = [] := by
        rw [List.filter_eq_nil_iff]
        intro e _ he
        simp only [Bool.and_eq_true, beq_iff_eq, decide_eq_true_eq] at he
        rw [he.1] at he
        exact hc he.2
      rw [this]; rfl
  have h4 : ∀ k (f : Nat → Nat → Nat), (∀ u v, f u v = f v u) → (∀ u, f u u = 0) →
      ∑ v ∈ range k, ∑ u ∈ range k, f v u = 2 * ∑ v ∈ range k, ∑ u ∈ range v, f u v := by
    intro k f hs hd
    induction k with
    | zero => rfl
    | succ k ih =>
      rw [Finset.sum_range_succ, Finset.sum_range_succ (fun v => ∑ u ∈ range v, f u v)]
      have : ∑ v ∈ range k, ∑ u ∈ range (k + 1), f v u = ∑ v ∈ range k, ∑ u ∈ range k, f v u + ∑ v ∈ range k, f v k := by
        rw [← Finset.sum_add_distrib]
        exact Finset.sum_congr rfl fun v _ => Finset.sum_range_succ _ _
      rw [this, ih, Finset.sum_range_succ, hd k]
      have : ∑ u ∈ range k, f k u = ∑ v ∈ range k, f v k := Finset.sum_congr rfl fun u _ => hs k u
      rw [this]; omega
  have h5 : ((List.range G.n).map fun v => ((G.edges v).map fun e => if sol v ≠ sol e.1 then e.2 else 0).sum).sum =
      ∑ v ∈ range G.n, ∑ u ∈ range G.n, if sol v ≠ sol u then G.wt v u else 0 := by
    rw [MGraph.sum_range_list]
    exact Finset.sum_congr rfl fun v _ => h1 v
  rw [h5, h4 G.n (fun v u => if sol v ≠ sol u then G.wt v u else 0)]
  · rfl
  · intro u v
    simp only [hG.wt_symm u v, ne_comm]
  · intro u; simp

end VieCut
