import Verif.Model.KernelNOI
import Verif.Proof.MulticutBounds
import Verif.Proof.NOI

/-! # The connectivity pass of the kernelization -/

namespace VieCut
namespace Problem
open MGraph

/-- Two entries of a list weigh at most as much as the last two of the sorted list. -/
theorem top_two {l s : List Nat} (hp : l.Perm s) (hs : s.Pairwise (· ≤ ·)) (h2 : 2 ≤ s.length) {x y : Nat} {r : List Nat}
    (hl : l.Perm (x :: y :: r)) : x + y ≤ s.getD (s.length - 1) 0 + s.getD (s.length - 2) 0 := by
  obtain ⟨s', a, b, rfl⟩ : ∃ s' a b, s = s' ++ [a, b] := by
    obtain ⟨t, b, rfl⟩ := List.eq_nil_or_concat s |>.resolve_left (by rintro rfl; simp at h2)
    obtain ⟨t', a, rfl⟩ := List.eq_nil_or_concat t |>.resolve_left (by rintro rfl; simp at h2)
    exact ⟨t', a, b, by simp⟩
  have e1 : (s' ++ [a, b]).getD ((s' ++ [a, b]).length - 1) 0 = b := by
    simp [List.getD_eq_getElem?_getD]
  have e2 : (s' ++ [a, b]).getD ((s' ++ [a, b]).length - 2) 0 = a := by
    simp [List.getD_eq_getElem?_getD]
  rw [e1, e2]
  rw [List.pairwise_append] at hs
  obtain ⟨_, h3, h4⟩ := hs
  have hab : a ≤ b := by simpa using h3
  have hP : (x :: y :: r).Perm (s' ++ [a, b]) := hl.symm.trans hp
  have hle : ∀ z ∈ x :: y :: r, z ≤ b := by
    intro z hz
    rcases List.mem_append.1 (hP.mem_iff.1 hz) with h | h
    · exact h4 z h b (by simp)
    · simp only [List.mem_cons, List.not_mem_nil, or_false] at h
      omega
  have hx := hle x (by simp)
  have hy := hle y (by simp)
  by_contra hc
  have hxa : a < x := by omega
  have hya : a < y := by omega
  have hcnt := hP.countP_eq (fun z => decide (a < z))
  rw [List.countP_cons_of_pos (by simpa using hxa), List.countP_cons_of_pos (by simpa using hya), List.countP_append] at hcnt
  have h0 : s'.countP (fun z => decide (a < z)) = 0 := by
    rw [List.countP_eq_zero]
    intro z hz
    have := h4 z hz a (by simp)
    simpa using this
  have h1 : ([a, b] : List Nat).countP (fun z => decide (a < z)) ≤ 1 := by
    rw [List.countP_cons_of_neg (by simp)]
    exact List.countP_le_length
  omega

theorem top_one {l s : List Nat} (hp : l.Perm s) (hs : s.Pairwise (· ≤ ·)) (h2 : 2 ≤ s.length) {x : Nat} (hx : x ∈ l) :
    x ≤ s.getD (s.length - 1) 0 + s.getD (s.length - 2) 0 := by
  obtain ⟨r, hr⟩ := List.mem_iff_append.1 hx
  obtain ⟨r', rfl⟩ := hr
  have hlen : 2 ≤ (r ++ x :: r').length := hp.length_eq ▸ h2
  cases hq : r ++ r' with
  | nil =>
    obtain ⟨rfl, rfl⟩ := List.append_eq_nil_iff.1 hq
    simp at hlen
  | cons y q =>
    have := top_two hp hs h2 (x := x) (y := y) (r := q) (by
      rw [← hq]; exact List.perm_middle)
    omega

/-- The sum without the two largest values is at most the sum of any selection that drops at most two values. -/
theorem contrFlow_le {α : Type} (ts : List α) (d : α → Nat) (bad : α → Bool) (hbad : (ts.filter bad).length ≤ 2) :
    contrFlow (ts.map d) ≤ ((ts.filter fun t => !bad t).map d).sum := by
  unfold contrFlow
  have hp := (List.perm_insertionSort (· ≤ ·) (ts.map d)).symm
  have hs : ((ts.map d).insertionSort (· ≤ ·)).Pairwise (· ≤ ·) := List.pairwise_insertionSort _ _
  have hsplit : (ts.map d).sum = ((ts.filter bad).map d).sum + ((ts.filter fun t => !bad t).map d).sum := by
    rw [← List.sum_append, ← List.map_append]
    exact ((List.filter_append_perm bad ts).map d).sum_eq.symm
  dsimp only
  split
  · rename_i h2
    have hperm : (ts.map d).Perm ((ts.filter bad).map d ++ (ts.filter fun t => !bad t).map d) := by
      rw [← List.map_append]
      exact ((List.filter_append_perm bad ts).map d).symm
    have hb : ((ts.filter bad).map d).sum ≤ ((ts.map d).insertionSort (· ≤ ·)).getD
        (((ts.map d).insertionSort (· ≤ ·)).length - 1) 0 + ((ts.map d).insertionSort (· ≤ ·)).getD
        (((ts.map d).insertionSort (· ≤ ·)).length - 2) 0 := by
      match hq : ts.filter bad, hbad with
      | [], _ => simp
      | [x], _ =>
        have := top_one hp hs h2 (x := d x) (List.mem_map_of_mem (List.mem_of_mem_filter (by rw [hq]; simp)))
        simpa using this
      | [x, y], _ =>
        rw [hq] at hperm
        have := top_two hp hs h2 (x := d x) (y := d y) hperm
        simpa using this
      | _ :: _ :: _ :: _, h => simp at h
    omega
  · omega

variable {ots : List Nat} {p : Problem}

/-- The degree of every terminal is at most twice the weight of any cut that isolates it. -/
def DegreeBound (ots : List Nat) (p : Problem) : Prop :=
  ∀ t ∈ p.spots ots, ∀ S : Nat → Bool, S t = true → (∀ t' ∈ p.spots ots, t' ≠ t → S t' = false) →
    p.graph.wdeg t ≤ 2 * cutValue p.graph.n p.graph.toGraph.wt S

/-- A solution below the bound does not separate vertices whose connectivity reaches the limit. -/
theorem noi_keeps (h : Ok ots p) (hd : DegreeBound ots p) {ub : Nat} (hub : ub < 2 ^ 64) {f : Nat → Nat}
    (hf : Separates (p.spots ots) f)
    (hW : p.deleted + multicutValue p.graph.n p.graph.toGraph.wt f < ub) {a b : Nat}
    (hab : ∀ S : Nat → Bool, S a ≠ S b → (p.setTerminals ots).noiLimit ots ub ≤ cutValue p.graph.n p.graph.toGraph.wt S) :
    f a = f b := by
  by_contra hne
  have hwt : ∀ u v, p.graph.toGraph.wt u v = p.graph.toGraph.wt v u := h.valid.wf.wt_symm
  -- the terminals of the other parts
  let bad : Terminal → Bool := fun t => decide (f t.position = f a ∨ f t.position = f b)
  let ts := (p.setTerminals ots).terminals
  have hnd : (ts.map Terminal.position).Nodup := setTerminals_pos_nodup h
  have hspot : ∀ t ∈ ts, t.position ∈ p.spots ots := fun t ht =>
    (mem_tpos_setTerminals.1 (List.mem_map_of_mem (f := Terminal.position) ht)).1
  have hinj : ∀ t ∈ ts, ∀ t' ∈ ts, f t.position = f t'.position → t.position = t'.position := by
    intro t ht t' ht' he
    by_contra hc
    exact hf _ (hspot t ht) _ (hspot t' ht') hc he
  have hbad : (ts.filter bad).length ≤ 2 := by
    have h1 : ((ts.filter bad).map fun t => f t.position).Nodup := by
      have h2 : ((ts.filter bad).map Terminal.position).Nodup := (List.filter_sublist.map _).nodup hnd
      rw [List.Nodup, List.pairwise_map] at h2 ⊢
      refine h2.imp_of_mem ?_
      intro t t' ht ht' hne he
      exact hne (hinj t (List.mem_of_mem_filter ht) t' (List.mem_of_mem_filter ht') he)
    have h3 : ((ts.filter bad).map fun t => f t.position) ⊆ [f a, f b] := by
      intro x hx
      obtain ⟨t, ht, rfl⟩ := List.mem_map.1 hx
      have := (List.mem_filter.1 ht).2
      simp only [bad, decide_eq_true_eq] at this
      simpa using this
    have := (h1.subperm h3).length_le
    simpa using this
  have hcf := contrFlow_le ts (fun t => p.graph.wdeg (p.at' (ots.getD t.origId 0))) bad hbad
  have hdeg : ∀ t ∈ ts, p.at' (ots.getD t.origId 0) = t.position := by
    intro t ht
    obtain ⟨hi, h1, _⟩ := mem_setTerminals ht
    rw [h1, List.getD_eq_getElem?_getD, List.getElem?_eq_getElem hi]; rfl
  have hlim : (p.setTerminals ots).noiLimit ots ub = (((ub : Int) - p.deleted -
      ((contrFlow (ts.map fun (t : Terminal) => p.graph.wdeg (p.at' (ots.getD t.origId 0))) + 3) / 4 : Nat)) % 2 ^ 64).toNat := rfl
  generalize hC : contrFlow (ts.map fun (t : Terminal) => p.graph.wdeg (p.at' (ots.getD t.origId 0))) = C at *
  -- sum over the parts
  let L := a :: b :: (ts.filter fun t => !bad t).map Terminal.position
  have hgood : ∀ x ∈ (ts.filter fun t => !bad t).map Terminal.position, f x ≠ f a ∧ f x ≠ f b := by
    intro x hx
    obtain ⟨t, ht, rfl⟩ := List.mem_map.1 hx
    have := (List.mem_filter.1 ht).2
    simpa [bad] using this
  have hLnd : L.Nodup := by
    refine List.nodup_cons.2 ⟨?_, List.nodup_cons.2 ⟨fun hb => (hgood b hb).2 rfl,
      (List.filter_sublist.map _).nodup hnd⟩⟩
    intro ha
    rcases List.mem_cons.1 ha with h' | h'
    · exact hne (by rw [h'])
    · exact (hgood a h').1 rfl
  have hLsep : Separates L f := by
    intro x hx y hy hxy
    rcases List.mem_cons.1 hx with rfl | hx <;> rcases List.mem_cons.1 hy with rfl | hy
    · exact absurd rfl hxy
    · rcases List.mem_cons.1 hy with rfl | hy
      · exact hne
      · exact (hgood y hy).1.symm
    · rcases List.mem_cons.1 hx with rfl | hx
      · exact Ne.symm hne
      · exact (hgood x hx).1
    · rcases List.mem_cons.1 hx with rfl | hx <;> rcases List.mem_cons.1 hy with rfl | hy
      · exact absurd rfl hxy
      · exact (hgood y hy).2.symm
      · exact (hgood x hx).2
      · obtain ⟨t, ht, rfl⟩ := List.mem_map.1 hx
        obtain ⟨t', ht', rfl⟩ := List.mem_map.1 hy
        exact hf _ (hspot t (List.mem_of_mem_filter ht)) _ (hspot t' (List.mem_of_mem_filter ht')) hxy
  have hsum := sum_cuts_le (n := p.graph.n) hwt L hLnd hLsep
  have ha := hab (fun x => decide (f x = f a)) (by simp [Ne.symm hne])
  have hb := hab (fun x => decide (f x = f b)) (by simp [hne])
  have hrest : ((ts.filter fun t => !bad t).map fun t => p.graph.wdeg (p.at' (ots.getD t.origId 0))).sum ≤
      2 * (((ts.filter fun t => !bad t).map Terminal.position).map fun t =>
        cutValue p.graph.n p.graph.toGraph.wt (fun x => decide (f x = f t))).sum := by
    rw [List.map_map, ← List.sum_map_mul_left]
    refine List.sum_le_sum fun t ht => ?_
    have ht' := List.mem_of_mem_filter ht
    rw [hdeg t ht']
    exact hd _ (hspot t ht') _ (by simp) (fun t' h1 h2 => by
      simp only [decide_eq_false_iff_not]
      exact hf _ h1 _ (hspot t ht') h2)
  simp only [L, List.map_cons, List.sum_cons] at hsum
  generalize (((ts.filter fun t => !bad t).map Terminal.position).map fun t =>
        cutValue p.graph.n p.graph.toGraph.wt (fun x => decide (f x = f t))).sum = O at *
  generalize (p.setTerminals ots).noiLimit ots ub = lim at *
  omega

theorem noi_safe (h : Ok ots p) (hd : DegreeBound ots p) {ub : Nat} (hub : ub < 2 ^ 64) {c : Nat} (hc : Optimum ots p c)
    (hlt : c < ub) {uf : UF} (hm : ∀ a b, uf.root a = uf.root b → ∀ S : Nat → Bool, S a ≠ S b →
      (p.setTerminals ots).noiLimit ots ub ≤ cutValue p.graph.n p.graph.toGraph.wt S) :
    MergeSafe p.graph.n p.graph.toGraph.wt (p.spots ots) uf.root := by
  obtain ⟨d, ⟨⟨f0, h1, h2⟩, h3⟩, rfl⟩ := hc
  intro f hf
  refine ⟨f0, h1, by rw [h2]; exact h3 f hf, fun u v _ _ e => ?_⟩
  exact noi_keeps h hd hub h1 (by rw [h2]; exact hlt) (hm u v e)

end Problem
end VieCut
