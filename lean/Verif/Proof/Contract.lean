import Verif.Model.Contract
import Verif.Spec.Contraction
import Verif.Proof.Cut
import Verif.Proof.UnionFind
import Verif.Proof.Capforest

namespace VieCut
open Finset

/-- Invariant of the numbering loop after processing the vertices `0 … k-1`. -/
structure FUInv (uf0 : UF) (k : Nat) (s : FUState) : Prop where
  inv : s.uf.Inv
  root : ∀ x, s.uf.root x = uf0.root x
  size : s.uf.size = uf0.size
  len : s.mapping.length = k
  map_part : ∀ v, v < k → s.part (uf0.root v) = some (s.mapping.getD v 0)
  part_inj : ∀ x y i, s.part x = some i → s.part y = some i → x = y
  part_lt : ∀ x i, s.part x = some i → i < s.pid ∧ ∃ v, v < k ∧ uf0.root v = x
  part_surj : ∀ i, i < s.pid → ∃ x, s.part x = some i
  pid_card : s.pid = ((range k).image uf0.root).card
  rev_len : s.rev.length = uf0.cnt
  rev : ∀ p, p < uf0.cnt → s.rev.getD p [] = (List.range k).filter (fun v => s.mapping.getD v 0 = p)

theorem getD_append_singleton_lt (l : List Nat) (x v : Nat) (h : v < l.length) :
    (l ++ [x]).getD v 0 = l.getD v 0 := by
  simp [List.getD_eq_getElem?_getD, List.getElem?_append_left h]

theorem getD_append_singleton_eq (l : List Nat) (x : Nat) : (l ++ [x]).getD l.length 0 = x := by
  simp [List.getD_eq_getElem?_getD]

theorem getD_modify (l : List (List Nat)) (i p : Nat) (f : List Nat → List Nat) (hi : i < l.length) :
    (l.modify i f).getD p [] = if p = i then f (l.getD p []) else l.getD p [] := by
  simp only [List.getD_eq_getElem?_getD, List.getElem?_modify]
  by_cases h : p = i
  · subst h; simp [hi]
  · simp [h, Ne.symm h]

theorem fuInv_step {uf0 : UF} (h0 : uf0.Inv) {k : Nat} (hk : k < uf0.size) {s : FUState}
    (h : FUInv uf0 k s) : FUInv uf0 (k + 1) (fuStep s k) := by
  have hfst : (s.uf.find k).1 = uf0.root k := by rw [UF.find_fst h.inv, h.root]
  have hcard : ((range (k+1)).image uf0.root).card ≤ uf0.cnt := by
    rw [← UF.image_root_card h0]
    exact Finset.card_le_card (Finset.image_subset_image (Finset.range_subset_range.2 hk))
  have hfilter : ∀ (l : List Nat) (x p : Nat), l.length = k →
      (List.range (k+1)).filter (fun v => (l ++ [x]).getD v 0 = p)
        = (List.range k).filter (fun v => l.getD v 0 = p) ++ (if x = p then [k] else []) := by
    intro l x p hl
    rw [List.range_succ, List.filter_append]
    congr 1
    · refine List.filter_congr fun v hv => ?_
      rw [getD_append_singleton_lt l x v (by rw [hl]; simpa using hv)]
    · have : (l ++ [x]).getD k 0 = x := by rw [← hl]; exact getD_append_singleton_eq l x
      rw [List.filter_singleton, this]
      by_cases hx : x = p
      · simp [hx]
      · simp [hx]
  cases hp : s.part (uf0.root k) with
  | none =>
    have hfresh : ∀ v, v < k → uf0.root v ≠ uf0.root k := by
      intro v hv he
      have := h.map_part v hv
      rw [he, hp] at this; simp at this
    have hpid : s.pid + 1 = ((range (k+1)).image uf0.root).card := by
      rw [Finset.range_add_one, Finset.image_insert, Finset.card_insert_of_notMem, h.pid_card]
      intro hm
      obtain ⟨v, hv, he⟩ := Finset.mem_image.1 hm
      exact hfresh v (by simpa using hv) he
    have hlt : s.pid < s.rev.length := by rw [h.rev_len]; omega
    have hstep : fuStep s k = ⟨(s.uf.find k).2,
        Function.update s.part (uf0.root k) (some s.pid), s.pid + 1,
        s.mapping ++ [s.pid], s.rev.modify s.pid (fun l => l ++ [k])⟩ := by
      unfold fuStep
      rcases hfd : s.uf.find k with ⟨r, u⟩
      rw [hfd] at hfst
      simp only at hfst
      subst hfst
      simp only [hp]
    rw [hstep]
    refine ⟨UF.find_inv h.inv k, fun x => by rw [UF.find_root h.inv, h.root], h.size, by simp [h.len],
      ?_, ?_, ?_, ?_, hpid, by simpa using h.rev_len, ?_⟩
    · intro v hv
      simp only
      by_cases hvk : v = k
      · subst hvk
        rw [Function.update_self]
        congr 1
        have := getD_append_singleton_eq s.mapping s.pid
        rw [h.len] at this; exact this.symm
      · have hv' : v < k := by omega
        rw [Function.update_of_ne (hfresh v hv'), h.map_part v hv',
          getD_append_singleton_lt _ _ _ (by rw [h.len]; exact hv')]
    · intro x y i hx hy
      simp only at hx hy
      by_cases hxk : x = uf0.root k
      · by_cases hyk : y = uf0.root k
        · rw [hxk, hyk]
        · rw [hxk, Function.update_self] at hx
          rw [Function.update_of_ne hyk] at hy
          have := (h.part_lt y i hy).1
          simp at hx; omega
      · by_cases hyk : y = uf0.root k
        · rw [hyk, Function.update_self] at hy
          rw [Function.update_of_ne hxk] at hx
          have := (h.part_lt x i hx).1
          simp at hy; omega
        · rw [Function.update_of_ne hxk] at hx
          rw [Function.update_of_ne hyk] at hy
          exact h.part_inj x y i hx hy
    · intro x i hx
      simp only at hx ⊢
      by_cases hxk : x = uf0.root k
      · rw [hxk, Function.update_self] at hx
        simp at hx
        exact ⟨by omega, k, by omega, hxk.symm⟩
      · rw [Function.update_of_ne hxk] at hx
        obtain ⟨h1, v, h2, h3⟩ := h.part_lt x i hx
        exact ⟨by omega, v, by omega, h3⟩
    · intro i hi
      simp only at hi ⊢
      by_cases hip : i = s.pid
      · exact ⟨uf0.root k, by rw [Function.update_self, hip]⟩
      · obtain ⟨x, hx⟩ := h.part_surj i (by omega)
        refine ⟨x, ?_⟩
        have : x ≠ uf0.root k := by rintro rfl; rw [hp] at hx; simp at hx
        rw [Function.update_of_ne this, hx]
    · intro p hpc
      simp only
      rw [getD_modify _ _ _ _ hlt, hfilter _ _ _ h.len, h.rev p hpc]
      by_cases hpp : p = s.pid
      · simp [hpp]
      · simp [hpp, Ne.symm hpp]
  | some i =>
    obtain ⟨hi, v0, hv0, hr0⟩ := h.part_lt _ i hp
    have himg : (range (k+1)).image uf0.root = (range k).image uf0.root := by
      rw [Finset.range_add_one, Finset.image_insert, Finset.insert_eq_of_mem]
      exact Finset.mem_image.2 ⟨v0, by simpa using hv0, hr0⟩
    have hlt : i < s.rev.length := by
      rw [himg, ← h.pid_card] at hcard
      rw [h.rev_len]; omega
    have hstep : fuStep s k = ⟨(s.uf.find k).2, s.part, s.pid,
        s.mapping ++ [i], s.rev.modify i (fun l => l ++ [k])⟩ := by
      unfold fuStep
      rcases hfd : s.uf.find k with ⟨r, u⟩
      rw [hfd] at hfst
      simp only at hfst
      subst hfst
      simp only [hp]
    rw [hstep]
    refine ⟨UF.find_inv h.inv k, fun x => by rw [UF.find_root h.inv, h.root], h.size, by simp [h.len],
      ?_, h.part_inj, ?_, h.part_surj, by rw [himg]; exact h.pid_card, by simpa using h.rev_len, ?_⟩
    · intro v hv
      simp only
      by_cases hvk : v = k
      · subst hvk
        rw [hp]
        congr 1
        have := getD_append_singleton_eq s.mapping i
        rw [h.len] at this; exact this.symm
      · have hv' : v < k := by omega
        rw [h.map_part v hv', getD_append_singleton_lt _ _ _ (by rw [h.len]; exact hv')]
    · intro x j hx
      obtain ⟨h1, v, h2, h3⟩ := h.part_lt x j hx
      exact ⟨h1, v, by omega, h3⟩
    · intro p hpc
      simp only
      rw [getD_modify _ _ _ _ hlt, hfilter _ _ _ h.len, h.rev p hpc]
      by_cases hpp : p = i
      · simp [hpp]
      · simp [hpp, Ne.symm hpp]

theorem fuLoop_inv {uf0 : UF} (h0 : uf0.Inv) : FUInv uf0 uf0.size (fuLoop uf0.size uf0) := by
  have : ∀ k, k ≤ uf0.size → FUInv uf0 k ((List.range k).foldl fuStep
      { uf := uf0, part := fun _ => none, pid := 0, mapping := [], rev := List.replicate uf0.cnt [] }) := by
    intro k
    induction k with
    | zero =>
      intro _
      refine ⟨h0, fun _ => rfl, rfl, rfl, by simp, by simp, by simp, by simp, by simp, by simp, ?_⟩
      intro p hp
      simp [hp]
    | succ k ih =>
      intro hk
      rw [List.range_succ, List.foldl_append]
      exact fuInv_step h0 (by omega) (ih (by omega))
  exact this _ (le_refl _)

/-- What the numbering loop delivers. -/
theorem fuLoop_spec {uf : UF} (h : uf.Inv) :
    (∀ u, u < uf.size → (fuLoop uf.size uf).map u < uf.cnt) ∧
    (∀ p, p < uf.cnt → ∃ u, u < uf.size ∧ (fuLoop uf.size uf).map u = p) ∧
    (∀ u v, u < uf.size → v < uf.size →
      ((fuLoop uf.size uf).map u = (fuLoop uf.size uf).map v ↔ uf.root u = uf.root v)) ∧
    (fuLoop uf.size uf).rev.length = uf.cnt ∧
    (∀ p, p < uf.cnt → (fuLoop uf.size uf).rev.getD p []
      = (List.range uf.size).filter (fun v => (fuLoop uf.size uf).map v = p)) := by
  have hi := fuLoop_inv h
  generalize fuLoop uf.size uf = s at *
  have hpid : s.pid = uf.cnt := by rw [hi.pid_card, UF.image_root_card h]
  refine ⟨?_, ?_, ?_, hi.rev_len, hi.rev⟩
  · intro u hu
    have := (hi.part_lt _ _ (hi.map_part u hu)).1
    rw [hpid] at this; exact this
  · intro p hp
    obtain ⟨x, hx⟩ := hi.part_surj p (by omega)
    obtain ⟨_, v, hv, hr⟩ := hi.part_lt x p hx
    refine ⟨v, hv, ?_⟩
    have := hi.map_part v hv
    rw [hr, hx] at this
    simpa [FUState.map] using this.symm
  · intro u v hu hv
    have h1 := hi.map_part u hu
    have h2 := hi.map_part v hv
    constructor
    · intro he
      exact hi.part_inj _ _ _ h1 (by rw [h2]; congr 1; exact he.symm)
    · intro he
      rw [he, h2] at h1
      simpa [FUState.map] using h1.symm

/-- Sum of the weights of the edges of `l` whose target is mapped to `q`. -/
def sumMap (φ : Nat → Nat) (l : List (Nat × Nat)) (q : Nat) : Nat :=
  ((l.filter (fun e => φ e.1 == q)).map (·.2)).sum

theorem sumMap_append (φ : Nat → Nat) (l l' : List (Nat × Nat)) (q : Nat) :
    sumMap φ (l ++ l') q = sumMap φ l q + sumMap φ l' q := by
  simp [sumMap]

theorem sumMap_single (φ : Nat → Nat) (e : Nat × Nat) (q : Nat) :
    sumMap φ [e] q = if φ e.1 = q then e.2 else 0 := by
  unfold sumMap
  by_cases h : φ e.1 = q <;> simp [h]

theorem collect_spec (φ : Nat → Nat) (p : Nat) (w0 : Nat → Nat) (l : List (Nat × Nat)) :
    (l.foldl (collectEdge φ p) ([], w0)).1.Nodup ∧
    (∀ q, q ∈ (l.foldl (collectEdge φ p) ([], w0)).1 → q ≠ p ∧
      (l.foldl (collectEdge φ p) ([], w0)).2 q = sumMap φ l q ∧ ∃ e ∈ l, φ e.1 = q) ∧
    (∀ q, q ≠ p → q ∉ (l.foldl (collectEdge φ p) ([], w0)).1 → sumMap φ l q = 0) := by
  induction l using List.reverseRecOn with
  | nil => simp [sumMap]
  | append_singleton l e ih =>
    obtain ⟨h1, h2, h3⟩ := ih
    rw [List.foldl_append]
    simp only [List.foldl_cons, List.foldl_nil]
    generalize l.foldl (collectEdge φ p) ([], w0) = st at *
    have hsum : ∀ q, sumMap φ (l ++ [e]) q = sumMap φ l q + if φ e.1 = q then e.2 else 0 := by
      intro q; rw [sumMap_append, sumMap_single]
    unfold collectEdge
    by_cases hz : e.2 = 0
    · rw [if_pos hz]
      have hs' : ∀ q, sumMap φ (l ++ [e]) q = sumMap φ l q := by
        intro q; rw [hsum, hz]; split <;> rfl
      refine ⟨h1, ?_, ?_⟩
      · intro q hq
        obtain ⟨a, b, x, hx, c⟩ := h2 q hq
        exact ⟨a, by rw [hs', b], x, by simp [hx], c⟩
      · intro q hq hn; rw [hs']; exact h3 q hq hn
    · rw [if_neg hz]
      simp only
      by_cases hp : φ e.1 = p
      · rw [if_pos hp]
        have hs' : ∀ q, q ≠ p → sumMap φ (l ++ [e]) q = sumMap φ l q := by
          intro q hq; rw [hsum, if_neg (by rw [hp]; exact Ne.symm hq), Nat.add_zero]
        refine ⟨h1, ?_, ?_⟩
        · intro q hq
          obtain ⟨a, b, x, hx, c⟩ := h2 q hq
          exact ⟨a, by rw [hs' q a, b], x, by simp [hx], c⟩
        · intro q hq hn; rw [hs' q hq]; exact h3 q hq hn
      · rw [if_neg hp]
        by_cases hm : φ e.1 ∈ st.1
        · rw [if_pos hm]
          refine ⟨h1, ?_, ?_⟩
          · intro q hq
            simp only at hq ⊢
            obtain ⟨a, b, x, hx, c⟩ := h2 q hq
            refine ⟨a, ?_, x, by simp [hx], c⟩
            rw [hsum]
            by_cases hqe : q = φ e.1
            · subst hqe; rw [Function.update_self, b, if_pos rfl]
            · rw [Function.update_of_ne hqe, b, if_neg (Ne.symm hqe), Nat.add_zero]
          · intro q hq hn
            have hqe : φ e.1 ≠ q := by rintro rfl; exact hn hm
            rw [hsum, if_neg hqe, h3 q hq hn]
        · rw [if_neg hm]
          refine ⟨?_, ?_, ?_⟩
          · simp only
            rw [List.nodup_append]
            refine ⟨h1, by simp, ?_⟩
            intro a ha b hb
            simp only [List.mem_singleton] at hb
            subst hb
            rintro rfl; exact hm ha
          · intro q hq
            simp only [List.mem_append, List.mem_singleton] at hq
            simp only
            by_cases hqe : q = φ e.1
            · subst hqe
              refine ⟨hp, ?_, e, by simp, rfl⟩
              rw [Function.update_self, hsum, if_pos rfl, h3 _ hp hm, Nat.zero_add]
            · rcases hq with hq | hq
              · obtain ⟨a, b, x, hx, c⟩ := h2 q hq
                refine ⟨a, ?_, x, by simp [hx], c⟩
                rw [Function.update_of_ne hqe, hsum, b, if_neg (Ne.symm hqe), Nat.add_zero]
              · exact absurd hq hqe
          · intro q hq hn
            simp only [List.mem_append, List.mem_singleton, not_or] at hn
            rw [hsum, if_neg (Ne.symm hn.2), h3 q hq hn.1]

theorem sumTo_map_perm {l : List Nat} (hl : l.Nodup) (w : Nat → Nat) (q : Nat) :
    sumTo (l.map (fun t => (t, w t))) q = if q ∈ l then w q else 0 := by
  induction l with
  | nil => simp [sumTo]
  | cons a l ih =>
    rw [List.map_cons, sumTo_cons, ih (List.nodup_cons.1 hl).2]
    have := (List.nodup_cons.1 hl).1
    by_cases h : a = q
    · subst h; simp [this]
    · simp [h, Ne.symm h]

/-- Adjacency lists written by the outer loop. -/
theorem sparseLoop_spec (G : Graph) (φ : Nat → Nat) (order : Nat → List Nat → List Nat) (ho : IsOrder order)
    (rev : List (List Nat)) (p0 : Nat) (w0 : Nat → Nat) :
    (sparseLoop G φ order p0 rev w0).length = rev.length ∧
    ∀ p, p < rev.length →
      (∀ q, q ≠ p0 + p → sumTo ((sparseLoop G φ order p0 rev w0).getD p []) q
        = sumMap φ ((rev.getD p []).flatMap G.edges) q) ∧
      (∀ e ∈ (sparseLoop G φ order p0 rev w0).getD p [], e.1 ≠ p0 + p ∧
        ∃ x ∈ (rev.getD p []).flatMap G.edges, φ x.1 = e.1) := by
  induction rev generalizing p0 w0 with
  | nil => simp [sparseLoop]
  | cons m rest ih =>
    unfold sparseLoop
    obtain ⟨h1, h2⟩ := ih (p0 + 1) (collect G φ p0 m w0).2
    refine ⟨by simp [h1], ?_⟩
    intro p hp
    cases p with
    | succ p =>
      have := h2 p (by simpa using hp)
      simpa [Nat.add_assoc, Nat.add_comm 1 p] using this
    | zero =>
      obtain ⟨c1, c2, c3⟩ := collect_spec φ p0 w0 (m.flatMap G.edges)
      have hc : collect G φ p0 m w0 = (m.flatMap G.edges).foldl (collectEdge φ p0) ([], w0) := rfl
      rw [← hc] at c1 c2 c3
      generalize collect G φ p0 m w0 = st at *
      simp only [List.getD_cons_zero, Nat.add_zero]
      have hperm := ho p0 st.1
      have hf : ((order p0 st.1).map (fun t => (t, st.2 t))).filter (fun e => e.1 ≠ p0)
          = (order p0 st.1).map (fun t => (t, st.2 t)) := by
        rw [List.filter_eq_self]
        intro e he
        obtain ⟨t, ht, rfl⟩ := List.mem_map.1 he
        have := (c2 t (hperm.mem_iff.1 ht)).1
        simpa using this
      rw [hf]
      refine ⟨?_, ?_⟩
      · intro q hq
        rw [sumTo_map_perm (hperm.nodup_iff.2 c1)]
        by_cases hqm : q ∈ st.1
        · rw [if_pos (hperm.mem_iff.2 hqm)]; exact (c2 q hqm).2.1
        · rw [if_neg (fun h => hqm (hperm.mem_iff.1 h))]; exact (c3 q hq hqm).symm
      · intro e he
        obtain ⟨t, ht, rfl⟩ := List.mem_map.1 he
        obtain ⟨a, _, x, hx, hxe⟩ := c2 t (hperm.mem_iff.1 ht)
        exact ⟨a, x, hx, hxe⟩

theorem sumMap_edges {G : Graph} (hG : G.WF) (φ : Nat → Nat) (u q : Nat) :
    sumMap φ (G.edges u) q = ∑ v ∈ range G.n, if φ v = q then G.wt u v else 0 := by
  have h := filter_sum_range ((G.edges u).filter (fun e => φ e.1 == q)) G.n
    (fun e he => hG.tgt_lt u e (List.mem_filter.1 he).1)
  unfold sumMap
  rw [h]
  refine Finset.sum_congr rfl fun v _ => ?_
  unfold Graph.wt
  rw [List.filter_filter]
  by_cases hv : φ v = q
  · rw [if_pos hv]
    congr 2
    refine List.filter_congr fun e _ => ?_
    by_cases hev : e.1 = v
    · simp [hev, hv]
    · simp [hev]
  · rw [if_neg hv]
    have : (G.edges u).filter (fun e => e.1 == v && φ e.1 == q) = [] := by
      rw [List.filter_eq_nil_iff]
      intro e _ hc
      simp only [Bool.and_eq_true, beq_iff_eq] at hc
      exact hv (by rw [← hc.1]; exact hc.2)
    rw [this]; rfl

theorem sumMap_flatMap (φ : Nat → Nat) (f : Nat → List (Nat × Nat)) (l : List Nat) (q : Nat) :
    sumMap φ (l.flatMap f) q = (l.map (fun u => sumMap φ (f u) q)).sum := by
  induction l with
  | nil => simp [sumMap]
  | cons a l ih => rw [List.flatMap_cons, sumMap_append, ih]; simp

theorem sum_filter_range (n : Nat) (P : Nat → Bool) (f : Nat → Nat) :
    (((List.range n).filter P).map f).sum = ∑ u ∈ range n, if P u = true then f u else 0 := by
  induction n with
  | zero => simp
  | succ n ih =>
    rw [List.range_succ, List.filter_append, List.map_append, List.sum_append, ih, Finset.sum_range_succ]
    congr 1
    by_cases h : P n = true <;> simp [h]

/-- Any mapping with its reverse mapping yields a quotient graph. -/
theorem contractSparse_spec {G : Graph} (hG : G.WF) (φ : Nat → Nat) (rev : List (List Nat))
    (order : Nat → List Nat → List Nat) (ho : IsOrder order)
    (hlt : ∀ u, u < G.n → φ u < rev.length)
    (hsurj : ∀ p, p < rev.length → ∃ u, u < G.n ∧ φ u = p)
    (hrev : ∀ p, p < rev.length → rev.getD p [] = (List.range G.n).filter (fun v => φ v = p)) :
    IsContraction G (contractSparse G φ rev order) φ ∧ (contractSparse G φ rev order).n = rev.length := by
  obtain ⟨hlen, hsp⟩ := sparseLoop_spec G φ order ho rev 0 (fun _ => 0)
  have hn : (contractSparse G φ rev order).n = rev.length := hlen
  have hedges : ∀ p, (contractSparse G φ rev order).edges p
      = (sparseLoop G φ order 0 rev (fun _ => 0)).getD p [] := fun p => rfl
  have hwt : ∀ p q, p < rev.length → p ≠ q → (contractSparse G φ rev order).wt p q
      = ∑ u ∈ range G.n, ∑ v ∈ range G.n, if φ u = p ∧ φ v = q then G.wt u v else 0 := by
    intro p q hp hpq
    rw [wt_eq_sumTo, hedges, (hsp p hp).1 q (by simpa using Ne.symm hpq), sumMap_flatMap, hrev p hp,
      sum_filter_range]
    refine Finset.sum_congr rfl fun u _ => ?_
    by_cases hu : φ u = p
    · simp [hu, sumMap_edges hG]
    · simp [hu]
  have hself : ∀ p, (contractSparse G φ rev order).wt p p = 0 := by
    intro p
    by_cases hp : p < rev.length
    · rw [wt_eq_sumTo, hedges]
      unfold sumTo
      have : ((sparseLoop G φ order 0 rev (fun _ => 0)).getD p []).filter (fun e => e.1 == p) = [] := by
        rw [List.filter_eq_nil_iff]
        intro e he
        have := ((hsp p hp).2 e he).1
        simpa using this
      rw [this]; rfl
    · exact Graph.wt_of_ge_left (by rw [hn]; omega)
  refine ⟨⟨fun u hu => by rw [hn]; exact hlt u hu, fun p hp => hsurj p (by rw [← hn]; exact hp), ?_, ?_⟩, hn⟩
  · refine ⟨?_, ?_, ?_⟩
    · intro p e he
      rw [hn]
      by_cases hp : p < rev.length
      · rw [hedges] at he
        obtain ⟨_, x, hx, hxe⟩ := (hsp p hp).2 e he
        obtain ⟨u, _, hxu⟩ := List.mem_flatMap.1 hx
        rw [← hxe]
        exact hlt _ (hG.tgt_lt u x hxu)
      · rw [Graph.edges_of_ge (by rw [hn]; omega)] at he; simp at he
    · intro p e he
      by_cases hp : p < rev.length
      · rw [hedges] at he
        simpa using ((hsp p hp).2 e he).1
      · rw [Graph.edges_of_ge (by rw [hn]; omega)] at he; simp at he
    · intro p q hp hq
      rw [hn] at hp hq
      by_cases hpq : p = q
      · rw [hpq]
      · rw [hwt p q hp hpq, hwt q p hq (Ne.symm hpq), Finset.sum_comm]
        refine Finset.sum_congr rfl fun u _ => Finset.sum_congr rfl fun v _ => ?_
        rw [hG.wt_symm v u]
        by_cases h1 : φ u = q <;> by_cases h2 : φ v = p <;> simp [h1, h2]
  · intro p q hp hq hpq
    rw [hn] at hp
    exact hwt p q hp hpq

theorem fromUnionFind_spec {G : Graph} (hG : G.WF) {uf : UF} (hu : uf.Inv) (hs : uf.size = G.n)
    (order : Nat → List Nat → List Nat) (ho : IsOrder order) :
    IsContraction G (fromUnionFind G uf order).1 (fromUnionFind G uf order).2 ∧
    (fromUnionFind G uf order).1.n = uf.cnt ∧
    (∀ u v, u < G.n → v < G.n →
      ((fromUnionFind G uf order).2 u = (fromUnionFind G uf order).2 v ↔ uf.root u = uf.root v)) := by
  obtain ⟨h1, h2, h3, h4, h5⟩ := fuLoop_spec hu
  rw [hs] at h1 h2 h3 h4 h5
  obtain ⟨c1, c2⟩ := contractSparse_spec hG (fuLoop G.n uf).map (fuLoop G.n uf).rev order ho
    (fun u hu => by rw [h4]; exact h1 u hu) (fun p hp => h2 p (by rw [← h4]; exact hp))
    (fun p hp => h5 p (by rw [← h4]; exact hp))
  exact ⟨c1, by rw [← h4]; exact c2, h3⟩

end VieCut

namespace VieCut
open Finset

/-- Re-indexing of a double sum along a vertex map. -/
theorem sum_sum_fiber {n m : Nat} {φ : Nat → Nat} (hφ : ∀ u, u < n → φ u < m) (c : Nat → Nat → Prop)
    [∀ a b, Decidable (c a b)] (w : Nat → Nat → Nat) :
    (∑ a ∈ range m, ∑ b ∈ range m, if c a b then
      ∑ u ∈ range n, ∑ v ∈ range n, if φ u = a ∧ φ v = b then w u v else 0 else 0) =
    ∑ u ∈ range n, ∑ v ∈ range n, if c (φ u) (φ v) then w u v else 0 := by
  have h1 : ∀ a b, (if c a b then ∑ u ∈ range n, ∑ v ∈ range n, if φ u = a ∧ φ v = b then w u v else 0 else 0) =
      ∑ u ∈ range n, ∑ v ∈ range n, if φ u = a ∧ φ v = b then (if c (φ u) (φ v) then w u v else 0) else 0 := by
    intro a b
    split
    · rename_i hc
      refine Finset.sum_congr rfl fun u _ => Finset.sum_congr rfl fun v _ => ?_
      by_cases h : φ u = a ∧ φ v = b
      · rw [if_pos h, if_pos h, if_pos (by rw [h.1, h.2]; exact hc)]
      · rw [if_neg h, if_neg h]
    · rename_i hc
      symm
      refine Finset.sum_eq_zero fun u _ => Finset.sum_eq_zero fun v _ => ?_
      by_cases h : φ u = a ∧ φ v = b
      · rw [if_pos h, if_neg (by rw [h.1, h.2]; exact hc)]
      · rw [if_neg h]
  simp only [h1]
  have h2 : ∀ a, (∑ b ∈ range m, ∑ u ∈ range n, ∑ v ∈ range n,
      if φ u = a ∧ φ v = b then (if c (φ u) (φ v) then w u v else 0) else 0) =
      ∑ u ∈ range n, if φ u = a then ∑ v ∈ range n, if c (φ u) (φ v) then w u v else 0 else 0 := by
    intro a
    rw [Finset.sum_comm]
    refine Finset.sum_congr rfl fun u _ => ?_
    by_cases hu : φ u = a
    · rw [if_pos hu, Finset.sum_comm]
      refine Finset.sum_congr rfl fun v hv => ?_
      simp only [hu, true_and]
      refine (Finset.sum_eq_single (φ v) ?_ ?_).trans (if_pos rfl)
      · intro b _ hb; rw [if_neg (Ne.symm hb)]
      · intro hb; exact absurd (mem_range.2 (hφ v (mem_range.1 hv))) hb
    · rw [if_neg hu]
      refine Finset.sum_eq_zero fun b _ => Finset.sum_eq_zero fun v _ => ?_
      rw [if_neg (fun h => hu h.1)]
  simp only [h2]
  rw [Finset.sum_comm]
  refine Finset.sum_congr rfl fun u hu => ?_
  refine (Finset.sum_eq_single (φ u) ?_ ?_).trans (if_pos rfl)
  · intro b _ hb; rw [if_neg (Ne.symm hb)]
  · intro hb; exact absurd (mem_range.2 (hφ u (mem_range.1 hu))) hb

/-- Quotients compose. -/
theorem IsContraction.comp {G H K : Graph} {φ ψ : Nat → Nat} (h1 : IsContraction G H φ) (h2 : IsContraction H K ψ) :
    IsContraction G K (fun u => ψ (φ u)) := by
  refine ⟨fun u hu => h2.lt _ (h1.lt u hu), ?_, h2.wf, ?_⟩
  · intro p hp
    obtain ⟨a, ha, rfl⟩ := h2.surj p hp
    obtain ⟨u, hu, rfl⟩ := h1.surj a ha
    exact ⟨u, hu, rfl⟩
  · intro p q hp hq hpq
    rw [h2.wt p q hp hq hpq, ← sum_sum_fiber h1.lt (fun a b => ψ a = p ∧ ψ b = q) G.wt]
    refine Finset.sum_congr rfl fun a ha => Finset.sum_congr rfl fun b hb => ?_
    by_cases h : ψ a = p ∧ ψ b = q
    · rw [if_pos h, if_pos h]
      refine h1.wt a b (mem_range.1 ha) (mem_range.1 hb) ?_
      rintro rfl
      exact hpq (h.1.symm.trans h.2)
    · rw [if_neg h, if_neg h]

theorem IsContraction.congr {G H : Graph} {φ φ' : Nat → Nat} (h : IsContraction G H φ)
    (he : ∀ u, u < G.n → φ' u = φ u) : IsContraction G H φ' := by
  refine ⟨fun u hu => by rw [he u hu]; exact h.lt u hu, ?_, h.wf, ?_⟩
  · intro p hp
    obtain ⟨u, hu, e⟩ := h.surj p hp
    exact ⟨u, hu, by rw [he u hu]; exact e⟩
  · intro p q hp hq hpq
    rw [h.wt p q hp hq hpq]
    refine Finset.sum_congr rfl fun u hu => Finset.sum_congr rfl fun v hv => ?_
    rw [he u (mem_range.1 hu), he v (mem_range.1 hv)]

end VieCut
