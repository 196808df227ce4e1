import Verif.Proof.ChainCost
import Verif.Proof.CactusOps
import Verif.Model.STCactus
import Mathlib.Data.List.GetD

/-!
# The edges of one cycle in `findSTCactus`
-/

namespace VieCut
open Finset MGraph Function

namespace STCactus

/-- The vertices that are not in `vis` have no edges yet. -/
structure EInv (Q : Nat → Prop) (st : MGraph) (vis : List Nat) : Prop where
  valid : Valid st
  simple : Simple st []
  allw : AllW Q st
  fresh : ∀ v, v < st.n → v ∉ vis → ∀ x, st.cnt v x = 0

variable {Q : Nat → Prop} {st : MGraph} {vis : List Nat}

/-- An edge to a new vertex. -/
theorem EInv.edge (h : EInv Q st vis) {s t w : Nat} (hs : s ∈ vis) (hsn : s < st.n) (ht : t ∉ vis) (htn : t < st.n) (hw : Q w) :
    EInv Q (st.newEdgeOrder s t w) (t :: vis) ∧ (∀ X, (st.newEdgeOrder s t w).cv X = st.cv X + if X s = X t then 0 else w) ∧
    (st.newEdgeOrder s t w).fr = st.fr ∧
    ∀ a b, (st.newEdgeOrder s t w).cnt a b = st.cnt a b + if (a = s ∧ b = t) ∨ (a = t ∧ b = s) then 1 else 0 := by
  have hst : s ≠ t := fun e => ht (e ▸ hs)
  obtain ⟨b1, -, b3⟩ := newEdgeOrder_all h.valid hst hsn htn w
  have hcnt := fun a b => cnt_newEdge h.valid hst hsn htn w a b
  have h0 : st.cnt s t = 0 := by
    rw [h.valid.cnt_symm hsn (by simp) htn (by simp)]; exact h.fresh t htn ht s
  refine ⟨⟨b1, simple_newEdge h.valid h.simple hst hsn htn h0 w, allW_newEdge h.valid h.allw hst hsn htn hw, fun v hv hvv x => ?_⟩, b3,
    newEdgeOrder_fr _ _ _ _, hcnt⟩
  rw [(fr_eq (newEdgeOrder_fr st s t w)).1] at hv
  rw [List.mem_cons, not_or] at hvv
  rw [hcnt, h.fresh v hv hvv.2, if_neg]
  rintro (⟨rfl, -⟩ | ⟨rfl, -⟩)
  · exact hvv.2 hs
  · exact hvv.1 rfl

/-- An edge between two vertices that are not neighbours. -/
theorem EInv.close (h : EInv Q st vis) {s t w : Nat} (hst : s ≠ t) (hs : s ∈ vis) (hsn : s < st.n) (ht : t ∈ vis) (htn : t < st.n) (h0 : st.cnt s t = 0)
    (hw : Q w) :
    EInv Q (st.newEdgeOrder s t w) vis ∧ (∀ X, (st.newEdgeOrder s t w).cv X = st.cv X + if X s = X t then 0 else w) ∧
    (st.newEdgeOrder s t w).fr = st.fr := by
  obtain ⟨b1, -, b3⟩ := newEdgeOrder_all h.valid hst hsn htn w
  refine ⟨⟨b1, simple_newEdge h.valid h.simple hst hsn htn h0 w, allW_newEdge h.valid h.allw hst hsn htn hw, fun v hv hvv x => ?_⟩, b3,
    newEdgeOrder_fr _ _ _ _⟩
  rw [(fr_eq (newEdgeOrder_fr st s t w)).1] at hv
  rw [cnt_newEdge h.valid hst hsn htn, h.fresh v hv hvv, if_neg]
  rintro (⟨rfl, -⟩ | ⟨rfl, -⟩)
  · exact hvv hs
  · exact hvv ht

theorem EInv.empty (h : EInv Q st vis) (hr : st.lastNode = st.n) : EInv Q st.newEmptyNode vis := by
  obtain ⟨a1, a2, _, _, _, _, _, a8, a9, _, _⟩ := newEmpty_all h.valid hr
  refine ⟨a1, simple_newEmpty h.valid hr h.simple, allW_newEmpty h.valid hr h.allw, fun v hv hvv x => ?_⟩
  rw [a2] at hv
  by_cases hvn : v = st.n
  · subst hvn; exact a9 _
  · exact (a8 _ v (by omega)).trans (h.fresh v (by omega) hvv x)

theorem changes_snoc {X : Nat → Bool} (y z : Nat) : ∀ l : List Nat, changes X (l ++ [y, z]) = changes X (l ++ [y]) + if X y = X z then 0 else 1 := by
  intro l
  induction l with
  | nil => show changes X [y, z] = changes X [y] + _; rw [changes_cc, changes_one, changes_one]; omega
  | cons a l ih =>
    cases l with
    | nil => show changes X [a, y, z] = changes X [a, y] + _; simp only [changes_cc, changes_one]; omega
    | cons b l =>
      simp only [List.cons_append] at ih ⊢
      rw [changes_cc, changes_cc, ih]; omega

theorem changes_take {X : Nat → Bool} {p : Nat} {A : List Nat} {j : Nat} (hj : j < A.length) :
    changes X (p :: A.take (j + 1)) = changes X (p :: A.take j) + if X (if j > 0 then A.getD (j - 1) 0 else p) = X (A.getD j 0) then 0 else 1 := by
  cases j with
  | zero =>
    cases A with
    | nil => simp at hj
    | cons a A => simp [changes]
  | succ j =>
    have e1 : A.getD j 0 = A[j]'(by omega) := List.getD_eq_getElem _ _ _
    have e2 : A.getD (j + 1) 0 = A[j + 1]'hj := List.getD_eq_getElem _ _ _
    have := changes_snoc (X := X) (A[j]'(by omega)) (A[j + 1]'hj) (p :: A.take j)
    have h0 : j + 1 > 0 := by omega
    simp only [h0, if_true, Nat.add_sub_cancel]
    rw [e1, e2, List.take_succ_eq_append_getElem hj, List.take_succ_eq_append_getElem (show j < A.length by omega)]
    rw [List.append_assoc]
    exact this

variable {c i : Nat} {L : Layout}

/-- The edges of a cycle except the last ones. -/
theorem cycle_path {A : List Nat} {s : Build} (hA : L.A.getD s.a [] = A) (h : EInv Q s.st vis) (hQ : Q (c / 2)) (hp : s.previous ∈ vis)
    (hpn : s.previous < s.st.n) (hnd : A.Nodup) (hlt : ∀ x ∈ A, x < s.st.n) (hvis : ∀ x ∈ A, x ∉ vis) :
    ∀ j, j < A.length → ∃ g : MGraph, (List.range j).foldl (fun (x : Build) j =>
        let st := if j > 0 then x.st.newEdgeOrder (A.getD (j - 1) 0) (A.getD j 0) (c / 2)
          else x.st.newEdgeOrder x.previous (A.getD 0 0) (c / 2)
        if j = A.length - 1 then
          let next := if L.ord.getD (i + 1) false then st.lastNode else L.B.getD x.b 0
          let st := if L.ord.getD (i + 1) false then st.newEmptyNode else st
          { x with st := (st.newEdgeOrder (A.getD j 0) next (c / 2)).newEdgeOrder x.previous next (c / 2), previous := next }
        else { x with st := st }) s = { s with st := g } ∧ g.fr = s.st.fr ∧ EInv Q g ((A.take j).reverse ++ vis) ∧
        ∀ X, g.cv X = s.st.cv X + (c / 2) * changes X (s.previous :: A.take j) := by
  intro j
  induction j with
  | zero =>
    intro _
    refine ⟨s.st, rfl, rfl, by simpa using h, fun X => ?_⟩
    simp [changes_one]
  | succ j ih =>
    intro hj
    obtain ⟨g, g1, g2, g3, g4⟩ := ih (by omega)
    rw [List.range_succ, List.foldl_append, g1]
    simp only [List.foldl_cons, List.foldl_nil]
    rw [if_neg (by omega)]
    have hn := (fr_eq g2).1
    -- the new edge
    have hsrc : (if j > 0 then A.getD (j - 1) 0 else s.previous) ∈ (A.take j).reverse ++ vis ∧ (if j > 0 then A.getD (j - 1) 0 else s.previous) < g.n := by
      split
      · have e1 : A.getD (j - 1) 0 = A[j - 1]'(by omega) := List.getD_eq_getElem _ _ _
        rw [e1]
        refine ⟨List.mem_append_left _ (List.mem_reverse.2 ?_), by rw [hn]; exact hlt _ (List.getElem_mem _)⟩
        exact List.mem_take_iff_getElem.2 ⟨j - 1, by omega, rfl⟩
      · exact ⟨List.mem_append_right _ hp, by rw [hn]; exact hpn⟩
    have e2 : A.getD j 0 = A[j]'(by omega) := List.getD_eq_getElem _ _ _
    have htgt : A.getD j 0 ∉ (A.take j).reverse ++ vis := by
      rw [e2, List.mem_append, not_or, List.mem_reverse]
      refine ⟨fun hm => ?_, hvis _ (List.getElem_mem _)⟩
      obtain ⟨a, ha, hab⟩ := List.mem_take_iff_getElem.1 hm
      have := (List.Nodup.getElem_inj_iff hnd).1 hab
      omega
    obtain ⟨q1, q2, q3, q4⟩ := g3.edge (w := c / 2) hsrc.1 hsrc.2 htgt (by rw [hn, e2]; exact hlt _ (List.getElem_mem _)) hQ
    have hst : (if j > 0 then g.newEdgeOrder (A.getD (j - 1) 0) (A.getD j 0) (c / 2) else g.newEdgeOrder s.previous (A.getD 0 0) (c / 2)) =
        g.newEdgeOrder (if j > 0 then A.getD (j - 1) 0 else s.previous) (A.getD j 0) (c / 2) := by
      split
      · rfl
      · rename_i h0
        have : j = 0 := by omega
        subst this; rfl
    refine ⟨_, by rw [hst], q3.trans g2, ?_, fun X => ?_⟩
    · convert q1 using 1
      rw [List.take_succ_eq_append_getElem (show j < A.length by omega), e2, List.reverse_append]
      rfl
    · rw [q2, g4, changes_take (by omega), Nat.mul_add, Nat.add_assoc]
      congr 2
      split <;> simp

/-- The edges of a cycle. -/
theorem makeCycle_spec {A : List Nat} {s : Build} {q : Nat} (hA : L.A.getD s.a [] = A) (h : EInv Q s.st vis) (hr : s.st.lastNode = s.st.n) (hQ : Q (c / 2))
    (hp : s.previous ∈ vis) (hpn : s.previous < s.st.n) (hne : A ≠ []) (hnd : A.Nodup) (hlt : ∀ x ∈ A, x < s.st.n) (hvis : ∀ x ∈ A, x ∉ vis)
    (hvl : ∀ x ∈ vis, x < s.st.n)
    (hq : q = if L.ord.getD (i + 1) false then s.st.n else L.B.getD s.b 0)
    (hB : L.ord.getD (i + 1) false = false → q < s.st.n ∧ q ∉ vis ∧ q ∉ A) :
    ∃ g g' : MGraph, makeCycle c L i s = { st := g, previous := q, a := s.a + 1, b := s.b } ∧ EInv Q g (q :: (A.reverse ++ vis)) ∧
      (∀ X, g.cv X = s.st.cv X + segCost c X s.previous A q) ∧
      g'.fr = s.st.fr ∧ g.fr = (if L.ord.getD (i + 1) false then g'.newEmptyNode else g').fr ∧ Valid g' := by
  have hlen : 0 < A.length := List.length_pos_iff.2 hne
  obtain ⟨g, g1, g2, g3, g4⟩ := cycle_path (i := i) hA h hQ hp hpn hnd hlt hvis (A.length - 1) (by omega)
  have hn := (fr_eq g2).1
  have hrl := (fr_eq g2).2.1
  -- the last vertex of the list
  have hsrc : (if A.length - 1 > 0 then A.getD (A.length - 1 - 1) 0 else s.previous) ∈ (A.take (A.length - 1)).reverse ++ vis ∧
      (if A.length - 1 > 0 then A.getD (A.length - 1 - 1) 0 else s.previous) < g.n := by
    split
    · have e1 : A.getD (A.length - 1 - 1) 0 = A[A.length - 1 - 1]'(by omega) := List.getD_eq_getElem _ _ _
      rw [e1]
      refine ⟨List.mem_append_left _ (List.mem_reverse.2 ?_), by rw [hn]; exact hlt _ (List.getElem_mem _)⟩
      exact List.mem_take_iff_getElem.2 ⟨A.length - 1 - 1, by omega, rfl⟩
    · exact ⟨List.mem_append_right _ hp, by rw [hn]; exact hpn⟩
  have e2 : A.getD (A.length - 1) 0 = A[A.length - 1]'(by omega) := List.getD_eq_getElem _ _ _
  have htgt : A.getD (A.length - 1) 0 ∉ (A.take (A.length - 1)).reverse ++ vis := by
    rw [e2, List.mem_append, not_or, List.mem_reverse]
    refine ⟨fun hm => ?_, hvis _ (List.getElem_mem _)⟩
    obtain ⟨a, ha, hab⟩ := List.mem_take_iff_getElem.1 hm
    have := (List.Nodup.getElem_inj_iff hnd).1 hab
    omega
  obtain ⟨q1, q2, q3, q4⟩ := g3.edge (w := c / 2) hsrc.1 hsrc.2 htgt (by rw [hn, e2]; exact hlt _ (List.getElem_mem _)) hQ
  have hst : (if A.length - 1 > 0 then g.newEdgeOrder (A.getD (A.length - 1 - 1) 0) (A.getD (A.length - 1) 0) (c / 2)
      else g.newEdgeOrder s.previous (A.getD 0 0) (c / 2)) =
      g.newEdgeOrder (if A.length - 1 > 0 then A.getD (A.length - 1 - 1) 0 else s.previous) (A.getD (A.length - 1) 0) (c / 2) := by
    split
    · rfl
    · rename_i h0
      have : A.length - 1 = 0 := by omega
      rw [this]
  have hsplit : A = A.take (A.length - 1) ++ [A[A.length - 1]'(by omega)] := by
    have h1 := List.take_succ_eq_append_getElem (show A.length - 1 < A.length by omega)
    rw [← h1, show A.length - 1 + 1 = A.length by omega, List.take_length]
  have hlist : A.getD (A.length - 1) 0 :: ((A.take (A.length - 1)).reverse ++ vis) = A.reverse ++ vis := by
    have : A.reverse = A[A.length - 1]'(by omega) :: (A.take (A.length - 1)).reverse := by
      rw [congrArg List.reverse hsplit, List.reverse_append]; simp
    rw [this, e2]; rfl
  have hch : ∀ X, (c / 2) * changes X (s.previous :: A.take (A.length - 1)) +
      (if X (if A.length - 1 > 0 then A.getD (A.length - 1 - 1) 0 else s.previous) = X (A.getD (A.length - 1) 0) then 0 else c / 2) =
      (c / 2) * changes X (s.previous :: A) := by
    intro X
    have := changes_take (X := X) (p := s.previous) (A := A) (j := A.length - 1) (by omega)
    rw [show A.length - 1 + 1 = A.length by omega, List.take_length] at this
    rw [this, Nat.mul_add]
    split <;> simp
  generalize hg1 : g.newEdgeOrder (if A.length - 1 > 0 then A.getD (A.length - 1 - 1) 0 else s.previous) (A.getD (A.length - 1) 0) (c / 2) = g1' at *
  rw [hlist] at q1
  have hn1 : g1'.n = s.st.n := (fr_eq (q3.trans g2)).1
  have hr1 : g1'.lastNode = g1'.n := by rw [(fr_eq (q3.trans g2)).2.1, hn1]; exact hr
  -- the graph with the next vertex
  obtain ⟨G, hG, hGE, hGc, hGn, hqn, hqv⟩ : ∃ G, (if L.ord.getD (i + 1) false then g1'.newEmptyNode else g1') = G ∧ EInv Q G (A.reverse ++ vis) ∧
      (∀ X, G.cv X = g1'.cv X) ∧ s.st.n ≤ G.n ∧ q < G.n ∧ q ∉ A.reverse ++ vis := by
    cases ho : L.ord.getD (i + 1) false with
    | false =>
      rw [ho] at hq
      obtain ⟨b1, b2, b3⟩ := hB ho
      refine ⟨g1', rfl, q1, fun _ => rfl, by omega, by omega, ?_⟩
      rw [List.mem_append, List.mem_reverse]; tauto
    | true =>
      rw [ho] at hq
      obtain ⟨a1, a2, _, _, _, _, _, a8, a9, a10, _⟩ := newEmpty_all q1.valid hr1
      simp only [if_true] at hq
      refine ⟨g1'.newEmptyNode, rfl, q1.empty hr1, a10, by omega, by omega, ?_⟩
      rw [List.mem_append, List.mem_reverse, not_or]
      constructor
      · intro hm; have := hlt q hm; omega
      · intro hm; have := hvl q hm; omega
  have hnext : (if L.ord.getD (i + 1) false then g1'.lastNode else L.B.getD s.b 0) = q := by
    rw [hr1, hn1]; exact hq.symm
  have hAlast : A.getD (A.length - 1) 0 ∈ A := by rw [e2]; exact List.getElem_mem _
  obtain ⟨r1, r2, r3, r4⟩ := hGE.edge (w := c / 2) (s := A.getD (A.length - 1) 0) (List.mem_append_left _ (List.mem_reverse.2 hAlast))
    (by have := hlt _ hAlast; omega) hqv hqn hQ
  have hpv : s.previous ∈ A.reverse ++ vis := List.mem_append_right _ hp
  have hpA : s.previous ≠ A.getD (A.length - 1) 0 := fun e => hvis _ hAlast (e ▸ hp)
  have hpq : s.previous ≠ q := fun e => hqv (e ▸ hpv)
  have h0 : (G.newEdgeOrder (A.getD (A.length - 1) 0) q (c / 2)).cnt s.previous q = 0 := by
    rw [r4, if_neg, Nat.add_zero, hGE.valid.cnt_symm (by omega) (by simp) hqn (by simp)]
    · exact hGE.fresh q hqn hqv _
    · rintro (⟨e, -⟩ | ⟨e, -⟩)
      · exact hpA e
      · exact hpq e
  have hrn : (G.newEdgeOrder (A.getD (A.length - 1) 0) q (c / 2)).n = G.n := (fr_eq r3).1
  obtain ⟨t1, t2, t3⟩ := r1.close (w := c / 2) hpq (List.mem_cons_of_mem _ hpv) (by rw [hrn]; omega) List.mem_cons_self (by rw [hrn]; exact hqn) h0 hQ
  refine ⟨_, g1', ?_, t1, fun X => ?_, q3.trans g2, ?_, q1.valid⟩
  · unfold makeCycle
    dsimp only
    rw [hA]
    conv_lhs => rw [show A.length = (A.length - 1) + 1 by omega]
    rw [List.range_succ, List.foldl_append]
    have hre : A.length - 1 + 1 - 1 = A.length - 1 := by omega
    simp only [hre]
    rw [g1]
    simp only [List.foldl_cons, List.foldl_nil]
    simp only [if_true]
    rw [hst, hnext, hG]
  · rw [t2, r2, hGc, q2, g4]
    have hc := hch X
    unfold segCost
    rw [if_neg hne]
    have hs : changes X (s.previous :: (A ++ [q])) = changes X (s.previous :: A) + if X (A.getD (A.length - 1) 0) = X q then 0 else 1 := by
      have h1 := changes_snoc (X := X) (A[A.length - 1]'(by omega)) q (s.previous :: A.take (A.length - 1))
      have h2 : s.previous :: (A ++ [q]) = s.previous :: A.take (A.length - 1) ++ [A[A.length - 1]'(by omega), q] :=
        (congrArg (fun l => s.previous :: (l ++ [q])) hsplit).trans (by simp only [List.append_assoc, List.cons_append, List.nil_append])
      have h3 : s.previous :: A = s.previous :: A.take (A.length - 1) ++ [A[A.length - 1]'(by omega)] := congrArg (s.previous :: ·) hsplit
      rw [e2, h2, h1, ← h3]
    rw [hs, Nat.mul_add, Nat.mul_add, ← hc]
    split <;> split <;> split <;> simp <;> omega
  · rw [hG]
    exact t3.trans r3

end STCactus
end VieCut
