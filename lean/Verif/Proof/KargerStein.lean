import Verif.Proof.Inexact
import Verif.Props.NOI

/-! # Karger-Stein -/

namespace VieCut
open Finset Graph Function

theorem union_cnt (u : UF) (l r : Nat) : (u.union l r).2.cnt = if (u.union l r).1 then u.cnt - 1 else u.cnt := by
  unfold UF.union
  simp only
  split
  · split <;> rfl
  · rfl

theorem union_true {u : UF} (hu : u.Inv) (l r : Nat) : (u.union l r).1 = decide (u.root l ≠ u.root r) := by
  unfold UF.union
  simp only
  rw [UF.find_fst hu, UF.find_fst (UF.find_inv hu l), UF.find_root hu]
  split
  · rename_i h
    rw [decide_eq_true h]
    split <;> rfl
  · rename_i h
    rw [decide_eq_false h]

theorem ksHeavyEdge_inv {G : Graph} (hG : G.WF) {n : Nat} {st : UF × Nat} {e : Nat × Nat} (he : e ∈ G.edges n)
    (h : st.1.Inv ∧ st.1.size = G.n ∧ st.1.cnt = st.2 ∧ 2 ≤ st.2) :
    (ksHeavyEdge G n st e).1.Inv ∧ (ksHeavyEdge G n st e).1.size = G.n ∧
    (ksHeavyEdge G n st e).1.cnt = (ksHeavyEdge G n st e).2 ∧ 2 ≤ (ksHeavyEdge G n st e).2 := by
  obtain ⟨h1, h2, h3, h4⟩ := h
  have hn := lt_n_of_edge he
  have ht := hG.tgt_lt n e he
  unfold ksHeavyEdge
  split
  · rename_i hc
    simp only
    have i1 := UF.find_inv h1 n
    have i2 := UF.find_inv i1 e.1
    rw [UF.find_fst h1, UF.find_fst i1, UF.find_root h1]
    split
    · rename_i hne
      have ha : st.1.root n < ((st.1.find n).2.find e.1).2.size := by
        show _ < st.1.size
        exact UF.root_lt h1 (by omega)
      have hb : st.1.root e.1 < ((st.1.find n).2.find e.1).2.size := by
        show _ < st.1.size
        exact UF.root_lt h1 (by omega)
      obtain ⟨u1, u2, _⟩ := union_root i2 ha hb
      refine ⟨u1, u2.trans h2, ?_, by simp only; omega⟩
      rw [union_cnt, union_true i2, UF.find_root i1, UF.find_root i1, UF.find_root h1, UF.find_root h1,
        UF.root_root h1, UF.root_root h1, decide_eq_true hne, if_pos rfl]
      show st.1.cnt - 1 = st.2 - 1
      omega
    · exact ⟨i2, h2, h3, h4⟩
  · exact ⟨h1, h2, h3, h4⟩

theorem mem_edgeList {G : Graph} {a b : Nat} (h : (a, b) ∈ edgeList G) : ∃ w, (b, w) ∈ G.edges a := by
  unfold edgeList at h
  rw [List.mem_flatMap] at h
  obtain ⟨u, _, h⟩ := h
  rw [List.mem_map] at h
  obtain ⟨e, he, h⟩ := h
  rw [Prod.mk.injEq] at h
  obtain ⟨rfl, rfl⟩ := h
  exact ⟨e.2, he⟩

theorem ksSample_inv {G : Graph} (hG : G.WF) {rnd : Nat → Nat} {P : UF → Prop}
    (hP : ∀ uf : UF, uf.Inv → uf.size = G.n → P uf → ∀ a b w, (b, w) ∈ G.edges a → P (uf.union a b).2) (f : Nat) :
    ∀ (i need : Nat) (uf uf' : UF), ksSample G rnd f i need uf = some uf' → uf.Inv ∧ uf.size = G.n → need ≤ uf.cnt →
      P uf → uf'.Inv ∧ uf'.size = G.n ∧ uf'.cnt = uf.cnt - need ∧ P uf' := by
  induction f with
  | zero =>
    intro i need uf uf' h hu hn hp
    unfold ksSample at h
    split at h
    · simp only [Option.some.injEq] at h; subst h
      exact ⟨hu.1, hu.2, by omega, hp⟩
    · simp at h
  | succ f ih =>
    intro i need uf uf' h hu hn hp
    unfold ksSample at h
    split at h
    · simp only [Option.some.injEq] at h; subst h
      exact ⟨hu.1, hu.2, by omega, hp⟩
    · split at h
      · simp at h
      · rename_i h0 hl
        simp only at h
        have hlt : rnd i % (edgeList G).length < (edgeList G).length := Nat.mod_lt _ (by omega)
        have hmem : (edgeList G).getD (rnd i % (edgeList G).length) (0, 0) ∈ edgeList G := by
          rw [List.getD_eq_getElem?_getD, List.getElem?_eq_getElem hlt]
          exact List.getElem_mem hlt
        generalize (edgeList G).getD (rnd i % (edgeList G).length) (0, 0) = e at *
        obtain ⟨w, hw⟩ := mem_edgeList (a := e.1) (b := e.2) hmem
        have ha := lt_n_of_edge hw
        have hb := hG.tgt_lt _ _ hw
        obtain ⟨u1, u2, _⟩ := union_root hu.1 (l := e.1) (r := e.2) (by omega) (by rw [hu.2]; exact hb)
        have hc := union_cnt uf e.1 e.2
        have hp' := hP uf hu.1 hu.2 hp e.1 e.2 w hw
        cases hb1 : (uf.union e.1 e.2).1 with
        | true =>
          rw [hb1] at hc h
          simp only [if_true] at hc h
          obtain ⟨k1, k2, k3, k4⟩ := ih _ _ _ _ h ⟨u1, u2.trans hu.2⟩ (by omega) hp'
          exact ⟨k1, k2, by omega, k4⟩
        | false =>
          rw [hb1] at hc h
          simp only [Bool.false_eq_true, if_false] at hc h
          obtain ⟨k1, k2, k3, k4⟩ := ih _ _ _ _ h ⟨u1, u2.trans hu.2⟩ (by omega) hp'
          exact ⟨k1, k2, by omega, k4⟩

theorem ksPartition_inv {G : Graph} (hG : G.WF) (hn : 2 ≤ G.n) {top : Bool} {rnd : Nat → Nat} {f : Nat} {uf : UF}
    (h : ksPartition G top rnd f = some uf) :
    uf.Inv ∧ uf.size = G.n ∧ 2 ≤ uf.cnt ∧ (2 < G.n → uf.cnt < G.n) := by
  unfold ksPartition at h
  simp only at h
  have hst : ∀ st : UF × Nat, st = (if top then (UF.mk' G.n, G.n) else
      (List.range G.n).foldl (fun st n => (G.edges n).foldl (ksHeavyEdge G n) st) (UF.mk' G.n, G.n)) →
      st.1.Inv ∧ st.1.size = G.n ∧ st.1.cnt = st.2 ∧ 2 ≤ st.2 := by
    rintro st rfl
    have h0 : (UF.mk' G.n).Inv ∧ (UF.mk' G.n).size = G.n ∧ (UF.mk' G.n).cnt = G.n ∧ 2 ≤ G.n :=
      ⟨UF.init_inv _, rfl, rfl, hn⟩
    split
    · exact h0
    · refine foldl_inv (P := fun st : UF × Nat => st.1.Inv ∧ st.1.size = G.n ∧ st.1.cnt = st.2 ∧ 2 ≤ st.2) _
        (fun s n _ hs => ?_) _ h0
      exact foldl_inv (P := fun st : UF × Nat => st.1.Inv ∧ st.1.size = G.n ∧ st.1.cnt = st.2 ∧ 2 ≤ st.2) _
        (fun s e he hs => ksHeavyEdge_inv hG he hs) _ hs
  specialize hst _ rfl
  generalize (if top then (UF.mk' G.n, G.n) else
      (List.range G.n).foldl (fun st n => (G.edges n).foldl (ksHeavyEdge G n) st) (UF.mk' G.n, G.n)) = st at *
  obtain ⟨h1, h2, h3, h4⟩ := hst
  obtain ⟨k1, k2, k3, _⟩ := ksSample_inv hG (P := fun _ => True) (fun _ _ _ _ _ _ _ _ => trivial) f 0 _ _ _ h ⟨h1, h2⟩
    (by omega) trivial
  have hle : st.1.cnt ≤ G.n := by
    rw [← UF.image_root_card h1]
    exact le_trans card_image_le (by simp [h2])
  exact ⟨k1, k2, by omega, by omega⟩

theorem ksRecurse_attained {cfg : Nat → NOICfg} {rnd : Nat → Nat → Nat} {ord : Nat → Nat → Nat → List Nat → List Nat}
    {sf N B : Nat} (hfit : ∀ p, PQFits (cfg p).kind N B) (hord : ∀ p l, IsOrder (ord p l)) (hB : B < 2 ^ 64) (f : Nat) :
    ∀ (path : Nat) (top : Bool) (iter : Nat) (G : Graph) (v : Nat), G.WF → 2 ≤ G.n → G.n ≤ N → G.totalWeight ≤ B →
    ksRecurse cfg rnd ord sf f path top iter G = some v →
    ∃ S, ProperCut G.n S ∧ cutValue G.n G.wt S = v := by
  induction f with
  | zero => intro path top iter G v _ _ _ _ h; simp [ksRecurse] at h
  | succ f ih =>
    intro path top iter G v hG hn hN hT h
    unfold ksRecurse at h
    rw [Option.bind_eq_some_iff] at h
    obtain ⟨uf, huf, h⟩ := h
    obtain ⟨k1, k2, k3, _⟩ := ksPartition_inv hG hn huf
    obtain ⟨c1, c2, _⟩ := fromUnionFind_spec hG k1 k2 (ord path 0) (hord path 0)
    simp only at h
    generalize hG2 : (fromUnionFind G uf (ord path 0)).1 = G2 at *
    have hle := c1.le_n
    have htot := c1.total_le hG
    suffices ∃ S, ProperCut G2.n S ∧ cutValue G2.n G2.wt S = v by
      obtain ⟨S, s1, s2⟩ := this
      exact ⟨_, c1.proper s1, by rw [← c1.cut]; exact s2⟩
    split at h
    · rw [Option.bind_eq_some_iff] at h
      obtain ⟨w1, hw1, h⟩ := h
      rw [Option.map_eq_some_iff] at h
      obtain ⟨w2, hw2, rfl⟩ := h
      rcases le_total w1 w2 with hmin | hmin
      · rw [min_eq_left hmin]
        exact ih _ _ _ _ _ c1.wf (by omega) (by omega) (by omega) hw1
      · rw [min_eq_right hmin]
        exact ih _ _ _ _ _ c1.wf (by omega) (by omega) (by omega) hw2
    · simp only [Option.some.injEq] at h
      have hmd : G2.minDegree ≤ B := le_trans (minDegree_le (show 0 < G2.n by omega))
        (le_trans (c1.deg_le hG (by omega)) hT)
      have hex := C02_noi_exact G2 c1.wf (by omega) (by omega) (cfg path)
        ((hfit path).mono (by omega) (by split <;> omega)) (fun l => ord path (l + 1)) (fun l => hord path (l + 1))
      rw [h] at hex
      exact hex.1

theorem ksLoop_attained {cfg : Nat → Nat → NOICfg} {rnd : Nat → Nat → Nat}
    {ord : Nat → Nat → Nat → Nat → List Nat → List Nat} {sf optimal : Nat} {G : Graph} (hG : G.WF) (hn : 2 ≤ G.n)
    (hb : G.totalWeight < 2 ^ 64) (hfit : ∀ i p, PQFits (cfg i p).kind G.n G.totalWeight)
    (hord : ∀ i p l, IsOrder (ord i p l)) (f : Nat) :
    ∀ (i m v : Nat), ksLoop cfg rnd ord sf optimal G f i m = some v →
      (∃ S, ProperCut G.n S ∧ cutValue G.n G.wt S = m) ∨ (i = 0 ∧ optimal < m ∧ G.totalWeight < m) →
      ∃ S, ProperCut G.n S ∧ cutValue G.n G.wt S = v := by
  induction f with
  | zero => intro i m v h; simp [ksLoop] at h
  | succ f ih =>
    intro i m v h hm
    unfold ksLoop at h
    split at h
    · rw [Option.bind_eq_some_iff] at h
      obtain ⟨c, hc, h⟩ := h
      obtain ⟨S, s1, s2⟩ := ksRecurse_attained (hfit i) (hord i) hb _ _ _ _ _ _ hG hn (le_refl _) (le_refl _) hc
      refine ih _ _ _ h (Or.inl ?_)
      rcases hm with ⟨T, t1, t2⟩ | ⟨_, _, hm⟩
      · rcases le_total m c with h' | h'
        · rw [min_eq_left h']; exact ⟨T, t1, t2⟩
        · rw [min_eq_right h']; exact ⟨S, s1, s2⟩
      · have := cutValue_le_total hG S
        rw [min_eq_right (by omega)]; exact ⟨S, s1, s2⟩
    · rename_i hc
      simp only [Option.some.injEq] at h
      subst h
      rcases hm with hm | ⟨rfl, ho, _⟩
      · exact hm
      · exact absurd ⟨by simp; omega, ho⟩ hc

/-- A run that fails for want of recursion depth does not occur: more depth changes nothing. -/
theorem ksRecurse_depth {cfg : Nat → NOICfg} {rnd : Nat → Nat → Nat} {ord : Nat → Nat → Nat → List Nat → List Nat}
    {sf : Nat} (hord : ∀ p l, IsOrder (ord p l)) (f : Nat) :
    ∀ (k path : Nat) (top : Bool) (iter : Nat) (G : Graph), G.WF → 2 ≤ G.n → G.n ≤ f →
    ksRecurse cfg rnd ord sf (f + k) path top iter G = ksRecurse cfg rnd ord sf f path top iter G := by
  induction f with
  | zero => intro k path top iter G _ h1 h2; omega
  | succ f ih =>
    intro k path top iter G hG hn hf
    rw [Nat.add_right_comm]
    unfold ksRecurse
    cases huf : ksPartition G top (rnd iter) sf with
    | none => rfl
    | some uf =>
      simp only [Option.bind_some]
      obtain ⟨k1, k2, k3, k4⟩ := ksPartition_inv hG hn huf
      obtain ⟨c1, c2, _⟩ := fromUnionFind_spec hG k1 k2 (ord path 0) (hord path 0)
      generalize (fromUnionFind G uf (ord path 0)).1 = G2 at *
      split
      · have hle := c1.le_n
        rw [ih k _ _ _ _ c1.wf (by omega) (by omega), ih k _ _ _ _ c1.wf (by omega) (by omega)]
      · rfl

end VieCut
