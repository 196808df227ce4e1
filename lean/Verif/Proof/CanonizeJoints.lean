import Verif.Proof.CanonizeContract

/-!
# New vertices between the two vertices of a pair
-/

namespace VieCut
open Function Finset MGraph

namespace GraphModification

/-- The new vertices with the two vertices they are joined to. -/
def joints : Nat → List (Nat × Nat) → List (Nat × Nat × Nat)
  | _, [] => []
  | n, p :: ps => (n, p.1, p.2) :: joints (n + 1) ps

/-- Cost of the edges of a joint. -/
def jcost (h : Nat) (X : Nat → Bool) (j : Nat × Nat × Nat) : Nat :=
  (if X j.1 = X j.2.1 then 0 else h) + if X j.1 = X j.2.2 then 0 else h

theorem joints_length (n : Nat) (ps : List (Nat × Nat)) : (joints n ps).length = ps.length := by
  induction ps generalizing n with
  | nil => rfl
  | cons p ps ih => simp [joints, ih]

theorem joints_mem {n : Nat} {ps : List (Nat × Nat)} {j : Nat × Nat × Nat} (hj : j ∈ joints n ps) :
    n ≤ j.1 ∧ j.1 < n + ps.length ∧ j.2 ∈ ps := by
  induction ps generalizing n with
  | nil => simp [joints] at hj
  | cons p ps ih =>
    simp only [joints, List.mem_cons, List.length_cons] at hj ⊢
    rcases hj with rfl | hj
    · exact ⟨le_refl _, by simp, Or.inl rfl⟩
    · obtain ⟨h1, h2, h3⟩ := ih hj
      exact ⟨by omega, by omega, Or.inr h3⟩

theorem joints_at {n : Nat} {ps : List (Nat × Nat)} {x : Nat} (h1 : n ≤ x) (h2 : x < n + ps.length) : ∃ j ∈ joints n ps, j.1 = x := by
  induction ps generalizing n with
  | nil => simp at h2; omega
  | cons p ps ih =>
    simp only [List.length_cons] at h2
    by_cases hx : x = n
    · exact ⟨_, List.mem_cons_self, hx.symm⟩
    · obtain ⟨j, j1, j2⟩ := ih (n := n + 1) (by omega) (by omega)
      exact ⟨j, List.mem_cons_of_mem _ j1, j2⟩

theorem joints_fst {n : Nat} {ps : List (Nat × Nat)} : ((joints n ps).map (·.1)).Nodup := by
  induction ps generalizing n with
  | nil => simp [joints]
  | cons p ps ih =>
    simp only [joints, List.map_cons, List.nodup_cons]
    refine ⟨fun hh => ?_, ih⟩
    obtain ⟨j, j1, j2⟩ := List.mem_map.1 hh
    have := (joints_mem j1).1
    omega

/-- `A` comes from `g` by adding the joints of `ps`. -/
structure WithJoints (c : Nat) (g : MGraph) (ps : List (Nat × Nat)) (A : MGraph) : Prop where
  valid : Valid A
  n : A.n = g.n + ps.length
  last : A.lastNode = A.n
  csize : A.contSize = g.contSize + ps.length
  pos : A.pos = g.pos
  cont : g.n ≤ g.contSize → ∀ p, p < g.n → A.cont p = g.cont p
  clean : g.n ≤ g.contSize → Clean g → ∀ p, g.n ≤ p → p < A.contSize → A.cont p = []
  cv : ∀ X, A.cv X = g.cv X + ((joints g.n ps).map (jcost (c / 2) X)).sum
  simple : Simple A []
  allW : ∀ Q : Nat → Prop, Q (c / 2) → AllW Q g → AllW Q A
  cntOld : ∀ x y, x < g.n → y < g.n → A.cnt x y = g.cnt x y
  cntNew : ∀ j ∈ joints g.n ps, ∀ x, x < A.n → x ≠ j.2.1 → x ≠ j.2.2 → A.cnt j.1 x = 0
  row : ∀ f v, v < g.n → (∀ p ∈ ps, p.1 ≠ v ∧ p.2 ≠ v) → rowSum A f v = rowSum g f v

theorem addBetween_spec {g : MGraph} (hg : Valid g) (hs : Simple g []) (hr : g.lastNode = g.n) (c : Nat) (L : List Nat) {p : Nat × Nat}
    (h1 : p.1 < g.n) (h2 : p.2 < g.n) (h12 : p.1 ≠ p.2) :
    WithJoints c g [p] (addBetween c (g, L) p).1 ∧ (addBetween c (g, L) p).2 = L ++ [g.n] := by
  obtain ⟨a1, a2, a3, a4, a5, a6, _, a8, a9, a10, _⟩ := newEmpty_all hg hr
  have hn1 : g.n ≠ p.1 := by omega
  have hn2 : g.n ≠ p.2 := by omega
  obtain ⟨b1, b2, b3⟩ := newEdgeOrder_all a1 hn1 (by omega) (by omega) (c / 2)
  have hcb := fun a b => cnt_newEdge a1 hn1 (by omega) (by omega) (c / 2) a b
  have hfb := fr_eq (newEdgeOrder_fr g.newEmptyNode g.n p.1 (c / 2))
  have hB : Simple (g.newEmptyNode.newEdgeOrder g.n p.1 (c / 2)) [] :=
    simple_newEdge a1 (simple_newEmpty hg hr hs) hn1 (by omega) (by omega) (a9 _) _
  have hQB : ∀ Q : Nat → Prop, Q (c / 2) → AllW Q g → AllW Q (g.newEmptyNode.newEdgeOrder g.n p.1 (c / 2)) := fun Q hQ hA =>
    allW_newEdge a1 (allW_newEmpty hg hr hA) hn1 (by omega) (by omega) hQ
  set B := g.newEmptyNode.newEdgeOrder g.n p.1 (c / 2) with hBd
  obtain ⟨e1, e2, e3, e4, e5, _⟩ := hfb
  obtain ⟨d1, d2, d3⟩ := newEdgeOrder_all b1 hn2 (by omega) (by omega) (c / 2)
  have hcd := fun a b => cnt_newEdge b1 hn2 (by omega) (by omega) (c / 2) a b
  have hfd := fr_eq (newEdgeOrder_fr B g.n p.2 (c / 2))
  have h0 : B.cnt g.n p.2 = 0 := by
    rw [hcb, show g.newEmptyNode.cnt g.n p.2 = 0 from a9 _, if_neg (by omega)]
  have hD := simple_newEdge b1 hB hn2 (by omega) (by omega) h0 (c / 2)
  have hQD : ∀ Q : Nat → Prop, Q (c / 2) → AllW Q g → AllW Q (B.newEdgeOrder g.n p.2 (c / 2)) := fun Q hQ hA =>
    allW_newEdge b1 (hQB Q hQ hA) hn2 (by omega) (by omega) hQ
  have hdef : addBetween c (g, L) p = (B.newEdgeOrder g.n p.2 (c / 2), L ++ [g.n]) := by
    unfold addBetween
    simp only [hr]
    rfl
  rw [hdef]
  set D := B.newEdgeOrder g.n p.2 (c / 2) with hDd
  obtain ⟨f1, f2, f3, f4, f5, _⟩ := hfd
  refine ⟨⟨d1, ?_, ?_, ?_, ?_, ?_, ?_, ?_, hD, hQD, ?_, ?_, ?_⟩, rfl⟩
  · rw [f1, e1, a2]; rfl
  · rw [f2, e2, a3, f1, e1, a2]
  · rw [f3, e3, a4]; rfl
  · rw [f5, e5, a6]
  · intro hroom q hq
    rw [f4, e4, a5, update_of_ne (by omega)]
  · intro hroom hcl q hq hq2
    rw [f3, e3, a4] at hq2
    rw [f4, e4, a5]
    by_cases hqc : q = g.contSize
    · rw [hqc, update_self]
    · rw [update_of_ne hqc]; exact hcl q hq (by omega)
  · intro X
    rw [d3, b3, a10]
    simp only [joints, List.map_cons, List.map_nil, List.sum_cons, List.sum_nil, jcost]
    omega
  · intro x y hx hy
    rw [hcd, hcb, if_neg (by omega), if_neg (by omega)]
    rw [Nat.add_zero]
    exact a8 _ x hx
  · intro j hj x hx hx1 hx2
    simp only [joints, List.mem_cons, List.not_mem_nil, or_false] at hj
    subst hj
    dsimp only at hx1 hx2 ⊢
    rw [hcd, hcb, show g.newEmptyNode.cnt g.n x = 0 from a9 _, if_neg (by omega), if_neg (by omega)]
  · intro f v hv hne
    obtain ⟨n1, n2⟩ := hne p (by simp)
    rw [d2, b2, a8 _ _ hv, if_neg (by omega), if_neg (by omega), if_neg (by omega), if_neg (by omega)]
    rfl

theorem addBetween_fold (c : Nat) : ∀ (ps : List (Nat × Nat)) (L : List Nat) (g : MGraph) (m : Nat), Valid g → Simple g [] →
    g.lastNode = g.n → m ≤ g.n → (∀ p ∈ ps, p.1 < m ∧ p.2 < m ∧ p.1 ≠ p.2) →
    WithJoints c g ps (ps.foldl (addBetween c) (g, L)).1 ∧ (ps.foldl (addBetween c) (g, L)).2 = L ++ (joints g.n ps).map (·.1) := by
  intro ps
  induction ps with
  | nil =>
    intro L g m hg hs hr _ _
    refine ⟨⟨hg, rfl, hr, rfl, rfl, fun _ _ _ => rfl, fun _ hc p h1 h2 => hc p h1 h2, fun X => ?_, hs, fun _ _ h => h, fun _ _ _ _ => rfl, ?_, fun _ _ _ _ => rfl⟩, ?_⟩
    · simp [joints]
    · simp [joints]
    · simp [joints]
  | cons p ps ih =>
    intro L g m hg hs hr hm hps
    obtain ⟨p1, p2, p3⟩ := hps p (by simp)
    obtain ⟨I, hL⟩ := addBetween_spec hg hs hr c L (p := p) (by omega) (by omega) p3
    rw [List.foldl_cons]
    have hpair : addBetween c (g, L) p = ((addBetween c (g, L) p).1, L ++ [g.n]) := by rw [← hL]
    rw [hpair]
    set g1 := (addBetween c (g, L) p).1 with hg1
    have hn1 : g1.n = g.n + 1 := I.n
    have hc1 : g1.contSize = g.contSize + 1 := I.csize
    obtain ⟨J, hJ⟩ := ih (L ++ [g.n]) g1 m I.valid I.simple I.last (by omega) (fun q hq => hps q (List.mem_cons_of_mem _ hq))
    set A := (ps.foldl (addBetween c) (g1, L ++ [g.n])).1 with hA
    have hAn := J.n
    have hAc := J.csize
    refine ⟨⟨J.valid, ?_, J.last, ?_, J.pos.trans I.pos, ?_, ?_, ?_, J.simple, ?_, ?_, ?_, ?_⟩, ?_⟩
    · rw [hAn, hn1, List.length_cons]; omega
    · rw [hAc, hc1, List.length_cons]; omega
    · intro hroom q hq
      rw [J.cont (by omega) q (by omega), I.cont hroom q hq]
    · intro hroom hcl q hq hq2
      have hcl1 := I.clean hroom hcl
      by_cases hqg : q = g.n
      · rw [J.cont (by omega) q (by omega)]
        exact hcl1 q hq (by omega)
      · exact J.clean (by omega) (fun p h1 h2 => hcl1 p (by omega) h2) q (by omega) hq2
    · intro X
      rw [J.cv, I.cv, hn1]
      simp only [joints, List.map_cons, List.map_nil, List.sum_cons, List.sum_nil]
      omega
    · intro Q hQ hA
      exact J.allW Q hQ (I.allW Q hQ hA)
    · intro x y hx hy
      rw [J.cntOld x y (by omega) (by omega), I.cntOld x y hx hy]
    · intro j hj x hx hx1 hx2
      simp only [joints, List.mem_cons] at hj
      rcases hj with rfl | hj
      · dsimp only at hx1 hx2 ⊢
        by_cases hxn : x < g1.n
        · rw [J.cntOld _ _ (by omega) hxn]
          exact I.cntNew (g.n, p.1, p.2) (by simp [joints]) x hxn hx1 hx2
        · obtain ⟨j', j1, j2⟩ := joints_at (ps := ps) (n := g1.n) (x := x) (by omega) (by omega)
          rw [J.valid.cnt_symm (by omega) (by simp) hx (by simp), ← j2]
          have hm' := hps _ (List.mem_cons_of_mem _ (joints_mem j1).2.2)
          exact J.cntNew j' j1 g.n (by omega) (by omega) (by omega)
      · rw [← hn1] at hj
        exact J.cntNew j hj x hx hx1 hx2
    · intro f v hv hne
      rw [J.row f v (by omega) (fun q hq => hne q (List.mem_cons_of_mem _ hq)), I.row f v hv (fun q hq => hne q (by rw [List.mem_singleton.1 hq]; exact List.mem_cons_self))]
    · rw [hJ, hn1]
      simp [joints]

end GraphModification
end VieCut
