import Verif.Proof.CanonizeTriangle

/-!
# The graph with the triangle is a cactus of the same splits
-/

namespace VieCut
open Function Finset MGraph

namespace GraphModification

/-- The triangle between three vertices. -/
def addTriangle (A : MGraph) (w a b d : Nat) : MGraph := ((A.newEdgeOrder a b w).newEdgeOrder a d w).newEdgeOrder b d w

theorem addTriangle_spec {A : MGraph} (hA : Valid A) (hs : Simple A []) {a b d : Nat} (ha : a < A.n) (hb : b < A.n) (hd : d < A.n)
    (hab : a ≠ b) (had : a ≠ d) (hbd : b ≠ d) (h1 : A.cnt a b = 0) (h2 : A.cnt a d = 0) (h3 : A.cnt b d = 0) (w : Nat) :
    Valid (addTriangle A w a b d) ∧ Simple (addTriangle A w a b d) [] ∧ (addTriangle A w a b d).fr = A.fr ∧
    (∀ X, (addTriangle A w a b d).cv X = A.cv X + tri w (X a) (X b) (X d)) ∧
    (∀ Q : Nat → Prop, Q w → AllW Q A → AllW Q (addTriangle A w a b d)) ∧
    ∀ f v, v ≠ a → v ≠ b → v ≠ d → rowSum (addTriangle A w a b d) f v = rowSum A f v := by
  obtain ⟨e1, e2, e3⟩ := newEdgeOrder_all hA hab ha hb w
  have es := simple_newEdge hA hs hab ha hb h1 w
  have ec := cnt_newEdge hA hab ha hb w
  have ef := newEdgeOrder_fr A a b w
  have eQ : ∀ Q : Nat → Prop, Q w → AllW Q A → AllW Q (A.newEdgeOrder a b w) := fun Q hQ hq => allW_newEdge hA hq hab ha hb hQ
  set A1 := A.newEdgeOrder a b w with hA1
  have en := (fr_eq ef).1
  obtain ⟨f1, f2, f3⟩ := newEdgeOrder_all e1 had (by omega) (by omega) w
  have fs := simple_newEdge e1 es had (by omega) (by omega) (by rw [ec, h2, if_neg (by omega)]) w
  have fc := cnt_newEdge e1 had (by omega) (by omega) w
  have ff := newEdgeOrder_fr A1 a d w
  have fQ : ∀ Q : Nat → Prop, Q w → AllW Q A → AllW Q (A1.newEdgeOrder a d w) := fun Q hQ hq =>
    allW_newEdge e1 (eQ Q hQ hq) had (by omega) (by omega) hQ
  set A2 := A1.newEdgeOrder a d w with hA2
  have fn := (fr_eq ff).1
  obtain ⟨g1, g2, g3⟩ := newEdgeOrder_all f1 hbd (by omega) (by omega) w
  refine ⟨g1, ?_, ?_, ?_, ?_, ?_⟩
  · exact simple_newEdge f1 fs hbd (by omega) (by omega) (by rw [fc, ec, h3, if_neg (by omega), if_neg (by omega)]) w
  · exact (newEdgeOrder_fr A2 b d w).trans (ff.trans ef)
  · intro X
    show (A2.newEdgeOrder b d w).cv X = _
    rw [g3, f3, e3, tri]
    omega
  · intro Q hQ hq
    exact allW_newEdge f1 (fQ Q hQ hq) hbd (by omega) (by omega) hQ
  · intro f v n1 n2 n3
    show rowSum (A2.newEdgeOrder b d w) f v = _
    rw [g2, f2, e2, if_neg n1, if_neg n2, if_neg n1, if_neg n3, if_neg n2, if_neg n3]
    rfl

theorem junction_facts {E : Nat → Prop} {P : (Nat → Bool) → Prop} {C : MGraph} {v c : Nat} {ps : List (Nat × Nat)} {ts : List Nat}
    (R : Around C v c ps ts) (h : CactusOf E P C c) (hc : 0 < c) {A : MGraph} (J : WithJoints c C ps A) :
    (∀ j ∈ junctions C.n ps ts, j.1 < A.n ∧ j.1 ≠ v) ∧
    (∀ j ∈ junctions C.n ps ts, j.1 < C.n → j.2.1 = j.1 ∧ j.2.2 = j.1) ∧
    (∀ j ∈ junctions C.n ps ts, C.n ≤ j.1 → SameSide C v c j.2.1 j.2.2 ∧ j.2.1 < C.n ∧ j.2.2 < C.n) ∧
    ((junctions C.n ps ts).map (·.1)).Nodup ∧
    ∀ j ∈ junctions C.n ps ts, ∀ k ∈ junctions C.n ps ts, j.1 ≠ k.1 → A.cnt j.1 k.1 = 0 := by
  have hn := J.n
  have hv := R.lt
  have hmem : ∀ j ∈ junctions C.n ps ts, (j ∈ joints C.n ps ∧ C.n ≤ j.1 ∧ j.1 < C.n + ps.length ∧ j.2 ∈ ps) ∨
      ∃ t ∈ ts, j = (t, t, t) := by
    intro j hj
    rcases List.mem_append.1 hj with h1 | h1
    · exact Or.inl ⟨h1, joints_mem h1⟩
    · obtain ⟨t, t1, t2⟩ := List.mem_map.1 h1
      exact Or.inr ⟨t, t1, t2.symm⟩
  refine ⟨?_, ?_, ?_, ?_, ?_⟩
  · intro j hj
    rcases hmem j hj with ⟨_, h1, h2, _⟩ | ⟨t, t1, rfl⟩
    · omega
    · obtain ⟨t2, t3, _⟩ := R.tree t t1
      exact ⟨by dsimp only; omega, t3⟩
  · intro j hj hlt
    rcases hmem j hj with ⟨_, h1, h2, _⟩ | ⟨t, t1, rfl⟩
    · omega
    · exact ⟨rfl, rfl⟩
  · intro j hj hlt
    rcases hmem j hj with ⟨_, h1, h2, h3⟩ | ⟨t, t1, rfl⟩
    · exact ⟨R.same _ h3, (R.pair _ h3).1, (R.pair _ h3).2.1⟩
    · have := (R.tree t t1).1
      dsimp only at hlt
      omega
  · rw [junctions, List.map_append, List.nodup_append]
    refine ⟨joints_fst, ?_, ?_⟩
    · rw [List.map_map]
      simpa [Function.comp_def] using R.nodup
    · intro a ha b hb hab
      obtain ⟨j, j1, rfl⟩ := List.mem_map.1 ha
      obtain ⟨k, k1, k2⟩ := List.mem_map.1 hb
      obtain ⟨t, t1, rfl⟩ := List.mem_map.1 k1
      have h1 := (joints_mem j1).1
      have h2 := (R.tree t t1).1
      dsimp only at k2
      omega
  · have key : ∀ j ∈ joints C.n ps, ∀ k ∈ junctions C.n ps ts, j.1 ≠ k.1 → A.cnt j.1 k.1 = 0 := by
      intro j hj k hk hjk
      have hjm := joints_mem hj
      rcases hmem k hk with ⟨k0, k1, k2, k3⟩ | ⟨t, t1, rfl⟩
      · have := R.pair _ hjm.2.2
        exact J.cntNew j hj _ (by omega) (by omega) (by omega)
      · obtain ⟨t2, t3, t4⟩ := R.tree t t1
        obtain ⟨w1, w2⟩ := R.half _ hjm.2.2
        refine J.cntNew j hj t (by omega) ?_ ?_
        · rintro rfl; omega
        · rintro rfl; omega
    have hlt : ∀ j ∈ junctions C.n ps ts, j.1 < A.n := by
      intro j hj
      rcases hmem j hj with ⟨_, h1, h2, _⟩ | ⟨t, t1, rfl⟩
      · omega
      · obtain ⟨t2, t3, _⟩ := R.tree t t1
        dsimp only; omega
    intro j hj k hk hjk
    rcases hmem j hj with ⟨h0, _⟩ | ⟨t, t1, rfl⟩
    · exact key j h0 k hk hjk
    · rcases hmem k hk with ⟨h0, _⟩ | ⟨u, u1, rfl⟩
      · rw [J.valid.cnt_symm (hlt _ hj) (by simp) (hlt _ hk) (by simp)]
        exact key k h0 _ hj (Ne.symm hjk)
      · obtain ⟨t2, t3, t4⟩ := R.tree t t1
        obtain ⟨u2, u3, u4⟩ := R.tree u u1
        dsimp only at hjk ⊢
        rw [J.cntOld t u t2 u2]
        by_contra hcn
        have hpos := W_pos_of_cnt (g := C) (fun a b ha hb => h.posW hc a b ha (by simp) hb) t2 hcn
        have hnc := h.no_common hv t2 u2 t3.symm u3 hjk.symm t4
        omega

theorem replace_spec {E : Nat → Prop} {P : (Nat → Bool) → Prop} {C : MGraph} {v c : Nat} {ps : List (Nat × Nat)} {ts : List Nat}
    (R : Around C v c ps ts) (h : CactusOf E P C c) (hc : 0 < c) (hempty : C.cont v = []) (hcl : Clean C) {A : MGraph}
    (J : WithJoints c C ps A) {a b d : Nat} (hN : (joints C.n ps).map (·.1) ++ ts = [a, b, d]) :
    CactusOf E P ((addTriangle A (c / 2) a b d).deleteVertex v) c := by
  obtain ⟨q1, q2, q3, q4, q5⟩ := junction_facts R h hc J
  have hN' : (junctions C.n ps ts).map (·.1) = [a, b, d] := by
    rw [← hN, junctions, List.map_append, List.map_map]
    congr 1
    simp [Function.comp_def]
  obtain ⟨j1, j2, j3, hJ⟩ : ∃ j1 j2 j3, junctions C.n ps ts = [j1, j2, j3] := by
    have := congrArg List.length hN'
    rw [List.length_map] at this
    exact List.length_eq_three.1 this
  rw [hJ] at q1 q2 q3 q4 q5 hN'
  simp only [List.map_cons, List.map_nil, List.cons.injEq, and_true] at hN'
  obtain ⟨rfl, rfl, rfl⟩ := hN'
  simp only [List.map_cons, List.map_nil, List.nodup_cons, List.mem_cons, List.not_mem_nil, or_false, not_or, not_false_eq_true,
    List.nodup_nil, and_true] at q4
  obtain ⟨⟨n12, n13⟩, n23⟩ := q4
  have m1 : j1 ∈ [j1, j2, j3] := by simp
  have m2 : j2 ∈ [j1, j2, j3] := by simp
  have m3 : j3 ∈ [j1, j2, j3] := by simp
  obtain ⟨t1, t2, t3, t4, t5, t6⟩ := addTriangle_spec J.valid J.simple (q1 _ m1).1 (q1 _ m2).1 (q1 _ m3).1 n12 n13 n23
    (q5 _ m1 _ m2 n12) (q5 _ m1 _ m3 n13) (q5 _ m2 _ m3 n23) (c / 2)
  set B := addTriangle A (c / 2) j1.1 j2.1 j3.1 with hB
  obtain ⟨r1, r2, r3, r4, r5, _⟩ := fr_eq t3
  have hcuts := R.cuts h J t1 r1 hJ t4 (fun f => t6 f v (q1 _ m1).2.symm (q1 _ m2).2.symm (q1 _ m3).2.symm)
  have hv := R.lt
  have hAn := J.n
  have hvB : v < B.n := by omega
  obtain ⟨d1, d2, d3, _, _, d6, _, d8, d9⟩ := deleteVertex_spec t1 hvB
  set D := B.deleteVertex v with hD
  have heven := R.even
  -- everything held by the graph with the new vertices
  have hheld : Held E B := by
    refine ⟨fun e he => ?_, fun p e hp => ?_, fun p hp => ?_⟩
    · rw [r5, J.pos]
      have := h.held.lt e he; omega
    · rw [r4, r5, J.pos]
      by_cases hpn : p < C.n
      · rw [J.cont h.room p hpn]; exact h.held.mem p e hpn
      · rw [J.clean h.room hcl p (by omega) (by have := J.csize; have := h.room; omega)]
        constructor
        · intro hh; simp at hh
        · rintro ⟨he, hh⟩
          have := h.held.lt e he; omega
    · rw [r4]
      by_cases hpn : p < C.n
      · rw [J.cont h.room p hpn]; exact h.held.nodup p hpn
      · rw [J.clean h.room hcl p (by omega) (by have := J.csize; have := h.room; omega)]; simp
  obtain ⟨p1, p2, _⟩ := d6 E (held_iff.1 hheld).1
  have hposC : ∀ e, E e → C.pos e < C.n ∧ C.pos e ≠ v := fun e he => ⟨h.held.lt e he, h.pos_ne hv hempty he⟩
  have hBpos : ∀ e, B.pos e = C.pos e := fun e => by rw [r5, J.pos]
  have hpos : ∀ e, E e → D.pos e = relab v (A.n - 1) (C.pos e) := by
    intro e he
    rw [p2 e he (hheld.lt e he) (by rw [hBpos]; exact (hposC e he).2), hBpos, r1]
  have hDn : D.n = A.n - 1 := by rw [d2, r1]
  -- trees
  have htree : ∀ j ∈ [j1, j2, j3], ∀ X : Nat → Bool, j.1 < C.n → sig (c / 2) X j (X j.1) = 0 := by
    intro j hj X hlt
    obtain ⟨e1, e2⟩ := q2 j hj hlt
    unfold sig
    rw [e1, e2]; simp
  have hnew : ∀ u, C.n ≤ u → u < A.n → ∃ j ∈ [j1, j2, j3], j.1 = u := by
    intro u h1 h2
    obtain ⟨j, k1, k2⟩ := joints_at (ps := ps) h1 (by omega)
    refine ⟨j, ?_, k2⟩
    rw [← hJ]
    exact List.mem_append_left _ k1
  -- cuts of `C` give cuts of `D`
  have hext : ∀ X, C.cv X = c → ∃ Y : Nat → Bool, D.cv Y = c ∧ (∀ u, u < C.n → u ≠ v → Y (relab v (A.n - 1) u) = X u) ∧
      ∀ u, C.n ≤ u → u < A.n → Y (relab v (A.n - 1) u) = X v := by
    intro X hX
    let X' : Nat → Bool := fun u => if u < C.n then X u else X v
    obtain ⟨Y, hY⟩ := exists_relab (n := A.n) (v := v) (by omega) X'
    refine ⟨Y, ?_, fun u hu huv => ?_, fun u h1 h2 => ?_⟩
    · obtain ⟨K, k1, k2⟩ := hcuts X'
      have e1 : C.cv (update X' v (X v)) = c := by
        rw [← hX]
        refine cutValue_congr fun u hu => ?_
        by_cases huv : u = v
        · rw [huv, update_self]
        · rw [update_of_ne huv]; exact if_pos hu
      have e2 := k1 (X v)
      have e3 := k2 Y hY
      have hx : ∀ j ∈ [j1, j2, j3], X' j.1 = X v ∨ sig (c / 2) X' j (X' j.1) = 0 := by
        intro j hj
        by_cases hlt : j.1 < C.n
        · exact Or.inr (htree j hj X' hlt)
        · exact Or.inl (if_neg hlt)
      have s1 := sig_add (c / 2) X' j1
      have s2 := sig_add (c / 2) X' j2
      have s3 := sig_add (c / 2) X' j3
      have x1 := hx _ m1
      have x2 := hx _ m2
      have x3 := hx _ m3
      rw [e1] at e2
      rw [e3]
      revert e2 x1 x2 x3
      unfold tri
      generalize X' j1.1 = y1
      generalize X' j2.1 = y2
      generalize X' j3.1 = y3
      generalize X v = y0
      cases y1 <;> cases y2 <;> cases y3 <;> cases y0 <;> simp <;> omega
    · rw [hY u (by omega) huv]; exact if_pos hu
    · rw [hY u h2 (by omega)]; exact if_neg (by omega)
  refine ⟨consistent_iff.2 d1, ?_, ?_, ?_, held_iff.2 ⟨p1, ?_⟩, ?_, ?_, ?_, ?_⟩
  · refine noParallel_of_simple d1 ?_
    intro p q hp _ hq _
    rw [hDn, ← r1] at hp hq
    obtain ⟨u, u1, u2, rfl⟩ := relab_surj hvB hp
    obtain ⟨w, w1, w2, rfl⟩ := relab_surj hvB hq
    rw [(d3 u w u1 w1 u2 w2).2]
    exact t2 u w u1 (by simp) w1 (by simp)
  · rw [d8, d2, r2, J.last, r1]
  · rw [d9, d2, r3, J.csize, r1]
    have := h.room; omega
  · intro e he
    rw [hpos e he, hDn]
    obtain ⟨e1, e2⟩ := hposC e he
    exact relab_lt (by omega) (by omega) e2
  · have hs : Simple D [] := by
      intro p q hp _ hq _
      rw [hDn, ← r1] at hp hq
      obtain ⟨u, u1, u2, rfl⟩ := relab_surj hvB hp
      obtain ⟨w, w1, w2, rfl⟩ := relab_surj hvB hq
      rw [(d3 u w u1 w1 u2 w2).2]
      exact t2 u w u1 (by simp) w1 (by simp)
    refine (allW_cnt (Q := fun w => w = c ∨ 2 * w = c) hs d1).2 fun p q hp hq hcn => ?_
    rw [hDn, ← r1] at hp hq
    obtain ⟨u, u1, u2, rfl⟩ := relab_surj hvB hp
    obtain ⟨w, w1, w2, rfl⟩ := relab_surj hvB hq
    obtain ⟨e1, e2⟩ := d3 u w u1 w1 u2 w2
    rw [e1]
    rw [e2] at hcn
    exact (allW_cnt (Q := fun w => w = c ∨ 2 * w = c) t2 t1).1 (t5 _ (Or.inr heven) (J.allW _ (Or.inr heven) h.weights)) u w u1 w1 hcn
  · intro Y hYp
    let X : Nat → Bool := fun u => Y (relab v (A.n - 1) u)
    obtain ⟨K, k1, k2⟩ := hcuts X
    have e3 := k2 Y (fun _ _ _ => rfl)
    by_cases hun : X j1.1 = X j2.1 ∧ X j1.1 = X j3.1
    · have hv1 : D.cv Y = C.cv (update X v (X j1.1)) := by
        rw [e3, k1, ← hun.1, ← hun.2]
        unfold tri
        simp
      have hpr : ProperCut C.n (update X v (X j1.1)) := by
        by_contra hnp
        have hconst : ∀ u, u < C.n → u ≠ v → X u = X j1.1 := by
          intro u hu huv
          by_contra hne
          refine hnp ?_
          cases hx : X j1.1
          · refine ⟨⟨u, hu, ?_⟩, ⟨v, hv, by rw [update_self]⟩⟩
            rw [update_of_ne huv]
            rw [hx] at hne; simpa using hne
          · refine ⟨⟨v, hv, by rw [update_self]⟩, ⟨u, hu, ?_⟩⟩
            rw [update_of_ne huv]
            rw [hx] at hne; simpa using hne
        have hall : ∀ p, p < D.n → Y p = X j1.1 := by
          intro p hp
          rw [hDn, ← r1] at hp
          obtain ⟨u, u1, u2, rfl⟩ := relab_surj hvB hp
          rw [r1] at u1 ⊢
          show X u = _
          by_cases hu : u < C.n
          · exact hconst u hu u2
          · obtain ⟨j, hj, rfl⟩ := hnew u (by omega) u1
            simp only [List.mem_cons, List.not_mem_nil, or_false] at hj
            rcases hj with rfl | rfl | rfl
            · rfl
            · exact hun.1.symm
            · exact hun.2.symm
        obtain ⟨⟨x, x1, x2⟩, ⟨y, y1, y2⟩⟩ := hYp
        rw [hall x x1] at x2
        rw [hall y y1, x2] at y2
        simp at y2
      have := h.least _ hpr
      unfold MGraph.cv at hv1
      omega
    · have : c ≤ tri (c / 2) (X j1.1) (X j2.1) (X j3.1) := by
        revert hun
        unfold tri
        generalize X j1.1 = y1
        generalize X j2.1 = y2
        generalize X j3.1 = y3
        cases y1 <;> cases y2 <;> cases y3 <;> simp <;> omega
      unfold MGraph.cv at e3
      omega
  · intro f
    rw [← h.splits f]
    constructor
    · rintro ⟨Y, _, y2, y3⟩
      let X : Nat → Bool := fun u => Y (relab v (A.n - 1) u)
      obtain ⟨K, k1, k2⟩ := hcuts X
      have e3 := k2 Y (fun _ _ _ => rfl)
      have e4 : D.cv Y = c := y2
      rw [e4] at e3
      have hb : ∃ b, C.cv (update X v b) = c := by
        have s1 := sig_add (c / 2) X j1
        have s2 := sig_add (c / 2) X j2
        have s3 := sig_add (c / 2) X j3
        have kt := k1 true
        have kf := k1 false
        by_cases hmaj : (X j1.1 && X j2.1 || X j1.1 && X j3.1 || X j2.1 && X j3.1) = true
        · refine ⟨true, ?_⟩
          rw [kt]
          revert hmaj e3
          unfold tri
          generalize X j1.1 = y1
          generalize X j2.1 = y2
          generalize X j3.1 = y3
          cases y1 <;> cases y2 <;> cases y3 <;> simp <;> omega
        · refine ⟨false, ?_⟩
          rw [kf]
          revert hmaj e3
          unfold tri
          generalize X j1.1 = y1
          generalize X j2.1 = y2
          generalize X j3.1 = y3
          cases y1 <;> cases y2 <;> cases y3 <;> simp <;> omega
      obtain ⟨b, hb⟩ := hb
      refine ⟨update X v b, proper_of_cv (by rw [hb]; omega), hb, fun e he => ?_⟩
      rw [update_of_ne (hposC e he).2, ← y3 e he, hpos e he]
    · rintro ⟨X, x1, x2, x3⟩
      obtain ⟨Y, y1, y2, _⟩ := hext X x2
      refine ⟨Y, proper_of_cv (by rw [y1]; omega), y1, fun e he => ?_⟩
      rw [hpos e he, y2 _ (hposC e he).1 (hposC e he).2, x3 e he]
  · intro x y hx hy hxy
    rw [hDn, ← r1] at hx hy
    obtain ⟨u, u1, u2, rfl⟩ := relab_surj hvB hx
    obtain ⟨w, w1, w2, rfl⟩ := relab_surj hvB hy
    have huw : u ≠ w := fun hh => hxy (by rw [hh])
    rw [r1] at u1 w1 ⊢
    by_cases hu : u < C.n
    · by_cases hw : w < C.n
      · obtain ⟨X, x1, x2, x3⟩ := h.separating u w hu hw huw
        obtain ⟨Y, y1, y2, _⟩ := hext X x3
        exact ⟨Y, by rw [y2 u hu u2, x1], by rw [y2 w hw w2, x2], y1⟩
      · obtain ⟨X, x1, x2, x3⟩ := h.separating u v hu hv u2
        obtain ⟨Y, y1, y2, y3⟩ := hext X x3
        exact ⟨Y, by rw [y2 u hu u2, x1], by rw [y3 w (by omega) w1, x2], y1⟩
    · by_cases hw : w < C.n
      · obtain ⟨X, x1, x2, x3⟩ := h.separating v w hv hw w2.symm
        obtain ⟨Y, y1, y2, y3⟩ := hext X x3
        exact ⟨Y, by rw [y3 u (by omega) u1, x1], by rw [y2 w hw w2, x2], y1⟩
      · obtain ⟨j, hj, rfl⟩ := hnew u (by omega) u1
        obtain ⟨⟨X, x1, x2, x3, x4⟩, l1, l2⟩ := q3 j hj (by omega)
        let X' : Nat → Bool := fun x => if x < C.n then X x else decide (x = j.1)
        obtain ⟨Y, hY⟩ := exists_relab (n := A.n) (v := v) (by omega) X'
        refine ⟨Y, ?_, ?_, ?_⟩
        · rw [hY _ u1 u2]
          show (if j.1 < C.n then X j.1 else decide (j.1 = j.1)) = true
          rw [if_neg hu]; simp
        · rw [hY _ w1 w2]
          show (if w < C.n then X w else decide (w = j.1)) = false
          rw [if_neg hw]; simpa using huw.symm
        · obtain ⟨K, k1, k2⟩ := hcuts X'
          have e1 : C.cv (update X' v false) = c := by
            rw [← x1]
            refine cutValue_congr fun u hu => ?_
            by_cases huv : u = v
            · rw [huv, update_self, x2]
            · rw [update_of_ne huv]; exact if_pos hu
          have e2 := k1 false
          have e3 := k2 Y hY
          rw [e1] at e2
          have xj : X' j.1 = true := by
            show (if j.1 < C.n then X j.1 else decide (j.1 = j.1)) = true
            rw [if_neg hu]; simp
          have sj : sig (c / 2) X' j true = 0 := by
            unfold sig
            rw [show X' j.2.1 = true from (if_pos l1).trans x3, show X' j.2.2 = true from (if_pos l2).trans x4]
            simp
          have hoth : ∀ k ∈ [j1, j2, j3], k.1 ≠ j.1 → X' k.1 = false ∨ (X' k.1 = true ∧ sig (c / 2) X' k true = 0) := by
            intro k hk hkj
            by_cases hlt : k.1 < C.n
            · have := htree k hk X' hlt
              cases hx : X' k.1
              · exact Or.inl rfl
              · rw [hx] at this; exact Or.inr ⟨rfl, this⟩
            · left
              show (if k.1 < C.n then X k.1 else decide (k.1 = j.1)) = false
              rw [if_neg hlt]; simpa using hkj
          have s1 := sig_add (c / 2) X' j1
          have s2 := sig_add (c / 2) X' j2
          have s3 := sig_add (c / 2) X' j3
          show D.cv Y = c
          rw [e3]
          unfold tri
          simp only [List.mem_cons, List.not_mem_nil, or_false] at hj
          rcases hj with rfl | rfl | rfl
          · have o2 := hoth _ m2 (Ne.symm n12)
            have o3 := hoth _ m3 (Ne.symm n13)
            rw [xj]
            rcases o2 with o2 | ⟨o2, o2'⟩ <;> rcases o3 with o3 | ⟨o3, o3'⟩ <;> rw [o2, o3] <;> simp <;> omega
          · have o2 := hoth _ m1 n12
            have o3 := hoth _ m3 (Ne.symm n23)
            rw [xj]
            rcases o2 with o2 | ⟨o2, o2'⟩ <;> rcases o3 with o3 | ⟨o3, o3'⟩ <;> rw [o2, o3] <;> simp <;> omega
          · have o2 := hoth _ m1 n13
            have o3 := hoth _ m2 n23
            rw [xj]
            rcases o2 with o2 | ⟨o2, o2'⟩ <;> rcases o3 with o3 | ⟨o3, o3'⟩ <;> rw [o2, o3] <;> simp <;> omega

end GraphModification
end VieCut
