import Verif.Proof.GlueVertices

/-!
# Two cactuses glued together are a cactus
-/

namespace VieCut
namespace GraphModification
open Function Finset MGraph STCactus

theorem place_ge {n1 v1 v2 u : Nat} (hu : u ≠ v2) : n1 ≤ place n1 v1 v2 u := by
  unfold place; rw [if_neg hu, shift_eq hu]; omega

theorem place_inj {n1 v1 v2 : Nat} (hv1 : v1 < n1) {u v : Nat} (h : place n1 v1 v2 u = place n1 v1 v2 v) : u = v := by
  by_cases hu : u = v2
  · by_cases hv : v = v2
    · rw [hu, hv]
    · have := place_ge (n1 := n1) (v1 := v1) hv
      rw [← h] at this
      unfold place at this; rw [if_pos hu] at this; omega
  · by_cases hv : v = v2
    · have := place_ge (n1 := n1) (v1 := v1) hu
      rw [h] at this
      unfold place at this; rw [if_pos hv] at this; omega
    · unfold place at h
      rw [if_neg hu, if_neg hv, shift_eq hu, shift_eq hv] at h
      exact added_inj hu hv (by omega)

theorem place_lt {n1 v1 v2 n2 u : Nat} (hv1 : v1 < n1) (hv2 : v2 < n2) (hu : u < n2) : place n1 v1 v2 u < n1 + (n2 - 1) := by
  unfold place
  by_cases h : u = v2
  · rw [if_pos h]; omega
  · rw [if_neg h]
    unfold shift
    by_cases h1 : u > v2
    · rw [if_pos h1]; omega
    · rw [if_neg h1]; omega

/-- The vertex of the second graph for a new vertex of the result. -/
def unplace (n1 v2 p : Nat) : Nat := if p - n1 < v2 then p - n1 else p - n1 + 1

theorem place_unplace {n1 v1 v2 n2 p : Nat} (hp : n1 ≤ p) (hp2 : p < n1 + (n2 - 1)) (hv2 : v2 < n2) :
    place n1 v1 v2 (unplace n1 v2 p) = p ∧ unplace n1 v2 p < n2 ∧ unplace n1 v2 p ≠ v2 := by
  unfold unplace
  by_cases h : p - n1 < v2
  · rw [if_pos h]
    refine ⟨?_, by omega, by omega⟩
    unfold place shift
    rw [if_neg (by omega), if_neg (by omega)]; omega
  · rw [if_neg h]
    refine ⟨?_, by omega, by omega⟩
    unfold place shift
    rw [if_neg (by omega), if_pos (by omega)]; omega

theorem unplace_place {n1 v1 v2 u : Nat} (hu : u ≠ v2) : unplace n1 v2 (place n1 v1 v2 u) = u := by
  unfold unplace place shift
  rw [if_neg hu]
  by_cases h : u > v2
  · rw [if_pos h, if_neg (by omega)]; omega
  · rw [if_neg h, if_pos (by omega)]; omega

theorem glue_spec {E : Nat → Prop} {P1 P2 : (Nat → Bool) → Prop} {G1 G2 : MGraph} {v1 v2 c : Nat} (hc : 0 < c) (h1 : CactusOf E P1 G1 c)
    (h2 : CactusOf E P2 G2 c) (ht : Tidy G1) (hv1 : v1 < G1.n) (hv2 : v2 < G2.n) (h2n : 2 ≤ G2.n)
    (hout : ∀ e, E e → G1.pos e ≠ v1 → G2.pos e = v2) :
    CactusOf E (fun f => P1 f ∨ P2 f) (glue G1 v1 G2 v2) c ∧ Clean (glue G1 v1 G2 v2) ∧ v1 < (glue G1 v1 G2 v2).n ∧
    ∀ e, E e → (glue G1 v1 G2 v2).pos e = if G2.pos e = v2 then G1.pos e else place G1.n v1 v2 (G2.pos e) := by
  have I := mergeVertices (E := E) (Q := fun w => w = c ∨ 2 * w = c) h1.valid h1.simp0 h1.weights h1.ready h1.room ht h2.held hv1 hv2 G2.n le_rfl
  rw [glue_eq G1 h2.valid hv1]
  set h := (List.range G2.n).foldl (mergeVertex G2 v1 v2) { G1 with cont := update G1.cont v1 [] } with hhd
  have hadd : added v2 G2.n = G2.n - 1 := by unfold added; rw [if_pos hv2]
  have hn : h.n = G1.n + (G2.n - 1) := by rw [I.n, hadd]
  obtain ⟨c1, c2, c3, c4, c5⟩ := copy_all (h := h) (g := G2) I.valid h2.valid (ν := place G1.n v1 v2)
    (fun u hu => by rw [hn]; exact place_lt hv1 hv2 hu) (fun u v _ _ he => place_inj hv1 he) (fun w => w = c ∨ 2 * w = c)
  set R := (halfEdges G2 (place G1.n v1 v2)).foldl (fun g x => g.newEdge x.1 x.2.1 x.2.2) h with hRd
  obtain ⟨r1, r2, r3, r4, r5, r6⟩ := fr_eq c2
  have rn : R.n = G1.n + (G2.n - 1) := r1.trans hn
  have rcut : ∀ X, R.cv X = G1.cv X + G2.cv (fun u => X (place G1.n v1 v2 u)) := fun X => by rw [c4, I.cv]
  have rpos : ∀ e, E e → R.pos e = if G2.pos e = v2 then G1.pos e else place G1.n v1 v2 (G2.pos e) := by
    intro e he
    rw [r5, I.pos e he]
    by_cases hp : G2.pos e = v2
    · rw [if_neg (fun hh => hh.2 hp), if_pos hp]
    · rw [if_pos ⟨h2.held.lt e he, hp⟩, if_neg hp]
      unfold place; rw [if_neg hp]
  have hpv : place G1.n v1 v2 v2 = v1 := by unfold place; rw [if_pos rfl]
  have hplt : ∀ e, E e → R.pos e < R.n := by
    intro e he
    rw [rpos e he, rn]
    split
    · have := h1.held.lt e he; omega
    · exact place_lt hv1 hv2 (h2.held.lt e he)
  -- simple
  have rsim : Simple R [] := by
    intro a b ha _ hb _
    have hcnt : R.cnt a b = h.cnt a b + ∑ n ∈ range G2.n, if a = place G1.n v1 v2 n then rowSum G2 (fun t _ => if place G1.n v1 v2 t = b then 1 else 0) n else 0 :=
      c3 _ a
    have hsum : ∀ u, u < G2.n → a = place G1.n v1 v2 u →
        (∑ n ∈ range G2.n, if a = place G1.n v1 v2 n then rowSum G2 (fun t _ => if place G1.n v1 v2 t = b then 1 else 0) n else 0)
          = rowSum G2 (fun t _ => if place G1.n v1 v2 t = b then 1 else 0) u := by
      intro u hu hau
      rw [Finset.sum_eq_single u]
      · rw [if_pos hau]
      · intro n _ hne
        rw [if_neg (fun hh => hne (place_inj hv1 (hh.symm.trans hau)))]
      · intro hh; exact absurd (mem_range.2 hu) hh
    have hrow : ∀ u v, u < G2.n → v < G2.n → b = place G1.n v1 v2 v →
        rowSum G2 (fun t _ => if place G1.n v1 v2 t = b then 1 else 0) u = G2.cnt u v := by
      intro u v _ _ hb
      unfold cnt rowSum
      refine Finset.sum_congr rfl fun e _ => ?_
      dsimp only
      refine if_congr ?_ rfl rfl
      rw [hb]
      exact ⟨fun hh => place_inj hv1 hh, fun hh => by rw [hh]⟩
    have hrow0 : ∀ u, u < G2.n → (∀ v, v < G2.n → b ≠ place G1.n v1 v2 v) →
        rowSum G2 (fun t _ => if place G1.n v1 v2 t = b then 1 else 0) u = 0 := by
      intro u hu hb
      unfold rowSum
      refine Finset.sum_eq_zero fun e he => ?_
      dsimp only
      rw [if_neg]
      exact fun hh => hb _ ((valid_iff.1 h2.valid).1 u e hu (mem_range.1 he)).1 hh.symm
    have hsum0 : (∀ u, u < G2.n → a ≠ place G1.n v1 v2 u) →
        (∑ n ∈ range G2.n, if a = place G1.n v1 v2 n then rowSum G2 (fun t _ => if place G1.n v1 v2 t = b then 1 else 0) n else 0) = 0 := by
      intro hh
      refine Finset.sum_eq_zero fun n hn => ?_
      rw [if_neg (hh n (mem_range.1 hn))]
    have hle : h.cnt a b ≤ 1 := I.simple a b (by omega) (by simp) (by omega) (by simp)
    rw [hcnt]
    by_cases hau : ∃ u, u < G2.n ∧ a = place G1.n v1 v2 u
    · obtain ⟨u, hu, hau⟩ := hau
      rw [hsum u hu hau]
      by_cases hbv : ∃ v, v < G2.n ∧ b = place G1.n v1 v2 v
      · obtain ⟨v, hv, hbv⟩ := hbv
        rw [hrow u v hu hv hbv]
        have := h2.simp0 u v hu (by simp) hv (by simp)
        have h0 : h.cnt a b = 0 ∨ G2.cnt u v = 0 := by
          by_cases huv : u = v2
          · by_cases hvv : v = v2
            · right
              rw [huv, hvv]
              unfold cnt rowSum
              refine Finset.sum_eq_zero fun e he => ?_
              dsimp only
              rw [if_neg]
              exact ((valid_iff.1 h2.valid).1 v2 e hv2 (mem_range.1 he)).2.2.2.2.2
            · left
              rw [I.valid.cnt_symm (by omega) (by simp) (by omega) (by simp)]
              exact I.rows0 _ b (by rw [hbv]; exact place_ge hvv) (by omega)
          · left
            exact I.rows0 _ a (by rw [hau]; exact place_ge huv) (by omega)
        omega
      · push Not at hbv
        rw [hrow0 u hu hbv]; omega
    · push Not at hau
      rw [hsum0 hau]; omega
  -- cuts of the two graphs as cuts of the result
  let ext1 : (Nat → Bool) → Nat → Bool := fun X p => if p < G1.n then X p else X v1
  let ext2 : (Nat → Bool) → Nat → Bool := fun X p => if p < G1.n then X v2 else X (unplace G1.n v2 p)
  have hconst : ∀ (G : MGraph) (b : Bool) (X : Nat → Bool), (∀ u, u < G.n → X u = b) → G.cv X = 0 := by
    intro G b X hX
    unfold MGraph.cv cutValue
    refine Finset.sum_eq_zero fun u hu => Finset.sum_eq_zero fun v hv => ?_
    rw [if_neg]
    rintro ⟨k1, k2⟩
    rw [hX u (mem_range.1 hu)] at k1
    rw [hX v (mem_range.1 hv)] at k2
    exact absurd (k1.symm.trans k2) (by simp)
  have hx1 : ∀ X, R.cv (ext1 X) = G1.cv X := by
    intro X
    have e1 : G1.cv (ext1 X) = G1.cv X := cutValue_congr fun u hu => if_pos hu
    have e2 : G2.cv (fun u => ext1 X (place G1.n v1 v2 u)) = 0 := by
      refine hconst G2 (X v1) _ fun u _ => ?_
      by_cases huv : u = v2
      · rw [huv, hpv]; exact if_pos hv1
      · exact if_neg (by have := place_ge (n1 := G1.n) (v1 := v1) huv; omega)
    rw [rcut, e1, e2, add_zero]
  have hx2p : ∀ X u, u < G2.n → ext2 X (place G1.n v1 v2 u) = X u := by
    intro X u _
    by_cases huv : u = v2
    · rw [huv, hpv]; exact if_pos hv1
    · have := place_ge (n1 := G1.n) (v1 := v1) huv
      show (if _ then _ else _) = _
      rw [if_neg (by omega), unplace_place huv]
  have hx2 : ∀ X, R.cv (ext2 X) = G2.cv X := by
    intro X
    have e1 : G1.cv (ext2 X) = 0 := hconst G1 (X v2) _ fun u hu => if_pos hu
    have e2 : G2.cv (fun u => ext2 X (place G1.n v1 v2 u)) = G2.cv X := cutValue_congr fun u hu => hx2p X u hu
    rw [rcut, e1, e2, zero_add]
  refine ⟨⟨consistent_iff.2 c1, noParallel_of_simple c1 rsim, ?_, ?_, ⟨hplt, ?_, ?_⟩, c5 I.allw h2.weights, ?_, ?_, ?_⟩, ?_, by omega, rpos⟩
  · rw [r2, I.last, r1]
  · rw [r3, rn, I.csize, hadd]
    have := h1.room; omega
  · intro p e hp
    rw [rn] at hp
    rw [r4]
    by_cases hpn : p < G1.n
    · by_cases hpv1 : p = v1
      · rw [hpv1, I.contV, if_pos hv2, List.mem_filter, h2.held.mem v2 e hv2]
        simp only [decide_eq_true_eq]
        constructor
        · rintro ⟨⟨he, k1⟩, k2⟩
          exact ⟨he, by rw [rpos e he, if_pos k1]; exact k2⟩
        · rintro ⟨he, k1⟩
          rw [rpos e he] at k1
          by_cases k2 : G2.pos e = v2
          · rw [if_pos k2] at k1; exact ⟨⟨he, k2⟩, k1⟩
          · rw [if_neg k2] at k1
            have := place_ge (n1 := G1.n) (v1 := v1) k2; omega
      · rw [I.cont p hpn hpv1, h1.held.mem p e hpn]
        constructor
        · rintro ⟨he, k1⟩
          exact ⟨he, by rw [rpos e he, if_pos (hout e he (by rw [k1]; exact hpv1))]; exact k1⟩
        · rintro ⟨he, k1⟩
          rw [rpos e he] at k1
          by_cases k2 : G2.pos e = v2
          · rw [if_pos k2] at k1; exact ⟨he, k1⟩
          · rw [if_neg k2] at k1
            have := place_ge (n1 := G1.n) (v1 := v1) k2; omega
    · obtain ⟨u1, u2, u3⟩ := place_unplace (v1 := v1) (show G1.n ≤ p by omega) hp hv2
      set i := unplace G1.n v2 p with hi
      have hci : h.cont p = G2.cont i := by
        rw [← u1]
        have := I.contNew i u2 u3
        unfold place; rw [if_neg u3]; exact this
      rw [hci, h2.held.mem i e u2]
      constructor
      · rintro ⟨he, k1⟩
        exact ⟨he, by rw [rpos e he, k1, if_neg u3, u1]⟩
      · rintro ⟨he, k1⟩
        rw [rpos e he] at k1
        by_cases k2 : G2.pos e = v2
        · rw [if_pos k2] at k1
          have := h1.held.lt e he; omega
        · rw [if_neg k2, ← u1] at k1
          exact ⟨he, place_inj hv1 k1⟩
  · intro p hp
    rw [rn] at hp
    rw [r4]
    by_cases hpn : p < G1.n
    · by_cases hpv1 : p = v1
      · rw [hpv1, I.contV, if_pos hv2]
        exact (h2.held.nodup v2 hv2).filter _
      · rw [I.cont p hpn hpv1]; exact h1.held.nodup p hpn
    · obtain ⟨u1, u2, u3⟩ := place_unplace (v1 := v1) (show G1.n ≤ p by omega) hp hv2
      have hci : h.cont p = G2.cont (unplace G1.n v2 p) := by
        have hsh := u1
        unfold place at hsh
        rw [if_neg u3] at hsh
        rw [← I.contNew _ u2 u3, hsh]
      rw [hci]; exact h2.held.nodup _ u2
  · intro X hX
    show c ≤ R.cv X
    rw [rcut]
    by_cases hp1 : ProperCut G1.n X
    · have := h1.least X hp1
      unfold MGraph.cv; omega
    · have hp2 : ProperCut G2.n (fun u => X (place G1.n v1 v2 u)) := by
        have hall : ∀ u, u < G1.n → X u = X v1 := by
          intro u hu
          by_contra hne
          apply hp1
          cases k1 : X u <;> cases k2 : X v1
          · exact absurd (k1.trans k2.symm) hne
          · exact ⟨⟨v1, hv1, k2⟩, ⟨u, hu, k1⟩⟩
          · exact ⟨⟨u, hu, k1⟩, ⟨v1, hv1, k2⟩⟩
          · exact absurd (k1.trans k2.symm) hne
        have hex : ∀ p, p < R.n → ∃ u, u < G2.n ∧ X (place G1.n v1 v2 u) = X p := by
          intro p hp
          rw [rn] at hp
          by_cases hpn : p < G1.n
          · exact ⟨v2, hv2, by rw [hpv, hall p hpn]⟩
          · obtain ⟨u1, u2, _⟩ := place_unplace (v1 := v1) (show G1.n ≤ p by omega) hp hv2
            exact ⟨_, u2, by rw [u1]⟩
        obtain ⟨⟨a, ha, k1⟩, ⟨b, hb, k2⟩⟩ := hX
        obtain ⟨a', ha', k1'⟩ := hex a ha
        obtain ⟨b', hb', k2'⟩ := hex b hb
        exact ⟨⟨a', ha', k1'.trans k1⟩, ⟨b', hb', k2'.trans k2⟩⟩
      have := h2.least _ hp2
      unfold MGraph.cv; omega
  · intro f
    constructor
    · rintro ⟨X, y1, y2, y3⟩
      have e1 : G1.cv X + G2.cv (fun u => X (place G1.n v1 v2 u)) = c := (rcut X).symm.trans y2
      by_cases hp1 : ProperCut G1.n X
      · have k1 : c ≤ G1.cv X := h1.least X hp1
        have k2 : G2.cv (fun u => X (place G1.n v1 v2 u)) = 0 := by omega
        left
        refine (h1.splits f).1 ⟨X, hp1, show G1.cv X = c by omega, fun e he => ?_⟩
        rw [← y3 e he, rpos e he]
        by_cases k3 : G2.pos e = v2
        · rw [if_pos k3]
        · rw [if_neg k3]
          have k4 := h2.const_of_zero hc k2 (h2.held.lt e he) hv2
          rw [hpv] at k4
          rw [k4]
          by_contra hh
          exact k3 (hout e he (fun hh' => hh (by rw [hh'])))
      · have hall : ∀ u, u < G1.n → X u = X v1 := by
          intro u hu
          by_contra hne
          apply hp1
          cases k1 : X u <;> cases k2 : X v1
          · exact absurd (k1.trans k2.symm) hne
          · exact ⟨⟨v1, hv1, k2⟩, ⟨u, hu, k1⟩⟩
          · exact ⟨⟨u, hu, k1⟩, ⟨v1, hv1, k2⟩⟩
          · exact absurd (k1.trans k2.symm) hne
        have k1 : G1.cv X = 0 := hconst G1 _ X hall
        have k2 : G2.cv (fun u => X (place G1.n v1 v2 u)) = c := by omega
        right
        refine (h2.splits f).1 ⟨_, Piece.proper_of_val (n := G2.n) (w := G2.toGraph.wt) (fun h0 => ?_), k2, fun e he => ?_⟩
        · have : c = 0 := k2.symm.trans h0
          omega
        · rw [← y3 e he, rpos e he]
          by_cases k3 : G2.pos e = v2
          · rw [if_pos k3, k3, hpv, hall _ (h1.held.lt e he)]
          · rw [if_neg k3]
    · rintro (hf | hf)
      · obtain ⟨X, y1, y2, y3⟩ := (h1.splits f).2 hf
        refine ⟨ext1 X, ?_, (hx1 X).trans y2, fun e he => ?_⟩
        · obtain ⟨⟨a, ha, k1⟩, ⟨b, hb, k2⟩⟩ := y1
          exact ⟨⟨a, by omega, (if_pos ha).trans k1⟩, ⟨b, by omega, (if_pos hb).trans k2⟩⟩
        · rw [← y3 e he, rpos e he]
          by_cases k3 : G2.pos e = v2
          · rw [if_pos k3]; exact if_pos (h1.held.lt e he)
          · rw [if_neg k3]
            have k4 : G1.pos e = v1 := by
              by_contra hh; exact k3 (hout e he hh)
            rw [k4]
            exact if_neg (by have := place_ge (n1 := G1.n) (v1 := v1) k3; omega)
      · obtain ⟨X, y1, y2, y3⟩ := (h2.splits f).2 hf
        refine ⟨ext2 X, ?_, (hx2 X).trans y2, fun e he => ?_⟩
        · obtain ⟨⟨a, ha, k1⟩, ⟨b, hb, k2⟩⟩ := y1
          exact ⟨⟨_, by rw [rn]; exact place_lt hv1 hv2 ha, (hx2p X a ha).trans k1⟩, ⟨_, by rw [rn]; exact place_lt hv1 hv2 hb, (hx2p X b hb).trans k2⟩⟩
        · rw [← y3 e he, rpos e he]
          by_cases k3 : G2.pos e = v2
          · rw [if_pos k3, k3]; exact if_pos (h1.held.lt e he)
          · rw [if_neg k3]; exact hx2p X _ (h2.held.lt e he)
  · intro x y hx hy hxy
    rw [rn] at hx hy
    by_cases hx' : x < G1.n
    · by_cases hy' : y < G1.n
      · obtain ⟨X, y1, y2, y3⟩ := h1.separating x y hx' hy' hxy
        exact ⟨ext1 X, (if_pos hx').trans y1, (if_pos hy').trans y2, (hx1 X).trans y3⟩
      · obtain ⟨u1, u2, u3⟩ := place_unplace (v1 := v1) (show G1.n ≤ y by omega) hy hv2
        by_cases hxv : x = v1
        · obtain ⟨X, y1, y2, y3⟩ := h2.separating v2 _ hv2 u2 (Ne.symm u3)
          refine ⟨ext2 X, (if_pos hx').trans y1, ?_, (hx2 X).trans y3⟩
          exact (if_neg hy').trans y2
        · obtain ⟨X, y1, y2, y3⟩ := h1.separating x v1 hx' hv1 hxv
          exact ⟨ext1 X, (if_pos hx').trans y1, (if_neg hy').trans y2, (hx1 X).trans y3⟩
    · obtain ⟨u1, u2, u3⟩ := place_unplace (v1 := v1) (show G1.n ≤ x by omega) hx hv2
      by_cases hy' : y < G1.n
      · by_cases hyv : y = v1
        · obtain ⟨X, y1, y2, y3⟩ := h2.separating _ v2 u2 hv2 u3
          exact ⟨ext2 X, (if_neg hx').trans y1, (if_pos hy').trans y2, (hx2 X).trans y3⟩
        · obtain ⟨X, y1, y2, y3⟩ := h1.separating v1 y hv1 hy' (Ne.symm hyv)
          exact ⟨ext1 X, (if_neg hx').trans y1, (if_pos hy').trans y2, (hx1 X).trans y3⟩
      · obtain ⟨w1, w2, w3⟩ := place_unplace (v1 := v1) (show G1.n ≤ y by omega) hy hv2
        obtain ⟨X, y1, y2, y3⟩ := h2.separating _ _ u2 w2 (fun hh => hxy (by rw [← u1, ← w1, hh]))
        exact ⟨ext2 X, (if_neg hx').trans y1, (if_neg hy').trans y2, (hx2 X).trans y3⟩
  · intro p hp hpc
    rw [r4]
    refine I.tidy p ?_ (by omega)
    rw [if_neg (by omega)]; omega

end GraphModification
end VieCut
