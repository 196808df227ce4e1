import Verif.Proof.STCactusOrder

/-!
# Ties in the queue of `findSTCactus`: the last vertex whose key was changed comes first
-/

namespace VieCut
open Finset MGraph Function

namespace STCactus

variable {K N : Nat} {q : BQ} {m : Nat → Option Nat}

theorem Hist.rel (hK : 2 * K < 2 ^ 32) (h : Hist K N q m) : BQ.Rel N K q m := (BQ.sim hK false).history h

theorem deleteNode_span (q : BQ) (v : Nat) : (q.deleteNode false v).span = q.span := by
  unfold BQ.deleteNode
  dsimp only
  split <;> rfl

theorem deleteNode_buckets (q : BQ) (v b : Nat) (hb : b ≠ bqAddr q.span (q.index v).2) : (q.deleteNode false v).buckets b = q.buckets b := by
  unfold BQ.deleteNode
  dsimp only
  split
  · exact update_of_ne hb _ _
  · exact update_of_ne hb _ _

theorem Hist.changeKey_last (hK : 2 * K < 2 ^ 32) (h : Hist K N q m) {v x : Nat} (hx : x ≤ K) :
    ((q.changeKey false v x).buckets (x + K)).getLast? = some v := by
  obtain ⟨h1, -⟩ := h.rel hK
  unfold BQ.changeKey BQ.insert
  dsimp only
  rw [deleteNode_span, h1, BQ.addr_eq hK hx, update_self]
  simp

theorem Hist.changeKey_other (hK : 2 * K < 2 ^ 32) (h : Hist K N q m) {v x x0 b : Nat} (hm : m v = some x0) (hx : x ≤ K) (h0 : b ≠ x0 + K)
    (h1 : b ≠ x + K) : (q.changeKey false v x).buckets b = q.buckets b := by
  obtain ⟨e1, e2⟩ := h.rel hK
  unfold BQ.changeKey BQ.insert
  dsimp only
  rw [deleteNode_span, e1, BQ.addr_eq hK hx, update_of_ne h1]
  refine deleteNode_buckets q v b ?_
  rw [h.getKey hK hm, e1, BQ.addr_eq hK (e2.dom v x0 hm).2]
  exact h0

theorem Hist.deleteMax_last (hK : 2 * K < 2 ^ 32) (h : Hist K N q m) {v M : Nat} (hm : m v = some M) (hmax : ∀ u y, m u = some y → y ≤ M)
    (hl : (q.buckets (M + K)).getLast? = some v) : (q.deleteMax false).1 = v := by
  obtain ⟨-, e2⟩ := h.rel hK
  have h0 : q.elements ≠ 0 := by
    intro hc
    have := e2.agrees_empty.1 hc v
    rw [hm] at this; cases this
  have htop := e2.top h0
  show (q.buckets q.maxIdx).getLastD 0 = v
  obtain ⟨r, hr⟩ : ∃ r, (q.buckets q.maxIdx).getLast? = some r := by
    cases e : (q.buckets q.maxIdx).getLast? with
    | none => exact absurd (List.getLast?_eq_none_iff.1 e) htop
    | some r => exact ⟨r, rfl⟩
  have hr' := hr
  rw [List.getLast?_eq_getElem?] at hr'
  obtain ⟨⟨r1, r2⟩, r3⟩ := e2.max hr'
  have a1 := hmax r _ r1
  have a2 := r2 v M hm
  have : q.maxIdx = M + K := by omega
  rw [this] at hr ⊢
  rw [List.getLastD_eq_getLast?, hl]
  rfl

/-- After a fold that changes each key at most once, a key that comes later in no other change is the last of its bucket. -/
theorem fold_last (hK : 2 * K < 2 ^ 32) (tgt : Nat → Nat) (f : Nat → Nat → Nat) (step : BQ → Nat → BQ) (m0 : Nat → Option Nat) :
    ∀ (l : List Nat) (q : BQ) (m1 : Nat → Option Nat),
      (∀ q m e, e ∈ l → Hist K N q m → m (tgt e) = m0 (tgt e) → Hist K N (step q e) (update m (tgt e) ((m (tgt e)).map (f (tgt e))))) →
      (∀ q m e x, e ∈ l → Hist K N q m → m (tgt e) = m0 (tgt e) → m0 (tgt e) = some x → ((step q e).buckets (f (tgt e) x + K)).getLast? = some (tgt e)) →
      (∀ q m e b, e ∈ l → Hist K N q m → m (tgt e) = m0 (tgt e) → (∀ x, m0 (tgt e) = some x → b ≠ x + K ∧ b ≠ f (tgt e) x + K) →
        (step q e).buckets b = q.buckets b) →
      (l.map tgt).Nodup → (∀ e ∈ l, m1 (tgt e) = m0 (tgt e)) → Hist K N q m1 → ∀ v M,
      (∀ e ∈ l, v < tgt e → ∀ x, m0 (tgt e) = some x → x ≠ M ∧ f (tgt e) x ≠ M) →
      l.Pairwise (fun e e' => tgt e < tgt e') →
      ((∃ x, v ∈ l.map tgt ∧ m0 v = some x ∧ f v x = M) ∨ ((∀ e ∈ l, v < tgt e) ∧ (q.buckets (M + K)).getLast? = some v)) →
      ((l.foldl step q).buckets (M + K)).getLast? = some v := by
  intro l
  induction l with
  | nil =>
    intro q m1 _ _ _ _ _ _ v M _ _ h
    rcases h with ⟨x, h, -⟩ | ⟨-, h⟩
    · simp at h
    · exact h
  | cons e l ih =>
    intro q m1 s1 s2 s3 hnd hm1 hq v M hv hp h
    rw [List.map_cons, List.nodup_cons] at hnd
    rw [List.pairwise_cons] at hp
    rw [List.foldl_cons]
    have hme := hm1 e List.mem_cons_self
    have hq' := s1 q m1 e List.mem_cons_self hq hme
    refine ih (step q e) _ (fun q m e' he' => s1 q m e' (List.mem_cons_of_mem _ he')) (fun q m e' x he' => s2 q m e' x (List.mem_cons_of_mem _ he'))
      (fun q m e' b he' => s3 q m e' b (List.mem_cons_of_mem _ he')) hnd.2 (fun e' he' => ?_) hq' v M (fun e' he' => hv e' (List.mem_cons_of_mem _ he')) hp.2 ?_
    · have hne : tgt e' ≠ tgt e := fun hh => hnd.1 (hh ▸ List.mem_map_of_mem he')
      rw [update_of_ne hne]
      exact hm1 e' (List.mem_cons_of_mem _ he')
    · rcases h with ⟨x, h1, h2, h3⟩ | ⟨h1, h2⟩
      · rw [List.map_cons, List.mem_cons] at h1
        rcases h1 with h1 | h1
        · right
          refine ⟨fun e' he' => h1 ▸ hp.1 e' he', ?_⟩
          subst h1
          rw [← h3]
          exact s2 q m1 e x List.mem_cons_self hq hme h2
        · exact Or.inl ⟨x, h1, h2, h3⟩
      · right
        refine ⟨fun e' he' => h1 e' (List.mem_cons_of_mem _ he'), ?_⟩
        rw [s3 q m1 e (M + K) List.mem_cons_self hq hme]
        · exact h2
        · intro x hx
          obtain ⟨a1, a2⟩ := hv e List.mem_cons_self (h1 e List.mem_cons_self) x hx
          omega

/-- The edges of a vertex lead to the other vertices in their order. -/
theorem Table.mono {k : Nat} {h : MGraph} {F : Nat → Nat → Nat} (H : Table k h F) (hF : ∀ u v, u < k → v < k → F u v = F v u) {x : Nat} (hx : x < k) :
    (List.range (h.len x)).Pairwise (fun e e' => (h.edge x e).target < (h.edge x e').target) := by
  have P := H.pairs hF
  have key : ∀ e, e < h.len x → (h.edge x e).target = if e < x then e else e + 1 := by
    intro e he
    obtain ⟨h1, h2, -⟩ := P.edge x e hx he
    rcases Nat.lt_or_gt_of_ne h2 with h3 | h3
    · obtain ⟨q1, q2⟩ := H.low _ _ h3 hx
      have := P.inj x e _ hx he q1 q2.symm
      rw [← this, if_pos (by omega)]
    · obtain ⟨q1, q2⟩ := H.up _ _ h3 h1
      have := P.inj x e _ hx he q1 q2.symm
      rw [if_neg (by omega)]; omega
  refine List.Pairwise.imp_of_mem ?_ List.pairwise_lt_range
  intro a b ha hb hab
  rw [key a (List.mem_range.1 ha), key b (List.mem_range.1 hb)]
  split <;> split <;> omega

variable {k c : Nat} {W : Nat → Nat → Nat} {C : MGraph}

/-- Which vertex is taken after the keys of the first vertex are set. -/
theorem start_last (H : Table k C W) (hF : ∀ u v, u < k → v < k → W u v = W v u) {s : Nat} (hs : s < k) (hK : 2 * (c + 1) < 2 ^ 32)
    (hle : ∀ v, v < k → v ≠ s → W s v ≤ c) {v : Nat} (hv : v < k) (hvs : v ≠ s)
    (hbest : ∀ u, u < k → u ≠ s → u ≠ v → W s u < W s v ∨ (W s u = W s v ∧ u < v)) :
    ((orderStart c C s).q.deleteMax false).1 = v := by
  have P := H.pairs hF
  have h1 := inserts_history (K := c + 1) (k := k) (s := s) k (le_refl k)
  obtain ⟨t1, t2⟩ := P.targets hs
  have hh := start_history P hs (by omega) hle
  refine hh.deleteMax_last hK (v := v) (M := W s v) (if_pos ⟨hv, hvs⟩) (fun u y hu => ?_) ?_
  · by_cases hc : u < k ∧ u ≠ s
    · rw [if_pos hc] at hu
      rw [← Option.some.inj hu]
      by_cases huv : u = v
      · rw [huv]
      · rcases hbest u hc.1 hc.2 huv with h | h <;> omega
    · rw [if_neg hc] at hu; cases hu
  · unfold orderStart
    rw [H.n]
    refine fold_last (K := c + 1) (N := k) hK (fun e => (C.edge s e).target) (fun v _ => W s v)
      (fun q e => q.changeKey false (C.edge s e).target (key (C.edge s e).weight)) (fun v => if v < k ∧ v ≠ s then some 0 else none)
      (List.range (C.len s)) _ _ ?_ ?_ ?_ t1 (fun _ _ => rfl) h1 v (W s v) ?_ (H.mono hF hs) ?_
    · intro q m e he hq hm
      obtain ⟨e1, e2, e3⟩ := P.edge s e hs (List.mem_range.1 he)
      rw [if_pos ⟨e1, e2⟩] at hm
      have hl := hle _ e1 e2
      rw [hm, e3, key_of_lt (by omega)]
      exact hq.changeKey hm (by omega)
    · intro q m e x he hq hm _
      obtain ⟨e1, e2, e3⟩ := P.edge s e hs (List.mem_range.1 he)
      have hl := hle _ e1 e2
      rw [e3, key_of_lt (by omega)]
      exact hq.changeKey_last hK (by omega)
    · intro q m e b he hq hm hb
      obtain ⟨e1, e2, e3⟩ := P.edge s e hs (List.mem_range.1 he)
      rw [if_pos ⟨e1, e2⟩] at hm
      have hl := hle _ e1 e2
      obtain ⟨b1, b2⟩ := hb 0 (if_pos ⟨e1, e2⟩)
      rw [e3, key_of_lt (by omega)]
      exact hq.changeKey_other hK hm (by omega) b1 b2
    · intro e he hve x hx
      obtain ⟨e1, e2, e3⟩ := P.edge s e hs (List.mem_range.1 he)
      rw [if_pos ⟨e1, e2⟩] at hx
      have := Option.some.inj hx
      rcases hbest _ e1 e2 (by omega) with h | h
      · omega
      · omega
    · exact Or.inl ⟨0, (t2 v).2 ⟨hv, hvs⟩, if_pos ⟨hv, hvs⟩, rfl⟩

/-- Which vertex is taken after the keys of the neighbours of a vertex are raised. -/
theorem raise_last (H : Table k C W) (hF : ∀ u v, u < k → v < k → W u v = W v u) (hK : 2 * (c + 1) < 2 ^ 32) {x : Nat} (hx : x < k) {q : BQ}
    {m : Nat → Option Nat} (h : Hist (c + 1) k q m) (hmx : m x = none) {v a : Nat} (hv : v < k) (hvx : v ≠ x) (hmv : m v = some a)
    (hac : ∀ u y, m u = some y → y ≤ c)
    (hbest : ∀ u y, u < k → u ≠ x → u ≠ v → m u = some y → min (y + W x u) c < min (a + W x v) c ∨ (min (y + W x u) c = min (a + W x v) c ∧ u < v)) :
    (((List.range (C.len x)).foldl (raise c C x) q).deleteMax false).1 = v := by
  have P := H.pairs hF
  obtain ⟨t1, t2⟩ := P.targets hx
  have hh := raise_history P hK hx h
  refine hh.deleteMax_last hK (v := v) (M := min (a + W x v) c) (by rw [if_pos ⟨hv, hvx⟩, hmv]; rfl) (fun u y hu => ?_) ?_
  · by_cases hc : u < k ∧ u ≠ x
    · rw [if_pos hc] at hu
      obtain ⟨y', hy', rfl⟩ := Option.map_eq_some_iff.1 hu
      by_cases huv : u = v
      · subst huv; rw [hmv] at hy'; cases hy'; exact le_refl _
      · rcases hbest u y' hc.1 hc.2 huv hy' with h | h <;> omega
    · rw [if_neg hc] at hu
      by_cases hux : u = x
      · subst hux; rw [hmx] at hu; cases hu
      · have := (((h.rel hK).2).dom u y hu).1
        exact absurd ⟨this, hux⟩ hc
  · refine fold_last (K := c + 1) (N := k) hK (fun e => (C.edge x e).target) (fun v a => min (a + W x v) c)
      (raise c C x) m (List.range (C.len x)) _ _ ?_ ?_ ?_ t1 (fun _ _ => rfl) h v _ ?_ (H.mono hF hx) ?_
    · intro q m e he hq hm
      obtain ⟨e1, e2, e3⟩ := P.edge x e hx (List.mem_range.1 he)
      unfold raise
      dsimp only
      cases hmt : m (C.edge x e).target with
      | none =>
        rw [if_neg]
        · simp only [Option.map_none]
          rw [show update m (C.edge x e).target none = m from by rw [← hmt]; exact update_eq_self _ _]
          exact hq
        · rw [hq.contains hK]
          rintro ⟨y, hy⟩
          rw [hmt] at hy; cases hy
      | some a =>
        rw [if_pos ((hq.contains hK _).2 ⟨a, hmt⟩), hq.getKey hK hmt, e3]
        have : min (a + W x (C.edge x e).target) c ≤ c := min_le_right _ _
        rw [key_of_lt (by omega)]
        exact hq.changeKey hmt (by omega)
    · intro q m' e y he hq hm hy
      obtain ⟨e1, e2, e3⟩ := P.edge x e hx (List.mem_range.1 he)
      rw [hy] at hm
      unfold raise
      dsimp only
      rw [if_pos ((hq.contains hK _).2 ⟨y, hm⟩), hq.getKey hK hm, e3]
      have : min (y + W x (C.edge x e).target) c ≤ c := min_le_right _ _
      rw [key_of_lt (by omega)]
      exact hq.changeKey_last hK (by omega)
    · intro q m' e b he hq hm hb
      obtain ⟨e1, e2, e3⟩ := P.edge x e hx (List.mem_range.1 he)
      unfold raise
      dsimp only
      cases hmt : m' (C.edge x e).target with
      | none =>
        rw [if_neg]
        rw [hq.contains hK]
        rintro ⟨y, hy⟩
        rw [hmt] at hy; cases hy
      | some y =>
        obtain ⟨b1, b2⟩ := hb y (by rw [← hm, hmt])
        rw [if_pos ((hq.contains hK _).2 ⟨y, hmt⟩), hq.getKey hK hmt, e3]
        have : min (y + W x (C.edge x e).target) c ≤ c := min_le_right _ _
        rw [key_of_lt (by omega)]
        exact hq.changeKey_other hK hmt (by omega) b1 b2
    · intro e he hve y hy
      obtain ⟨e1, e2, e3⟩ := P.edge x e hx (List.mem_range.1 he)
      have hyc := hac _ y hy
      rcases hbest _ y e1 e2 (by omega) hy with h | h
      · omega
      · omega
    · exact Or.inl ⟨a, (t2 v).2 ⟨hv, hvx⟩, hmv, rfl⟩

end STCactus
end VieCut
