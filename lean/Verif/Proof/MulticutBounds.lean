import Verif.Model.MulticutBounds
import Verif.Proof.Isolating

namespace VieCut
open Finset

variable {n : Nat} {w : Nat → Nat → Nat}

theorem wsum_le_wsum {a b : Nat → Nat → Nat} (h : ∀ u v, u < n → v < n → w u v ≠ 0 → a u v ≤ b u v) :
    wsum n w a ≤ wsum n w b := by
  refine Finset.sum_le_sum fun u hu => Finset.sum_le_sum fun v hv => ?_
  by_cases h0 : w u v = 0
  · simp [h0]
  · exact Nat.mul_le_mul_right _ (h u v (Finset.mem_range.1 hu) (Finset.mem_range.1 hv) h0)

theorem wsum_list {α : Type} (l : List α) (a : α → Nat → Nat → Nat) :
    wsum n w (fun u v => (l.map fun x => a x u v).sum) = (l.map fun x => wsum n w (a x)).sum := by
  induction l with
  | nil => simp [wsum]
  | cons x l ih => simp only [List.map_cons, List.sum_cons]; rw [wsum_add, ih]

theorem wsum_row {t : Nat} (ht : t < n) : wsum n w (fun u _ => ind (u = t)) = ∑ v ∈ range n, w t v := by
  unfold wsum
  rw [Finset.sum_eq_single t]
  · simp [ind]
  · intro u _ hu; simp [ind, hu]
  · intro h; exact absurd (Finset.mem_range.2 ht) h

/-- The edges of a solution are covered by the stars of a vertex list. -/
theorem multicut_le_stars (hw : ∀ u v, w u v = w v u) (L : List Nat) (hL : ∀ t ∈ L, t < n) {f : Nat → Nat}
    (h : ∀ u v, u < n → v < n → w u v ≠ 0 → f u ≠ f v → u ∈ L ∨ v ∈ L) :
    multicutValue n w f ≤ (L.map fun t => ∑ v ∈ range n, w t v).sum := by
  have h1 := two_multicut (n := n) hw f
  have h2 : wsum n w (fun u v => ind (f u ≠ f v)) ≤
      wsum n w (fun u v => (L.map fun t => ind (u = t)).sum + (L.map fun t => ind (v = t)).sum) := by
    refine wsum_le_wsum fun u v hu hv h0 => ?_
    have hge : ∀ x, x ∈ L → 1 ≤ (L.map fun t => ind (x = t)).sum := by
      intro x hx
      have := List.single_le_sum (l := L.map fun t => ind (x = t)) (by simp) 1
        (List.mem_map.2 ⟨x, hx, ind_pos rfl⟩)
      exact this
    by_cases hf : f u ≠ f v
    · rw [ind_pos hf]
      rcases h u v hu hv h0 hf with h' | h'
      · have := hge u h'; omega
      · have := hge v h'; omega
    · rw [ind_neg hf]; exact Nat.zero_le _
  rw [wsum_add] at h2
  have h3 := wsum_swap (n := n) hw (fun u _ => (L.map fun t => ind (u = t)).sum)
  have h4 : wsum n w (fun u _ => (L.map fun t => ind (u = t)).sum) = (L.map fun t => ∑ v ∈ range n, w t v).sum := by
    rw [wsum_list L (fun t u _ => ind (u = t))]
    congr 1
    exact List.map_congr_left fun t ht => wsum_row (hL t ht)
  omega

/-- Every solution pays for an isolating cut of each terminal, counting each edge at most twice. -/
theorem sum_cuts_le (hw : ∀ u v, w u v = w v u) (L : List Nat) (hnd : L.Nodup) {f : Nat → Nat} (hf : Separates L f) :
    (L.map fun t => cutValue n w (fun x => decide (f x = f t))).sum ≤ 2 * multicutValue n w f := by
  rw [← two_multicut (n := n) hw f]
  have h1 : (L.map fun t => cutValue n w (fun x => decide (f x = f t))).sum =
      wsum n w (fun u v => (L.map fun t => ind (f u = f t ∧ f v ≠ f t)).sum) := by
    rw [wsum_list L (fun t u v => ind (f u = f t ∧ f v ≠ f t))]
    congr 1
    refine List.map_congr_left fun t _ => ?_
    rw [cutValue_eq_wsum]
    refine wsum_congr fun u v _ _ => ind_congr ?_
    simp
  rw [h1]
  refine wsum_mono fun u v _ _ => ?_
  have key : ∀ L : List Nat, L.Nodup → Separates L f → (L.map fun t => ind (f u = f t ∧ f v ≠ f t)).sum ≤ ind (f u ≠ f v) := by
    intro L
    induction L with
    | nil => intro _ _; simp
    | cons t L ih =>
      intro hnd hf
      obtain ⟨ht, hnd'⟩ := List.nodup_cons.1 hnd
      rw [List.map_cons, List.sum_cons]
      by_cases hc : f u = f t ∧ f v ≠ f t
      · have hz : (L.map fun t => ind (f u = f t ∧ f v ≠ f t)).sum = 0 := by
          rw [List.sum_eq_zero]
          intro x hx
          obtain ⟨s, hs, rfl⟩ := List.mem_map.1 hx
          refine ind_neg fun h => ?_
          have hne : t ≠ s := fun e => ht (e ▸ hs)
          exact hf t (by simp) s (by simp [hs]) hne (hc.1.symm.trans h.1)
        rw [hz, ind_pos hc, ind_pos (show f u ≠ f v from fun e => hc.2 (e.symm.trans hc.1))]
      · rw [ind_neg hc, Nat.zero_add]
        exact ih hnd' fun s hs t ht => hf s (by simp [hs]) t (by simp [ht])
  exact key L hnd hf

namespace Problem
open MGraph

/-- The fibre of a terminal under the contraction of the bases is again a minimum isolating cut. -/
theorem isoSpec_fibre {N : Nat} {w : Nat → Nat → Nat} (hw : ∀ u v, w u v = w v u) {ts : List Nat}
    (Q : List (Nat × List Nat)) (A : List Nat) (hts : ∀ q ∈ Q, q.1 ∈ ts) (hnd : (Q.map Prod.fst).Nodup)
    (hnd2 : ∀ q ∈ Q, q.2.Nodup)
    (hQ : ∀ q ∈ Q, IsolatingCut N w ts q.1 (fun x => decide (x ∈ q.2) && !decide (x ∈ A))) :
    ∀ q ∈ Q, ∃ S : Nat → Bool, IsolatingCut N w ts q.1 S ∧
      ∀ x, S x = true ↔ x = q.1 ∨ ∃ c ∈ isoSpec (Q.map Prod.snd) A, q.1 ∈ c ∧ x ∈ c := by
  induction Q generalizing A with
  | nil => simp
  | cons q Q ih =>
    rw [List.map_cons] at hnd
    obtain ⟨hq0, hnd'⟩ := List.nodup_cons.1 hnd
    have hq := hQ q (by simp)
    have hsrc := hq.source
    simp only [Bool.and_eq_true, decide_eq_true_eq, Bool.not_eq_true', decide_eq_false_iff_not] at hsrc
    -- the first terminal is in no block of another terminal
    have hno : ∀ q' ∈ Q, q.1 ∉ q'.2 := by
      intro q' hq' hin
      have hne : q.1 ≠ q'.1 := fun e => hq0 (e ▸ List.mem_map.2 ⟨q', hq', rfl⟩)
      have := (hQ q' (by simp [hq'])).sinks q.1 (hts q (by simp)) hne
      simp [hin, hsrc.2] at this
    -- and other terminals are not in its block
    have hno' : ∀ q' ∈ Q, q'.1 ∉ q.2 ∨ q'.1 ∈ A := by
      intro q' hq'
      have hne : q'.1 ≠ q.1 := fun e => hq0 (e ▸ List.mem_map.2 ⟨q', hq', rfl⟩)
      have := hq.sinks q'.1 (hts q' (by simp [hq'])) hne
      simp only [Bool.and_eq_false_iff, decide_eq_false_iff_not, Bool.not_eq_false', decide_eq_true_eq] at this
      exact this
    rw [List.map_cons]
    unfold isoSpec
    by_cases hl : q.2.length > 1
    · rw [if_pos hl]
      have hA' : ∀ x, x ∈ A ++ q.2.filter (fun x => decide (x ∉ A)) ↔ x ∈ A ∨ x ∈ q.2 := by
        intro x
        rw [List.mem_append, List.mem_filter]
        by_cases hx : x ∈ A <;> simp [hx]
      have hQ' : ∀ q' ∈ Q, IsolatingCut N w ts q'.1
          (fun x => decide (x ∈ q'.2) && !decide (x ∈ A ++ q.2.filter (fun x => decide (x ∉ A)))) := by
        intro q' hq'
        have hne : q'.1 ≠ q.1 := fun e => hq0 (e ▸ List.mem_map.2 ⟨q', hq', rfl⟩)
        have := (hQ q' (by simp [hq'])).diff hw hq (hts q' (by simp [hq'])) (hts q (by simp)) hne
        refine (congrArg (fun S => IsolatingCut N w ts q'.1 S) ?_).mp this
        funext x
        have := hA' x
        by_cases a : x ∈ A <;> by_cases b : x ∈ q.2 <;> by_cases c : x ∈ q'.2 <;> simp [a, b, c]
      obtain ⟨_, _, _, _, _, _, h6⟩ := isoSpec_isolating hw Q (A ++ q.2.filter (fun x => decide (x ∉ A)))
        (fun q' hq' => hts q' (by simp [hq'])) hnd' hQ'
      intro q' hq'
      rcases List.mem_cons.1 hq' with rfl | hq'
      · refine ⟨_, hq, fun x => ?_⟩
        constructor
        · intro hx
          refine Or.inr ⟨_, List.mem_cons_self, ?_, ?_⟩
          · simp [hsrc]
          · simpa using hx
        · rintro (rfl | ⟨c, hc, h1, h2⟩)
          · exact hq.source
          · rcases List.mem_cons.1 hc with rfl | hc
            · simpa using h2
            · obtain ⟨_, q'', hq'', h3⟩ := h6 c hc _ h1
              exact absurd h3 (hno q'' hq'')
      · obtain ⟨S, h1, h2⟩ := ih _ (fun q' hq' => hts q' (by simp [hq'])) hnd' (fun q' hq' => hnd2 q' (by simp [hq'])) hQ'
          q' hq'
        refine ⟨S, h1, fun x => (h2 x).trans ?_⟩
        constructor
        · rintro (rfl | ⟨c, hc, h⟩)
          · exact Or.inl rfl
          · exact Or.inr ⟨c, List.mem_cons_of_mem _ hc, h⟩
        · rintro (rfl | ⟨c, hc, h⟩)
          · exact Or.inl rfl
          · rcases List.mem_cons.1 hc with rfl | hc
            · have := List.mem_filter.1 h.1
              rcases hno' q' hq' with h' | h'
              · exact absurd this.1 h'
              · simp [h'] at this
            · exact Or.inr ⟨c, hc, h⟩
    · rw [if_neg hl]
      have hQ' : ∀ q' ∈ Q, IsolatingCut N w ts q'.1 (fun x => decide (x ∈ q'.2) && !decide (x ∈ A)) :=
        fun q' hq' => hQ q' (by simp [hq'])
      obtain ⟨_, _, _, _, _, _, h6⟩ := isoSpec_isolating hw Q A (fun q' hq' => hts q' (by simp [hq'])) hnd' hQ'
      intro q' hq'
      rcases List.mem_cons.1 hq' with rfl | hq'
      · refine ⟨_, hq, fun x => ?_⟩
        have hlist : q'.2 = [q'.1] := by
          have h1 := hsrc.1
          match h : q'.2 with
          | [] => rw [h] at h1; simp at h1
          | [a] => rw [h] at h1; simp only [List.mem_singleton] at h1; rw [h1]
          | a :: b :: l => rw [h] at hl; simp at hl
        constructor
        · intro hx
          simp only [Bool.and_eq_true, decide_eq_true_eq] at hx
          rw [hlist] at hx
          exact Or.inl (by simpa using hx.1)
        · rintro (rfl | ⟨c, hc, h1, h2⟩)
          · exact hq.source
          · rcases List.mem_cons.1 hc with rfl | hc
            · simp at h1
            · obtain ⟨_, q'', hq'', h3⟩ := h6 c hc _ h1
              exact absurd h3 (hno q'' hq'')
      · obtain ⟨S, h1, h2⟩ := ih A (fun q' hq' => hts q' (by simp [hq'])) hnd' (fun q' hq' => hnd2 q' (by simp [hq'])) hQ'
          q' hq'
        refine ⟨S, h1, fun x => (h2 x).trans ?_⟩
        constructor
        · rintro (rfl | ⟨c, hc, h⟩)
          · exact Or.inl rfl
          · exact Or.inr ⟨c, List.mem_cons_of_mem _ hc, h⟩
        · rintro (rfl | ⟨c, hc, h⟩)
          · exact Or.inl rfl
          · rcases List.mem_cons.1 hc with rfl | hc
            · simp at h
            · exact Or.inr ⟨c, hc, h⟩

variable {ots : List Nat} {p : Problem}

/-- Contracting isolating cuts: as `contractIsolatingBlocks_ok`, with the weighted degrees of the terminals. -/
theorem contractIsolatingBlocks_degrees (h : Ok ots p) {ord : Nat → List Nat → List Nat} (ho : IsOrder ord)
    (Q : List (Nat × List Nat)) (hts : ∀ q ∈ Q, q.1 ∈ p.spots ots) (hnd : (Q.map Prod.fst).Nodup)
    (hblk : ∀ q ∈ Q, q.2.Nodup ∧ ∀ x ∈ q.2, x < p.graph.n)
    (hcut : ∀ q ∈ Q, IsolatingCut p.graph.n p.graph.toGraph.wt (p.spots ots) q.1 (fun x => decide (x ∈ q.2))) :
    let p2 := p.contractIsolatingBlocks ord (Q.map Prod.snd)
    Ok ots p2 ∧ (∀ c, Optimum ots p c ↔ Optimum ots p2 c) ∧
    (∀ q ∈ Q, ∀ o ∈ ots, p.at' o = q.1 →
      p2.graph.wdeg (p2.at' o) = cutValue p.graph.n p.graph.toGraph.wt (fun x => decide (x ∈ q.2))) ∧
    (∀ o ∈ ots, (∀ q ∈ Q, p.at' o ≠ q.1) → p2.graph.wdeg (p2.at' o) = p.graph.wdeg (p.at' o)) := by
  intro p2
  have hb : ∀ b ∈ Q.map Prod.snd, b.Nodup := by
    intro b hb
    obtain ⟨q, hq, rfl⟩ := List.mem_map.1 hb
    exact (hblk q hq).1
  have hcut' : ∀ q ∈ Q, IsolatingCut p.graph.n p.graph.toGraph.wt (p.spots ots) q.1
      (fun x => decide (x ∈ q.2) && !decide (x ∈ ([] : List Nat))) := by
    intro q hq
    refine (congrArg (fun S => IsolatingCut p.graph.n p.graph.toGraph.wt (p.spots ots) q.1 S) ?_).mp (hcut q hq)
    funext x
    simp
  obtain ⟨L, h1, h2, _, h4, h5, h6⟩ := isoSpec_isolating h.valid.wf.wt_symm Q [] hts hnd hcut'
  obtain ⟨cls, c1, c2⟩ := mergeSafe_sets h.valid.wf.wt_symm L h1 h2
  have hk := contract_ok h ho (rev := (isoBases (Q.map Prod.snd)).1) (by
      rw [isoBases_eq _ hb]
      intro c hc
      refine ⟨fun x hx => ?_, isoSpec_nodup _ _ hb c hc⟩
      obtain ⟨_, q, hq, hxq⟩ := h6 c hc x hx
      exact (hblk q hq).2 x hxq) (by rw [isoBases_eq _ hb]; exact h5) (cls := cls) (by
      rw [isoBases_eq _ hb]
      intro c hc u hu v hv
      rcases h4 c hc with rfl | ⟨q, hq, hh⟩
      · simp at hu
      · exact c2 q hq u v ((hh u).1 hu) ((hh v).1 hv)) c1
      (p' := p2) rfl rfl rfl
  obtain ⟨k1, k2, ψ, k3, k4, k5⟩ := hk
  rw [isoBases_eq _ hb] at k5
  have hdeg : ∀ o ∈ ots, p2.graph.wdeg (p2.at' o) =
      cutValue p.graph.n p.graph.toGraph.wt (fun x => decide (ψ x = ψ (p.at' o))) := by
    intro o ho'
    have hlt : p2.at' o < p2.graph.n := k1.spot_lt _ (List.mem_map_of_mem ho')
    rw [Valid.wdeg_eq k1.valid hlt, ← k1.valid.wf.cut_singleton (by rw [toGraph_n]; exact hlt)]
    have hq := cutValue_quotient (w := p.graph.toGraph.wt) (w' := p2.graph.toGraph.wt) k3.lt k3.wt
      (fun x => x == p2.at' o)
    rw [show p.graph.toGraph.n = p.graph.n from toGraph_n _] at hq
    rw [hq]
    refine cutValue_congr fun u _ => ?_
    show decide (ψ u = p2.at' o) = _
    rw [k4 o ho']
  refine ⟨k1, k2, ?_, ?_⟩
  · intro q hq o ho' he
    rw [hdeg o ho', he]
    obtain ⟨S, s1, s2⟩ := isoSpec_fibre h.valid.wf.wt_symm Q [] hts hnd (fun q hq => (hblk q hq).1) hcut' q hq
    have hSq : cutValue p.graph.n p.graph.toGraph.wt (fun x => decide (ψ x = ψ q.1)) =
        cutValue p.graph.n p.graph.toGraph.wt S := by
      refine cutValue_congr fun u hu => ?_
      have hr : q.1 < p.graph.n := h.spot_lt _ (hts q hq)
      rw [Bool.eq_iff_iff, decide_eq_true_eq, k5 u q.1 hu hr, s2]
      constructor
      · rintro (h | ⟨c, hc, h, h'⟩)
        · exact Or.inl h
        · exact Or.inr ⟨c, hc, h', h⟩
      · rintro (h | ⟨c, hc, h, h'⟩)
        · exact Or.inl h
        · exact Or.inr ⟨c, hc, h', h⟩
    rw [hSq]
    have a1 := s1.min _ (hcut q hq).source (hcut q hq).sinks
    have a2 := (hcut q hq).min _ s1.source s1.sinks
    omega
  · intro o ho' hne
    rw [hdeg o ho']
    have hr : p.at' o < p.graph.n := h.spot_lt _ (List.mem_map_of_mem ho')
    rw [Valid.wdeg_eq h.valid hr, ← h.valid.wf.cut_singleton (by rw [toGraph_n]; exact hr), toGraph_n]
    refine cutValue_congr fun u hu => ?_
    rw [Bool.eq_iff_iff, decide_eq_true_eq, k5 u _ hu hr, beq_iff_eq]
    constructor
    · rintro (h' | ⟨c, hc, _, h'⟩)
      · exact h'
      · obtain ⟨_, q, hq, hin⟩ := h6 c hc _ h'
        have := (hcut q hq).sinks _ (List.mem_map_of_mem ho') (hne q hq)
        simp [hin] at this
    · exact Or.inl

/-! ### The loop over the degrees -/

/-- `isoSumStep` on pairs of index and degree. -/
def sumStep (s : IsoSum) (e : Nat × Nat) : IsoSum :=
  let s1 := if e.2 > s.maximum then { s with maxIndex := e.1, maximum := e.2 } else s
  { s1 with sum := s1.sum + e.2 }

theorem sumStep_spec (l : List (Nat × Nat)) :
    (l.foldl sumStep {}).sum = (l.map Prod.snd).sum ∧
    (l.foldl sumStep {}).maximum = (l.map Prod.snd).foldr max 0 ∧
    (((l.foldl sumStep {}).maximum = 0 ∧ (l.foldl sumStep {}).maxIndex = 0) ∨
      ((l.foldl sumStep {}).maxIndex, (l.foldl sumStep {}).maximum) ∈ l) := by
  induction l using List.reverseRecOn with
  | nil => simp
  | append_singleton l e ih =>
    obtain ⟨h1, h2, h3⟩ := ih
    have hfold : ∀ (l : List Nat) (a : Nat), l.foldr max a = max (l.foldr max 0) a := by
      intro l a
      induction l with
      | nil => simp
      | cons x l ih => simp only [List.foldr_cons]; rw [ih]; omega
    rw [List.foldl_append, List.foldl_cons, List.foldl_nil]
    generalize l.foldl sumStep {} = s at h1 h2 h3
    refine ⟨?_, ?_, ?_⟩
    · rw [List.map_append, List.sum_append, ← h1]
      unfold sumStep; dsimp only; split <;> simp
    · rw [List.map_append, List.foldr_append, List.map_singleton, List.foldr_cons, List.foldr_nil, hfold, ← h2]
      unfold sumStep; dsimp only; split <;> simp <;> omega
    · unfold sumStep; dsimp only
      split
      · exact Or.inr (by simp)
      · rcases h3 with h3 | h3
        · exact Or.inl h3
        · exact Or.inr (by simp [h3])

theorem sum_filter_ne (l : List (Nat × Nat)) (hnd : (l.map Prod.fst).Nodup) {m M : Nat} (h : (m, M) ∈ l) :
    ((l.filter fun e => decide (e.1 ≠ m)).map Prod.snd).sum + M = (l.map Prod.snd).sum := by
  induction l with
  | nil => simp at h
  | cons e l ih =>
    rw [List.map_cons] at hnd
    obtain ⟨h0, hnd'⟩ := List.nodup_cons.1 hnd
    rw [List.filter_cons]
    rcases List.mem_cons.1 h with h' | h'
    · rw [← h']
      have : l.filter (fun e => decide (e.1 ≠ m)) = l := by
        rw [List.filter_eq_self]
        intro e' he'
        have : e'.1 ≠ e.1 := fun e'' => h0 (List.mem_map.2 ⟨e', he', e''⟩)
        rw [← h'] at this
        simpa using this
      rw [if_neg (by simp), this, List.map_cons, List.sum_cons, Nat.add_comm]
    · have hne : e.1 ≠ m := fun e'' => h0 (List.mem_map.2 ⟨(m, M), h', e''.symm⟩)
      rw [if_pos (by simpa using hne), List.map_cons, List.map_cons, List.sum_cons, List.sum_cons, ← ih hnd' h']
      omega

/-! ### The recorded solution -/

theorem foldl_update_range (k b : Nat) (f : Nat → Nat) (v : Nat) :
    (List.range k).foldl (fun f v => Function.update f v b) f v = if v < k then b else f v := by
  induction k with
  | zero => simp
  | succ k ih =>
    rw [List.range_succ, List.foldl_append, List.foldl_cons, List.foldl_nil]
    by_cases hv : v = k
    · subst hv; simp
    · rw [Function.update_of_ne hv, ih]
      by_cases h : v < k
      · rw [if_pos h, if_pos (by omega)]
      · rw [if_neg h, if_neg (by omega)]

theorem foldl_update_zipIdx (a : Nat → Nat) (l : List Nat) (k : Nat) (f : Nat → Nat) (hnd : (l.map a).Nodup) :
    (∀ i (hi : i < l.length), (l.zipIdx k).foldl (fun f ol => Function.update f (a ol.1) ol.2) f (a l[i]) = k + i) ∧
    ∀ v, v ∉ l.map a → (l.zipIdx k).foldl (fun f ol => Function.update f (a ol.1) ol.2) f v = f v := by
  induction l generalizing k f with
  | nil => simp
  | cons o l ih =>
    rw [List.map_cons] at hnd
    obtain ⟨h0, hnd'⟩ := List.nodup_cons.1 hnd
    rw [List.zipIdx_cons, List.foldl_cons]
    obtain ⟨i1, i2⟩ := ih (k + 1) (Function.update f (a o) k) hnd'
    constructor
    · intro i hi
      rcases i with _ | i
      · rw [List.getElem_cons_zero, i2 _ h0]; simp
      · rw [List.getElem_cons_succ, i1 i (by simpa using hi)]; omega
    · intro v hv
      rw [List.map_cons, List.mem_cons] at hv
      push Not at hv
      rw [i2 v hv.2, Function.update_of_ne hv.1]

theorem partIndices_spec (h : Ok ots p) (b : Nat) :
    (∀ i (hi : i < ots.length), p.partIndices ots b (p.at' ots[i]) = i) ∧
    ∀ v, v < p.graph.n → v ∉ p.spots ots → p.partIndices ots b v = b := by
  obtain ⟨h1, h2⟩ := foldl_update_zipIdx p.at' ots 0
    ((List.range p.graph.n).foldl (fun f v => Function.update f v b) p.graph.part) h.apart
  refine ⟨fun i hi => (h1 i hi).trans (by omega), fun v hv hs => ?_⟩
  unfold partIndices
  rw [h2 v hs, foldl_update_range, if_pos hv]

theorem separates_partIndices (h : Ok ots p) (b : Nat) : Separates (p.spots ots) (p.partIndices ots b) := by
  intro s hs t ht hne he
  obtain ⟨o, ho, rfl⟩ := List.mem_map.1 hs
  obtain ⟨o', ho', rfl⟩ := List.mem_map.1 ht
  obtain ⟨i, hi, rfl⟩ := List.getElem_of_mem ho
  obtain ⟨j, hj, rfl⟩ := List.getElem_of_mem ho'
  rw [(partIndices_spec h b).1 i hi, (partIndices_spec h b).1 j hj] at he
  subst he
  exact hne rfl

/-! ### The terminal list -/

theorem mem_setTerminals {t : Terminal} (ht : t ∈ (p.setTerminals ots).terminals) :
    ∃ hi : t.origId < ots.length, t.position = p.at' ots[t.origId] ∧ 0 < p.graph.len t.position ∧
      t.position < p.graph.n := by
  unfold setTerminals at ht
  obtain ⟨oi, ho, h⟩ := List.mem_filterMap.1 ht
  split at h
  · rename_i hc
    simp only [Option.some.injEq] at h
    subst h
    have := List.mem_zipIdx ho
    have h2 := this.2.2
    simp only [Nat.sub_zero] at h2
    refine ⟨by simpa using this.2.1, ?_, hc.1, hc.2⟩
    simp only [← h2]
  · simp at h

theorem setTerminals_ids : ((p.setTerminals ots).terminals.map Terminal.origId).Nodup := by
  have key : ∀ (l : List (Nat × Nat)), (l.map Prod.snd).Nodup →
      ((l.filterMap fun oi => if p.graph.len (p.at' oi.1) > 0 ∧ p.at' oi.1 < p.graph.n then
        some (⟨p.at' oi.1, oi.2, invalidFlag p.terminals (p.at' oi.1)⟩ : Terminal) else none).map Terminal.origId).Nodup := by
    intro l hl
    refine List.Nodup.sublist (l₂ := l.map Prod.snd) ?_ hl
    clear hl
    induction l with
    | nil => simp
    | cons a l ih =>
      rw [List.filterMap_cons]
      split
      · exact ih.trans (by simp)
      · rename_i b hb
        split at hb
        · simp only [Option.some.injEq] at hb
          subst hb
          rw [List.map_cons, List.map_cons]
          exact ih.cons_cons _
        · simp at hb
  refine key _ ?_
  rw [List.zipIdx_map_snd]
  exact List.nodup_range'

theorem setTerminals_pos_nodup (h : Ok ots p) : ((p.setTerminals ots).tpos).Nodup := by
  have h1 := setTerminals_ids (ots := ots) (p := p)
  unfold tpos
  rw [List.Nodup, List.pairwise_map] at h1 ⊢
  refine h1.imp_of_mem ?_
  intro a b ha hb hne he
  obtain ⟨ia, pa, _⟩ := mem_setTerminals ha
  obtain ⟨ib, pb, _⟩ := mem_setTerminals hb
  rw [pa, pb] at he
  have := (List.nodup_map_iff_inj_on (List.Nodup.of_map _ h.apart)).1 h.apart _ (List.getElem_mem ia) _ (List.getElem_mem ib) he
  exact hne ((List.Nodup.getElem_inj_iff (List.Nodup.of_map _ h.apart)).1 this)

theorem setTerminals_has {i : Nat} (hi : i < ots.length) (hl : 0 < p.graph.len (p.at' ots[i]))
    (hn : p.at' ots[i] < p.graph.n) : ∃ t ∈ (p.setTerminals ots).terminals, t.origId = i ∧ t.position = p.at' ots[i] := by
  refine ⟨⟨p.at' ots[i], i, invalidFlag p.terminals (p.at' ots[i])⟩, ?_, rfl, rfl⟩
  unfold setTerminals
  refine List.mem_filterMap.2 ⟨(ots[i], i), ?_, ?_⟩
  · rw [List.mk_mem_zipIdx_iff_getElem?]; simp [hi]
  · simp only
    rw [if_pos ⟨hl, hn⟩]

theorem Ok.setPart (h : Ok ots p) (f : Nat → Nat) : Ok ots { p with graph := { p.graph with part := f } } :=
  ⟨⟨h.1.1, h.1.2, h.1.3, h.1.4, h.1.5, h.1.6, h.1.7⟩, h.2, h.3, h.4, h.5, h.6⟩

theorem isolated_deg {g : MGraph} (h : Valid g) {v : Nat} (hv : v < g.n) (hl : g.len v = 0) : g.wdeg v = 0 := by
  rw [Valid.wdeg_eq h hv]
  unfold Graph.deg
  rw [edges_nil_of_len hl]
  rfl

theorem getD_of_lt {l : List Nat} {i : Nat} (hi : i < l.length) : l.getD i 0 = l[i] := by
  simp [List.getD, hi]

/-- Everything about `maximumIsolatingFlow`. -/
theorem maximumIsolatingFlow_ok (h : Ok ots p) {ord : Nat → List Nat → List Nat} (ho : IsOrder ord)
    (flow : Nat → List Nat)
    (hflow : ∀ (i : Nat) (t : Terminal), (p.setTerminals ots).terminals[i]? = some t →
      (if t.invalid then flow i else [t.position]).Nodup ∧
      (∀ x ∈ (if t.invalid then flow i else [t.position]), x < p.graph.n) ∧
      IsolatingCut p.graph.n p.graph.toGraph.wt (p.spots ots) t.position
        (fun x => decide (x ∈ (if t.invalid then flow i else [t.position])))) :
    let p' := p.maximumIsolatingFlow ots ord flow
    let cuts := ((p.setTerminals ots).isoBlocks flow).map
      (fun b => cutValue p.graph.n p.graph.toGraph.wt (fun x => decide (x ∈ b)))
    Ok ots p' ∧ (∀ c, Optimum ots p c ↔ Optimum ots p' c) ∧
    p'.deleted = p.deleted ∧
    p'.upper = (p.deleted : Int) + cuts.sum - cuts.foldr max 0 ∧
    p'.lower = (p.deleted : Int) + ((cuts.sum + 1) / 2 : Nat) ∧
    (∀ c, Optimum ots p c → p'.lower ≤ c) ∧
    Separates (p'.spots ots) p'.graph.part ∧
    (∀ v, v < p'.graph.n → p'.graph.part v < ots.length ∨ p'.graph.part v = 0) ∧
    (∀ i (hi : i < ots.length), p'.graph.part (p'.at' ots[i]) = i) ∧
    (p'.deleted : Int) + multicutValue p'.graph.n p'.graph.toGraph.wt p'.graph.part ≤ p'.upper := by
  intro p' cuts
  set p1 := p.setTerminals ots with hp1
  have hok1 : Ok ots p1 := setTerminals_ok h
  -- the blocks with their terminals
  let Q : List (Nat × List Nat) :=
    p1.terminals.zipIdx.map fun ti => (ti.1.position, if ti.1.invalid then flow ti.2 else [ti.1.position])
  have hQ2 : Q.map Prod.snd = p1.isoBlocks flow := by
    show List.map _ (List.map _ _) = _
    rw [List.map_map]; rfl
  have hQ1 : Q.map Prod.fst = p1.tpos := by
    show List.map _ (List.map _ _) = _
    rw [List.map_map]
    show _ = p1.terminals.map Terminal.position
    conv_rhs => rw [← List.zipIdx_map_fst 0 p1.terminals]
    rw [List.map_map]; rfl
  have hQm : ∀ q ∈ Q, ∃ (i : Nat) (t : Terminal), p1.terminals[i]? = some t ∧ q = (t.position, if t.invalid then flow i else [t.position]) := by
    intro q hq
    obtain ⟨⟨t, i⟩, hti, rfl⟩ := List.mem_map.1 hq
    exact ⟨i, t, List.mk_mem_zipIdx_iff_getElem?.1 hti, rfl⟩
  let p1' : Problem := { p1 with terminals := p1.terminals.map fun t => { t with invalid := false } }
  have hok1' : Ok ots p1' := hok1.congr rfl rfl
  have hts : ∀ q ∈ Q, q.1 ∈ p1'.spots ots := by
    intro q hq
    have : q.1 ∈ p1.tpos := by rw [← hQ1]; exact List.mem_map_of_mem hq
    exact (mem_tpos_setTerminals.1 this).1
  have hnd : (Q.map Prod.fst).Nodup := by rw [hQ1]; exact setTerminals_pos_nodup h
  have hblk : ∀ q ∈ Q, q.2.Nodup ∧ ∀ x ∈ q.2, x < p1'.graph.n := by
    intro q hq
    obtain ⟨i, t, ht, rfl⟩ := hQm q hq
    exact ⟨(hflow i t ht).1, (hflow i t ht).2.1⟩
  have hcut : ∀ q ∈ Q, IsolatingCut p1'.graph.n p1'.graph.toGraph.wt (p1'.spots ots) q.1 (fun x => decide (x ∈ q.2)) := by
    intro q hq
    obtain ⟨i, t, ht, rfl⟩ := hQm q hq
    exact (hflow i t ht).2.2
  obtain ⟨k1, k2, k3, k4⟩ := contractIsolatingBlocks_degrees hok1' ho Q hts hnd hblk hcut
  rw [hQ2] at k1 k2 k3 k4
  set p2 := p1'.contractIsolatingBlocks ord (p1.isoBlocks flow) with hp2
  have hopt : ∀ c, Optimum ots p c ↔ Optimum ots p2 c := fun c =>
    (Optimum.congr (p := p) (p' := p1') rfl rfl rfl c).symm.trans (k2 c)
  -- degrees
  let E : Terminal → Nat := fun t => p2.graph.wdeg (p2.at' (ots.getD t.origId 0))
  have hE : p1.terminals.map E = cuts := by
    have h1 : p1.terminals.map E = p1.terminals.zipIdx.map (fun ti => E ti.1) := by
      conv_lhs => rw [← List.zipIdx_map_fst 0 p1.terminals]
      rw [List.map_map]; rfl
    rw [h1]
    show _ = List.map _ (List.map _ _)
    rw [List.map_map]
    refine List.map_congr_left ?_
    rintro ⟨t, i⟩ hti
    have hti' := List.mk_mem_zipIdx_iff_getElem?.1 hti
    obtain ⟨hi, hpos, _⟩ := mem_setTerminals (List.mem_of_getElem? hti')
    show p2.graph.wdeg (p2.at' (ots.getD t.origId 0)) = _
    rw [getD_of_lt hi]
    exact k3 (t.position, if t.invalid then flow i else [t.position]) (List.mem_map.2 ⟨(t, i), hti, rfl⟩) _
      (List.getElem_mem hi) hpos.symm
  let l : List (Nat × Nat) := p1.terminals.map fun t => (t.origId, E t)
  have hl2 : l.map Prod.snd = cuts := by
    rw [← hE]; show List.map _ (List.map _ _) = _; rw [List.map_map]; rfl
  have hl1 : (l.map Prod.fst).Nodup := by
    have : l.map Prod.fst = p1.terminals.map Terminal.origId := by
      show List.map _ (List.map _ _) = _; rw [List.map_map]; rfl
    rw [this]; exact setTerminals_ids
  have hfold : p2.terminals.foldl (isoSumStep ots p2) {} = l.foldl sumStep {} := by
    show (p1.terminals.map fun t => { t with invalid := false }).foldl (isoSumStep ots p2) {} = _
    rw [List.foldl_map, List.foldl_map]
    rfl
  obtain ⟨s1, s2, s3⟩ := sumStep_spec l
  rw [hl2] at s1 s2
  set s := l.foldl sumStep {} with hs
  have hp' : p' = setTerminals ots { p2 with
      graph := { p2.graph with part := p2.partIndices ots s.maxIndex }
      upper := (p2.deleted : Int) + s.sum - s.maximum
      lower := (p2.deleted : Int) + ((s.sum + 1) / 2 : Nat) } := by
    rw [← hfold]; rfl
  have hok' : Ok ots p' := by
    rw [hp']
    exact (k1.setPart (p2.partIndices ots s.maxIndex)).congr rfl rfl
  have hspots : p'.spots ots = p2.spots ots := by rw [hp']; rfl
  have hn : p'.graph.n = p2.graph.n := by rw [hp']; rfl
  have hwt : p'.graph.toGraph.wt = p2.graph.toGraph.wt := by rw [hp']; rfl
  have hpart : p'.graph.part = p2.partIndices ots s.maxIndex := by rw [hp']; rfl
  have hat : p'.at' = p2.at' := by rw [hp']; rfl
  have hdel : p'.deleted = p.deleted := by rw [hp']; rfl
  have hup : p'.upper = (p.deleted : Int) + s.sum - s.maximum := by rw [hp']; rfl
  have hlo : p'.lower = (p.deleted : Int) + ((s.sum + 1) / 2 : Nat) := by rw [hp']; rfl
  have hsep := separates_partIndices k1 s.maxIndex
  obtain ⟨q1, q2⟩ := partIndices_spec k1 s.maxIndex
  have hmi : s.maxIndex < ots.length ∨ s.maxIndex = 0 := by
    rcases s3 with s3 | s3
    · exact Or.inr s3.2
    · obtain ⟨t, ht, he⟩ := List.mem_map.1 s3
      obtain ⟨hi, _⟩ := mem_setTerminals ht
      have := congrArg Prod.fst he
      simp only at this
      exact Or.inl (this ▸ hi)
  refine ⟨hok', ?_, hdel, ?_, ?_, ?_, ?_, ?_, ?_, ?_⟩
  · intro c
    rw [hopt c]
    unfold Optimum
    rw [hspots, hn, hwt, hdel]
    rfl
  · rw [hup, s1, s2]
  · rw [hlo, s1]
  · rintro c ⟨d, hd, rfl⟩
    rw [hlo, s1]
    obtain ⟨⟨f, hf, rfl⟩, _⟩ := hd
    have hf' : Separates p1.tpos f := fun a ha b hb => hf a (mem_tpos_setTerminals.1 ha).1 b (mem_tpos_setTerminals.1 hb).1
    have h1 := sum_cuts_le (n := p.graph.n) h.valid.wf.wt_symm p1.tpos (setTerminals_pos_nodup h) hf'
    have h2 : cuts.sum ≤ (p1.tpos.map fun t => cutValue p.graph.n p.graph.toGraph.wt (fun x => decide (f x = f t))).sum := by
      have e1 : cuts = Q.map fun q => cutValue p.graph.n p.graph.toGraph.wt (fun x => decide (x ∈ q.2)) := by
        show List.map _ _ = _
        rw [← hQ2, List.map_map]; rfl
      have e3 : (p1.tpos.map fun t => cutValue p.graph.n p.graph.toGraph.wt (fun x => decide (f x = f t))) =
          Q.map fun q => cutValue p.graph.n p.graph.toGraph.wt (fun x => decide (f x = f q.1)) := by
        rw [← hQ1]
        exact List.map_map
      rw [e1, e3]
      refine List.sum_le_sum fun q hq => (hcut q hq).min (fun x => decide (f x = f q.1)) (by simp) fun t ht hne => ?_
      simp only [decide_eq_false_iff_not]
      exact hf t ht q.1 (hts q hq) hne
    have h3 : (cuts.sum + 1) / 2 ≤ multicutValue p.graph.n p.graph.toGraph.wt f := by omega
    generalize (cuts.sum + 1) / 2 = k at h3 ⊢
    omega
  · rw [hspots, hpart]; exact hsep
  · intro v hv
    rw [hn] at hv
    rw [hpart]
    by_cases hvs : v ∈ p2.spots ots
    · obtain ⟨o, ho', rfl⟩ := List.mem_map.1 hvs
      obtain ⟨i, hi, rfl⟩ := List.getElem_of_mem ho'
      rw [q1 i hi]; exact Or.inl hi
    · rw [q2 v hv hvs]; exact hmi
  · intro i hi
    rw [hpart, hat]; exact q1 i hi
  · -- the recorded solution
    rw [hdel, hup, hn, hwt, hpart]
    have hEz : ∀ i (hi : i < ots.length), p2.graph.wdeg (p2.at' ots[i]) ≠ 0 →
        ∃ t ∈ p1.terminals, t.origId = i := by
      intro i hi hne
      by_contra hc
      push Not at hc
      have hlen : p.graph.len (p.at' ots[i]) = 0 := by
        by_contra hl
        obtain ⟨t, ht, h1, _⟩ := setTerminals_has (p := p) hi (by omega) (h.spot_lt _ (List.mem_map_of_mem (List.getElem_mem hi)))
        exact hc t ht h1
      have := k4 ots[i] (List.getElem_mem hi) (by
        intro q hq he
        have : q.1 ∈ p1.tpos := by rw [← hQ1]; exact List.mem_map_of_mem hq
        have := (mem_tpos_setTerminals.1 this).2.1
        rw [← he] at this
        exact absurd this (by show ¬ (0 < p.graph.len (p.at' ots[i])); omega))
      rw [this] at hne
      exact hne (isolated_deg h.valid (h.spot_lt _ (List.mem_map_of_mem (List.getElem_mem hi))) hlen)
    let l' := l.filter fun e => decide (e.1 ≠ s.maxIndex)
    have hmem : ∀ i (hi : i < ots.length), p2.graph.wdeg (p2.at' ots[i]) ≠ 0 → i ≠ s.maxIndex →
        (i, p2.graph.wdeg (p2.at' ots[i])) ∈ l' := by
      intro i hi h1 h2
      obtain ⟨t, ht, rfl⟩ := hEz i hi h1
      refine List.mem_filter.2 ⟨List.mem_map.2 ⟨t, ht, ?_⟩, by simpa using h2⟩
      show (t.origId, p2.graph.wdeg (p2.at' (ots.getD t.origId 0))) = _
      rw [getD_of_lt hi]
    have hl'm : ∀ e ∈ l', ∃ hi : e.1 < ots.length, e.2 = p2.graph.wdeg (p2.at' ots[e.1]) := by
      intro e he
      obtain ⟨t, ht, rfl⟩ := List.mem_map.1 (List.mem_filter.1 he).1
      obtain ⟨hi, _⟩ := mem_setTerminals ht
      refine ⟨hi, ?_⟩
      show p2.graph.wdeg (p2.at' (ots.getD t.origId 0)) = _
      rw [getD_of_lt hi]
    have hstar := multicut_le_stars (n := p2.graph.n) (w := p2.graph.toGraph.wt) k1.valid.wf.wt_symm
      (l'.map fun e => p2.at' (ots.getD e.1 0)) (by
        intro t ht
        obtain ⟨e, he, rfl⟩ := List.mem_map.1 ht
        obtain ⟨hi, _⟩ := hl'm e he
        rw [getD_of_lt hi]
        exact k1.spot_lt _ (List.mem_map_of_mem (List.getElem_mem hi)))
      (f := p2.partIndices ots s.maxIndex) (by
        intro u v hu hv h0 hne
        have hone : ∀ x y, x < p2.graph.n → y < p2.graph.n → p2.graph.toGraph.wt x y ≠ 0 →
            p2.partIndices ots s.maxIndex x ≠ s.maxIndex → x ∈ l'.map fun e => p2.at' (ots.getD e.1 0) := by
          intro x y hx hy hxy hpx
          have hxs : x ∈ p2.spots ots := by
            by_contra hc
            exact hpx (q2 x hx hc)
          obtain ⟨o, ho', rfl⟩ := List.mem_map.1 hxs
          obtain ⟨i, hi, rfl⟩ := List.getElem_of_mem ho'
          rw [q1 i hi] at hpx
          refine List.mem_map.2 ⟨_, hmem i hi ?_ hpx, congrArg p2.at' (getD_of_lt hi)⟩
          rw [Valid.wdeg_eq k1.valid hx, k1.valid.wf.deg_eq, toGraph_n]
          intro hz
          exact hxy ((Finset.sum_eq_zero_iff.1 hz) y (Finset.mem_range.2 hy))
        by_cases hu' : p2.partIndices ots s.maxIndex u = s.maxIndex
        · right
          exact hone v u hv hu (by rw [k1.valid.wf.wt_symm]; exact h0) (fun e => hne (by rw [hu', e]))
        · exact Or.inl (hone u v hu hv h0 hu'))
    rw [List.map_map] at hstar
    have e2 : (l'.map ((fun t => ∑ v ∈ range p2.graph.n, p2.graph.toGraph.wt t v) ∘ fun e => p2.at' (ots.getD e.1 0))) =
        l'.map Prod.snd := by
      refine List.map_congr_left fun e he => ?_
      obtain ⟨hi, he2⟩ := hl'm e he
      show ∑ v ∈ range p2.graph.n, p2.graph.toGraph.wt (p2.at' (ots.getD e.1 0)) v = e.2
      rw [getD_of_lt hi, he2, Valid.wdeg_eq k1.valid (k1.spot_lt _ (List.mem_map_of_mem (List.getElem_mem hi))),
        k1.valid.wf.deg_eq, toGraph_n]
    rw [e2] at hstar
    have hfin : (l'.map Prod.snd).sum + s.maximum ≤ s.sum := by
      rcases s3 with s3 | s3
      · rw [s3.1, Nat.add_zero, s1, ← hl2]
        exact List.Sublist.sum_le_sum (List.filter_sublist.map _) (by simp)
      · rw [s1, ← hl2]
        exact (sum_filter_ne l hl1 s3).le
    omega

theorem foldl_update_mem (b : Nat) (l : List Nat) (f : Nat → Nat) (v : Nat) :
    l.foldl (fun f v => Function.update f v b) f v = if v ∈ l then b else f v := by
  induction l generalizing f with
  | nil => simp
  | cons x l ih =>
    rw [List.foldl_cons, ih]
    by_cases h : v = x
    · subst h; simp
    · simp [h, Function.update_of_ne h]

theorem len_pos_of_wt {g : MGraph} {u v : Nat} (h : g.toGraph.wt u v ≠ 0) : 0 < g.len u := by
  by_contra hc
  have := edges_nil_of_len (g := g) (u := u) (by omega)
  unfold Graph.wt at h
  rw [this] at h
  simp at h

/-- Two terminals: the flow is the optimum and the recorded solution attains it. -/
theorem maximumSTFlow_ok (h : Ok ots p) {t0 t1 : Terminal} (ht : (p.setTerminals ots).terminals = [t0, t1])
    (block : List Nat) (hlt : ∀ x ∈ block, x < p.graph.n)
    (hcut : IsolatingCut p.graph.n p.graph.toGraph.wt (p.spots ots) t0.position (fun x => decide (x ∈ block))) :
    let flow := cutValue p.graph.n p.graph.toGraph.wt (fun x => decide (x ∈ block))
    let p' := (p.setTerminals ots).maximumSTFlow ots flow block
    Ok ots p' ∧ p'.deleted = p.deleted ∧ p'.spots ots = p.spots ots ∧ p'.graph.n = p.graph.n ∧
    p'.graph.toGraph = p.graph.toGraph ∧
    p'.upper = ((p.deleted + flow : Nat) : Int) ∧ Optimum ots p (p.deleted + flow) ∧
    Separates (p.spots ots) p'.graph.part ∧
    (∀ i (hi : i < ots.length), p'.graph.part (p'.at' ots[i]) = i) ∧
    multicutValue p.graph.n p.graph.toGraph.wt p'.graph.part = flow := by
  intro flow p'
  set p1 := p.setTerminals ots with hp1
  have hok1 : Ok ots p1 := setTerminals_ok h
  have hp' : p' = { p1 with
      graph := { p1.graph with part := block.foldl (fun f v => Function.update f v t0.origId) (p1.partIndices ots t1.origId) }
      upper := (flow : Int) + p1.deleted } := by
    show maximumSTFlow ots (flow : Int) block p1 = _
    unfold maximumSTFlow
    rw [ht]
  obtain ⟨i0, pos0, _⟩ := mem_setTerminals (p := p) (ots := ots) (t := t0) (by rw [← hp1, ht]; simp)
  obtain ⟨i1, pos1, _⟩ := mem_setTerminals (p := p) (ots := ots) (t := t1) (by rw [← hp1, ht]; simp)
  have hids := setTerminals_ids (ots := ots) (p := p)
  rw [← hp1, ht] at hids
  have hne01 : t0.origId ≠ t1.origId := by simpa using hids
  obtain ⟨q1, q2⟩ := partIndices_spec hok1 t1.origId
  have hpart : ∀ v, p'.graph.part v = if v ∈ block then t0.origId else p1.partIndices ots t1.origId v := by
    intro v
    rw [hp']
    exact foldl_update_mem _ _ _ _
  have hmem0 : t0.position ∈ block := by simpa using hcut.source
  have hspotblock : ∀ i (hi : i < ots.length), p.at' ots[i] ∈ block → i = t0.origId := by
    intro i hi hb
    by_contra hne
    have := hcut.sinks (p.at' ots[i]) (List.mem_map_of_mem (List.getElem_mem hi)) (by
      rw [pos0]
      intro e
      have hnd := List.Nodup.of_map _ h.apart
      have := (List.nodup_map_iff_inj_on hnd).1 h.apart _ (List.getElem_mem hi) _ (List.getElem_mem i0) e
      exact hne ((List.Nodup.getElem_inj_iff hnd).1 this))
    simp [hb] at this
  have hlabel : ∀ i (hi : i < ots.length), p'.graph.part (p.at' ots[i]) = i := by
    intro i hi
    rw [hpart]
    split
    · rename_i hb; exact (hspotblock i hi hb).symm
    · exact q1 i hi
  have hsep : Separates (p.spots ots) p'.graph.part := by
    intro s hs t ht' hne he
    obtain ⟨o, ho, rfl⟩ := List.mem_map.1 hs
    obtain ⟨o', ho', rfl⟩ := List.mem_map.1 ht'
    obtain ⟨i, hi, rfl⟩ := List.getElem_of_mem ho
    obtain ⟨j, hj, rfl⟩ := List.getElem_of_mem ho'
    rw [hlabel i hi, hlabel j hj] at he
    subst he
    exact hne rfl
  have hw := h.valid.wf.wt_symm
  -- non-isolated vertices outside the block have the label of the second terminal
  have hout : ∀ v, v < p.graph.n → 0 < p.graph.len v → v ∉ block → p'.graph.part v = t1.origId := by
    intro v hv hl hb
    rw [hpart, if_neg hb]
    by_cases hs : v ∈ p1.spots ots
    · obtain ⟨o, ho, rfl⟩ := List.mem_map.1 hs
      obtain ⟨i, hi, rfl⟩ := List.getElem_of_mem ho
      obtain ⟨t, htm, e1, e2⟩ := setTerminals_has (p := p) hi hl hv
      rw [← hp1, ht] at htm
      have e3 : p1.partIndices ots t1.origId (p1.at' ots[i]) = i := q1 i hi
      rw [e3]
      rcases List.mem_cons.1 htm with rfl | htm
      · exact absurd (e2 ▸ hmem0) hb
      · rw [List.mem_singleton] at htm
        rw [← htm]; exact e1.symm
    · exact q2 v hv hs
  have hval : multicutValue p.graph.n p.graph.toGraph.wt p'.graph.part = flow := by
    have e1 := two_multicut (n := p.graph.n) hw p'.graph.part
    have e2 := two_cutValue (n := p.graph.n) hw (fun x => decide (x ∈ block))
    have e3 : wsum p.graph.n p.graph.toGraph.wt (fun u v => ind (p'.graph.part u ≠ p'.graph.part v)) =
        wsum p.graph.n p.graph.toGraph.wt (fun u v => ind (decide (u ∈ block) ≠ decide (v ∈ block))) := by
      have key : ∀ u v, u < p.graph.n → v < p.graph.n → p.graph.toGraph.wt u v ≠ 0 →
          ((p'.graph.part u ≠ p'.graph.part v) ↔ (decide (u ∈ block) ≠ decide (v ∈ block))) := by
        intro u v hu hv h0
        have lu := len_pos_of_wt h0
        have lv := len_pos_of_wt (show p.graph.toGraph.wt v u ≠ 0 by rw [hw]; exact h0)
        by_cases bu : u ∈ block <;> by_cases bv : v ∈ block
        · simp [hpart, bu, bv]
        · rw [hout v hv lv bv, hpart u, if_pos bu]; simp [bu, bv, hne01]
        · rw [hout u hu lu bu, hpart v, if_pos bv]; simp [bu, bv, hne01.symm]
        · rw [hout u hu lu bu, hout v hv lv bv]; simp [bu, bv]
      refine Nat.le_antisymm ?_ ?_
      · exact wsum_le_wsum fun u v hu hv h0 => (ind_congr (key u v hu hv h0)).le
      · exact wsum_le_wsum fun u v hu hv h0 => (ind_congr (key u v hu hv h0)).ge
    show multicutValue p.graph.n p.graph.toGraph.wt p'.graph.part = cutValue _ _ _
    omega
  have hopt : IsMinMulticut p.graph.n p.graph.toGraph.wt (p.spots ots) flow := by
    refine ⟨⟨_, hsep, hval⟩, fun f hf => ?_⟩
    have hmin := hcut.min (fun x => decide (f x = f t0.position)) (by simp) (by
      intro t ht' hne
      simp only [decide_eq_false_iff_not]
      exact hf t ht' _ (by rw [pos0]; exact List.mem_map_of_mem (List.getElem_mem i0)) hne)
    have e1 := two_multicut (n := p.graph.n) hw f
    have e2 := two_cutValue (n := p.graph.n) hw (fun x => decide (f x = f t0.position))
    have e3 : wsum p.graph.n p.graph.toGraph.wt
        (fun u v => ind (decide (f u = f t0.position) ≠ decide (f v = f t0.position))) ≤
        wsum p.graph.n p.graph.toGraph.wt (fun u v => ind (f u ≠ f v)) :=
      wsum_mono fun u v _ _ => ind_mono fun hne e => hne (by rw [e])
    show cutValue _ _ _ ≤ _
    omega
  refine ⟨?_, ?_, ?_, ?_, ?_, ?_, ⟨flow, hopt, rfl⟩, hsep, ?_, hval⟩
  · rw [hp']; exact (hok1.setPart _).congr rfl rfl
  · rw [hp']; rfl
  · rw [hp']; rfl
  · rw [hp']; rfl
  · rw [hp']; rfl
  · rw [hp']
    show (flow : Int) + (p.deleted : Int) = _
    push_cast; omega
  · intro i hi
    have : p'.at' = p.at' := by rw [hp']; rfl
    rw [this]; exact hlabel i hi

end Problem
end VieCut
