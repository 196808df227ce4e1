import Verif.Proof.Inexact
import Verif.Proof.Tools
import Verif.Proof.Random
import Verif.Proof.MutableContract
import Verif.Props.NOIMutable

/-! # Label propagation, trivial cut search and the main loop of `viecut` -/

namespace VieCut
open Finset Graph Function

/-! ### Label propagation -/

theorem lpEdge_lt {N : Nat} {rnd : Nat → Nat} {n : Nat} {st : LPState × Nat × Nat} {e : Nat × Nat} (he : e.1 < N)
    (h : (∀ v, v < N → st.1.cluster v < N) ∧ st.2.1 < N) :
    (∀ v, v < N → (lpEdge rnd n st e).1.cluster v < N) ∧ (lpEdge rnd n st e).2.1 < N := by
  unfold lpEdge
  simp only
  generalize (if (st.1.hash (st.1.cluster e.1)).2 ≠ n then update st.1.hash (st.1.cluster e.1) (0, n)
    else st.1.hash) = H
  split
  · exact ⟨h.1, h.1 _ he⟩
  · split
    · split
      · exact ⟨h.1, h.1 _ he⟩
      · exact h
    · exact h

theorem lpNode_lt {G : Graph} (hG : G.WF) {rnd perm : Nat → Nat} {s : LPState} {node : Nat} (hp : perm node < G.n)
    (h : ∀ v, v < G.n → s.cluster v < G.n) : ∀ v, v < G.n → (lpNode G rnd perm s node).cluster v < G.n := by
  unfold lpNode
  simp only
  have hf := foldl_inv (P := fun st : LPState × Nat × Nat => (∀ v, v < G.n → st.1.cluster v < G.n) ∧ st.2.1 < G.n)
    (f := lpEdge rnd (perm node)) (G.edges (perm node))
    (fun st e he hst => lpEdge_lt (hG.tgt_lt _ e he) hst) (s, s.cluster (perm node), 0) ⟨h, h _ hp⟩
  intro v hv
  rw [update_apply]
  split
  · exact hf.2
  · exact hf.1 v hv

theorem propagateLabels_lt {G : Graph} (hG : G.WF) (rnd : Nat → Nat) (σ : Nat → List Nat → List Nat)
    (hσ : ∀ k l, (σ k l).Perm l) : ∀ v, v < G.n → propagateLabels G rnd σ v < G.n := by
  have hp : (Rand.local' σ true (List.replicate G.n 0)).Perm (List.range G.n) := by
    have := Rand.local_go σ hσ _ 0 (Rand.initVec true (List.replicate G.n 0)) (le_refl _)
    simpa [Rand.local', Rand.initVec] using this
  have hlt : ∀ i, i < G.n → (Rand.local' σ true (List.replicate G.n 0)).getD i 0 < G.n := by
    intro i hi
    have hl : i < (Rand.local' σ true (List.replicate G.n 0)).length := by rw [hp.length_eq]; simpa using hi
    rw [List.getD_eq_getElem?_getD, List.getElem?_eq_getElem hl]
    have := hp.mem_iff.1 (List.getElem_mem hl)
    simpa using this
  unfold propagateLabels
  refine foldl_inv (P := fun s : LPState => ∀ v, v < G.n → s.cluster v < G.n) _ ?_ _ (fun v hv => hv)
  intro s _ _ hs
  refine foldl_inv (P := fun s : LPState => ∀ v, v < G.n → s.cluster v < G.n) _ ?_ _ hs
  intro s i hi hs
  exact lpNode_lt hG (hlt i (List.mem_range.1 hi)) hs

/-! ### `findTrivialCuts` -/

/-- `rev` lists the classes of `m`, all of them nonempty. -/
structure Blocks (n : Nat) (m : Nat → Nat) (rev : List (List Nat)) : Prop where
  lt : ∀ v, v < n → m v < rev.length
  surj : ∀ p, p < rev.length → ∃ v, v < n ∧ m v = p
  rev_eq : ∀ p, p < rev.length → rev.getD p [] = (List.range n).filter (fun v => m v = p)

theorem Blocks.length_le {n : Nat} {m : Nat → Nat} {rev : List (List Nat)} (h : Blocks n m rev) : rev.length ≤ n := by
  have : range rev.length ⊆ (range n).image m := by
    intro p hp
    obtain ⟨v, hv, he⟩ := h.surj p (mem_range.1 hp)
    exact mem_image.2 ⟨v, mem_range.2 hv, he⟩
  have h1 := card_le_card this
  have h2 := card_image_le (s := range n) (f := m)
  simp at h1 h2
  omega

theorem ftScan_best {G : Graph} {m : Nat → Nat} {p : Nat} (blk : List Nat) :
    ∀ idx best, (blk.zipIdx.foldl (ftScan G m p) (0, 0, none)).2.2 = some (idx, best) → blk[idx]? = some best := by
  refine foldl_inv (P := fun st : Int × Int × Option (Nat × Nat) =>
    ∀ idx best, st.2.2 = some (idx, best) → blk[idx]? = some best) _ ?_ _ (by intro i b h; cases h)
  intro st vi hvi h idx best hb
  unfold ftScan at hb
  simp only at hb
  split at hb
  · simp only [Option.some.injEq, Prod.mk.injEq] at hb
    rw [← hb.1, ← hb.2]
    exact List.mem_zipIdx_iff_getElem?.1 hvi
  · exact h idx best hb

theorem Blocks.split {n : Nat} {m : Nat → Nat} {rev : List (List Nat)} (h : Blocks n m rev) {p idx best : Nat}
    (hp : p < rev.length) (hb : (rev.getD p [])[idx]? = some best) (hl : (rev.getD p []).length > 1) :
    Blocks n (update m best rev.length) (rev.set p ((rev.getD p []).eraseIdx idx) ++ [[best]]) := by
  have hr := h.rev_eq p hp
  set blk := rev.getD p [] with hblk
  have hnd : blk.Nodup := by rw [hr]; exact List.nodup_range.filter _
  obtain ⟨hi, hbe⟩ := List.getElem?_eq_some_iff.1 hb
  have hmem : best ∈ blk := by rw [← hbe]; exact List.getElem_mem hi
  have hbest : best < n ∧ m best = p := by
    rw [hr, List.mem_filter, List.mem_range, decide_eq_true_eq] at hmem; exact hmem
  have her : blk.eraseIdx idx = blk.filter (fun v => v != best) := by
    rw [← hnd.erase_eq_filter, ← hbe, hnd.erase_getElem]
  refine ⟨?_, ?_, ?_⟩
  · intro v hv
    simp only [List.length_append, List.length_set, List.length_singleton, update_apply]
    split
    · omega
    · have := h.lt v hv; omega
  · intro q hq
    simp only [List.length_append, List.length_set, List.length_singleton] at hq
    by_cases hq' : q = rev.length
    · exact ⟨best, hbest.1, by rw [hq', update_self]⟩
    · by_cases hqp : q = p
      · have hlen : 0 < (blk.eraseIdx idx).length := by rw [List.length_eraseIdx_of_lt hi]; omega
        obtain ⟨v, hv⟩ := List.exists_mem_of_length_pos hlen
        rw [her, List.mem_filter, hr, List.mem_filter, List.mem_range, decide_eq_true_eq] at hv
        refine ⟨v, hv.1.1, ?_⟩
        rw [update_of_ne (by simpa using hv.2), hv.1.2, hqp]
      · obtain ⟨v, hv, he⟩ := h.surj q (by omega)
        refine ⟨v, hv, ?_⟩
        rw [update_of_ne]
        · exact he
        · rintro rfl; omega
  · intro q hq
    simp only [List.length_append, List.length_set, List.length_singleton] at hq
    by_cases hq' : q = rev.length
    · rw [getD_append_eq (by simpa using hq')]
      have : (List.range n).filter (fun v => decide (update m best rev.length v = q))
          = (List.range n).filter (fun v => v == best) := by
        refine List.filter_congr fun v hv => ?_
        rw [update_apply]
        by_cases hvb : v = best
        · simp [hvb, hq']
        · have := h.lt v (List.mem_range.1 hv)
          simp only [if_neg hvb, beq_eq_false_iff_ne.2 hvb, decide_eq_false_iff_not]; omega
      rw [this]
      have h2 : (List.range n).filter (fun v => v == best) = [best] := by
        have hc : (List.range n).count best = 1 := List.count_eq_one_of_mem List.nodup_range (List.mem_range.2 hbest.1)
        have := List.filter_beq (l := List.range n) best
        rw [this, hc]; rfl
      rw [h2]
    · rw [getD_append_lt (by simp; omega)]
      by_cases hqp : q = p
      · subst hqp
        rw [List.getD_eq_getElem?_getD, List.getElem?_set_self hp, Option.getD_some, her, hr, List.filter_filter]
        refine List.filter_congr fun v hv => ?_
        rw [update_apply]
        by_cases hvb : v = best
        · simp [hvb]; omega
        · simp [hvb]
      · rw [List.getD_eq_getElem?_getD, List.getElem?_set_ne (by omega), ← List.getD_eq_getElem?_getD,
          h.rev_eq q (by omega)]
        refine List.filter_congr fun v hv => ?_
        rw [update_apply]
        by_cases hvb : v = best
        · have h1 : ¬ rev.length = q := fun h => hq' h.symm
          have h2 : ¬ m v = q := by rw [hvb, hbest.2]; exact fun h => hqp h.symm
          rw [if_pos hvb]; simp [h1, h2]
        · rw [if_neg hvb]

theorem ftLoop_blocks {G : Graph} (f : Nat) : ∀ (p : Nat) (m : Nat → Nat) (rev : List (List Nat)) (t : Int),
    Blocks G.n m rev → Blocks G.n (ftLoop G f p m rev t).1 (ftLoop G f p m rev t).2 := by
  induction f with
  | zero => intro p m rev t h; exact h
  | succ f ih =>
    intro p m rev t h
    unfold ftLoop
    by_cases hp : p < rev.length
    · rw [if_pos hp]
      simp only
      split
      · split
        · exact ih _ _ _ _ h
        · rename_i idx best hsc
          split
          · rename_i hc
            exact ih _ _ _ _ (h.split hp (ftScan_best _ idx best hsc) hc.2.2)
          · exact ih _ _ _ _ h
      · exact ih _ _ _ _ h
    · rw [if_neg hp]; exact h

/-- Fuel: every round advances `p` or creates a block. -/
theorem ftLoop_done {G : Graph} (f : Nat) : ∀ (k p : Nat) (m : Nat → Nat) (rev : List (List Nat)) (t : Int),
    Blocks G.n m rev → 2 * G.n ≤ f + p + rev.length → ftLoop G (f + k) p m rev t = ftLoop G f p m rev t := by
  induction f with
  | zero =>
    intro k p m rev t h hf
    cases k with
    | zero => rfl
    | succ k =>
      rw [Nat.zero_add]
      unfold ftLoop
      have := h.length_le
      rw [if_neg (by omega)]
  | succ f ih =>
    intro k p m rev t h hf
    rw [Nat.add_right_comm]
    conv_lhs => unfold ftLoop
    conv_rhs => unfold ftLoop
    by_cases hp : p < rev.length
    · rw [if_pos hp, if_pos hp]
      simp only
      split
      · split
        · exact ih k _ _ _ _ h (by omega)
        · rename_i idx best hsc
          split
          · rename_i hc
            refine ih k _ _ _ _ (h.split hp (ftScan_best _ idx best hsc) hc.2.2) ?_
            simp; omega
          · exact ih k _ _ _ _ h (by omega)
      · exact ih k _ _ _ _ h (by omega)
    · rw [if_neg hp, if_neg hp]

theorem remap_blocks {n : Nat} {cl : Nat → Nat} (h : ∀ v, v < n → cl v < n) :
    ∃ mr, remapCluster n cl = some mr ∧ Blocks n (fun v => mr.1.getD v 0) mr.2 := by
  have hi := remap_inv cl n
  unfold remapCluster
  rw [if_pos h]
  refine ⟨_, rfl, ?_, ?_, ?_⟩
  · intro v hv
    simp only
    rw [hi.revlen]
    exact hi.lt _ _ (hi.some_eq v hv)
  · intro p hp
    simp only at hp
    rw [hi.revlen] at hp
    exact hi.surj p hp
  · intro p hp
    simp only at hp ⊢
    rw [hi.revlen] at hp
    rw [hi.rev p hp]
    exact List.filter_congr fun v _ => rfl

/-! ### Contraction by a mapping -/

variable {γ : Type} [GraphLike γ] {good : γ → Prop}

/-- What `viecut` needs of `contractGraph`. -/
def MapOK (good : γ → Prop) (c : γ → (Nat → Nat) → List (List Nat) → (Nat → Nat) → γ × (Nat → Nat)) : Prop :=
  ∀ x m rev pidx, good x → Blocks (GraphLike.view x).n m rev → good (c x m rev pidx).1 ∧
    ∃ φ, IsContraction (GraphLike.view x) (GraphLike.view (c x m rev pidx).1) φ

theorem contractGraphA_ok {ord : Nat → List Nat → List Nat} (ho : IsOrder ord) :
    MapOK (fun G : Graph => G.WF) (fun G m rev pidx => contractGraphA G m rev pidx ord) := by
  intro G m rev pidx hG hb
  have := contractSparse_spec hG m rev ord ho hb.lt hb.surj hb.rev_eq
  exact ⟨this.1.wf, m, this.1⟩

theorem contractGraphM_ok {ord : Nat → List Nat → List Nat} (ho : IsOrder ord) :
    MapOK (fun g : MGraph => MGraph.Valid g ∧ MGraph.Fresh g) (fun g m rev pidx => g.contractGraphM m rev pidx ord) := by
  intro g m rev pidx hg hb
  have hn : (GraphLike.view g).n = g.n := MGraph.toGraph_n g
  rw [hn] at hb
  unfold MGraph.contractGraphM
  dsimp only
  split
  · have hget : ∀ i (hi : i < rev.length), rev[i] = (List.range g.n).filter (fun v => m v = i) := by
      intro i hi
      rw [← hb.rev_eq i hi, List.getD_eq_getElem?_getD, List.getElem?_eq_getElem hi]; rfl
    obtain ⟨ψ, hψ⟩ := MGraph.CVInv.loop hg.2.located hg.2.hasRep ho rev g [] id 0
      ⟨hg.1, hg.2.located, rfl, MGraph.isContraction_refl hg.1.wf, fun _ _ => rfl, by intro p q _ _; simp, fun h => h⟩
      (by
        intro c hc
        obtain ⟨i, hi, rfl⟩ := List.getElem_of_mem hc
        rw [hget i hi]
        exact ⟨fun p hp => by simpa using (List.mem_filter.1 hp).1, List.nodup_range.filter _⟩)
      (by intro c' hc'; simp at hc')
      (by
        rw [List.pairwise_iff_getElem]
        intro i j hi hj hij p hp hp'
        rw [hget i hi, List.mem_filter, decide_eq_true_eq] at hp
        rw [hget j hj, List.mem_filter, decide_eq_true_eq] at hp'
        omega)
    refine ⟨⟨hψ.valid.resetContained, MGraph.fresh_resetContained _⟩, ψ, hψ.con⟩
  · have h := MGraph.contractSparseM_spec hg.1.wf m rev ord ho
      (by rw [MGraph.toGraph_n]; exact hb.lt) (by rw [MGraph.toGraph_n]; exact hb.surj) (by rw [MGraph.toGraph_n]; exact hb.rev_eq)
    exact ⟨⟨h.2.2.1, h.2.2.2⟩, m, h.1⟩

/-! ### The loop -/

theorem viecutStep_inv {G : Graph} (hG : G.WF) (hb : G.totalWeight < 2 ^ 64) {cfg : VCfg}
    (hσ : ∀ l k x, (cfg.lpShuffle l k x).Perm x) {c : Nat → γ → UF → γ × (Nat → Nat)} (hc : ∀ l, ContractOK good (c l))
    {cm : Nat → γ → (Nat → Nat) → List (List Nat) → (Nat → Nat) → γ × (Nat → Nat)} (hcm : ∀ l, MapOK good (cm l))
    {lvl : Nat} {s : NOIState γ} (h : LvlInv good G s) :
    ∃ r, viecutStep cfg c cm lvl s = some r ∧ LvlInv good G r.1 ∧ r.1.view.n ≤ r.2 ∧ r.2 ≤ s.view.n ∧
      r.1.maps ≠ [] := by
  obtain ⟨φ, hφ⟩ := h.con
  obtain ⟨mr, hmr, hbl⟩ := remap_blocks (propagateLabels_lt hφ.wf (cfg.lpRnd lvl) (cfg.lpShuffle lvl) (hσ lvl))
  unfold viecutStep
  rw [hmr, Option.map_some]
  refine ⟨_, rfl, ?_⟩
  simp only
  have hft := ftLoop_blocks (2 * s.view.n) 0 _ _ (i32 s.mincut) hbl
  obtain ⟨a0, φ0, a1⟩ := hcm (3 * lvl) s.cur _ _ (fun v => mr.1.getD v 0) h.ok hft
  obtain ⟨b1, _, _⟩ := h.push (save := cfg.noi.save) hG hb a0 a1
  have hn1 := a1.le_n
  unfold findTrivialCuts
  have hn1' : (pushLevel cfg.noi.save s (cm (3 * lvl) s.cur
      (ftLoop s.view (2 * s.view.n) 0 (fun v => mr.1.getD v 0) mr.2 (i32 s.mincut)).1
      (ftLoop s.view (2 * s.view.n) 0 (fun v => mr.1.getD v 0) mr.2 (i32 s.mincut)).2
      fun v => mr.1.getD v 0)).view.n ≤ s.view.n := hn1
  generalize pushLevel cfg.noi.save s (cm (3 * lvl) s.cur
      (ftLoop s.view (2 * s.view.n) 0 (fun v => mr.1.getD v 0) mr.2 (i32 s.mincut)).1
      (ftLoop s.view (2 * s.view.n) 0 (fun v => mr.1.getD v 0) mr.2 (i32 s.mincut)).2
      fun v => mr.1.getD v 0) = s1 at *
  obtain ⟨φ1, hφ1⟩ := b1.con
  have i2 := prTests12_inv hφ1.wf s1.mincut false
  obtain ⟨c0, c1, c2, c3⟩ := hc (3 * lvl + 1) s1.cur _ b1.ok i2.1 i2.2
  obtain ⟨d1, _, _⟩ := b1.push (save := cfg.noi.save) hG hb c0 c1
  have hn2 := c1.le_n
  have hn2' : (pushLevel cfg.noi.save s1 (c (3 * lvl + 1) s1.cur (prTests12 s1.view s1.mincut false))).view.n
    ≤ s1.view.n := hn2
  generalize pushLevel cfg.noi.save s1 (c (3 * lvl + 1) s1.cur (prTests12 s1.view s1.mincut false)) = s2 at *
  obtain ⟨φ2, hφ2⟩ := d1.con
  have i3 := prTests34_inv hφ2.wf s2.mincut false
  obtain ⟨e0, e1, e2, e3⟩ := hc (3 * lvl + 2) s2.cur _ d1.ok i3.1 i3.2
  obtain ⟨f1, _, _⟩ := d1.push (save := cfg.noi.save) hG hb e0 e1
  refine ⟨f1, e1.le_n, by omega, ?_⟩
  simp [pushLevel]

theorem viecutLoop_inv {G : Graph} (hG : G.WF) (hb : G.totalWeight < 2 ^ 64) {cfg : VCfg}
    (hσ : ∀ l k x, (cfg.lpShuffle l k x).Perm x) {c : Nat → γ → UF → γ × (Nat → Nat)} (hc : ∀ l, ContractOK good (c l))
    {cm : Nat → γ → (Nat → Nat) → List (List Nat) → (Nat → Nat) → γ × (Nat → Nat)} (hcm : ∀ l, MapOK good (cm l))
    (f : Nat) : ∀ (lvl : Nat) (prev : Option Nat) (s : NOIState γ), LvlInv good G s →
    ∃ s', viecutLoop cfg c cm f lvl prev s = some s' ∧ LvlInv good G s' := by
  induction f with
  | zero => intro lvl prev s h; exact ⟨s, rfl, h⟩
  | succ f ih =>
    intro lvl prev s h
    unfold viecutLoop
    split
    · obtain ⟨r, hr, h1, _, _, _⟩ := viecutStep_inv hG hb hσ hc hcm (lvl := lvl) h
      rw [hr, Option.bind_some]
      exact ih _ _ _ h1
    · exact ⟨s, rfl, h⟩

/-- Fuel: the size of the last graph but one decreases. -/
theorem viecutLoop_done {G : Graph} (hG : G.WF) (hb : G.totalWeight < 2 ^ 64) {cfg : VCfg}
    (hσ : ∀ l k x, (cfg.lpShuffle l k x).Perm x) {c : Nat → γ → UF → γ × (Nat → Nat)} (hc : ∀ l, ContractOK good (c l))
    {cm : Nat → γ → (Nat → Nat) → List (List Nat) → (Nat → Nat) → γ × (Nat → Nat)} (hcm : ∀ l, MapOK good (cm l))
    (f : Nat) : ∀ (k lvl : Nat) (prev : Option Nat) (s : NOIState γ), LvlInv good G s →
    (prev.getD (s.view.n + 1) ≤ f) →
    viecutLoop cfg c cm (f + k) lvl prev s = viecutLoop cfg c cm f lvl prev s := by
  induction f with
  | zero =>
    intro k lvl prev s h hf
    cases k with
    | zero => rfl
    | succ k =>
      rw [Nat.zero_add]
      unfold viecutLoop
      rw [if_neg]
      rintro ⟨_, hp⟩
      cases prev with
      | none => simp at hf
      | some p => have := hp p rfl; simp at hf; omega
  | succ f ih =>
    intro k lvl prev s h hf
    rw [Nat.add_right_comm]
    unfold viecutLoop
    split
    · rename_i hcond
      obtain ⟨r, hr, h1, h2, h3, _⟩ := viecutStep_inv hG hb hσ hc hcm (lvl := lvl) h
      rw [hr, Option.bind_some, Option.bind_some]
      refine ih k _ _ _ h1 ?_
      simp only [Option.getD_some]
      cases prev with
      | none => simp at hf; omega
      | some p => have := hcond.2 p rfl; simp at hf; omega
    · rfl


theorem viecutFinal_spec {G : Graph} (hG : G.WF) (hn : 2 ≤ G.n) (hb : G.totalWeight < 2 ^ 64) {cfg : VCfg}
    (hσ : ∀ l k x, (cfg.lpShuffle l k x).Perm x) (hfit : PQFits cfg.noi.kind G.n G.totalWeight)
    {c cN : Nat → γ → UF → γ × (Nat → Nat)} (hc : ∀ l, ContractOK good (c l)) (hcN : ∀ l, ContractOK good (cN l))
    {cm : Nat → γ → (Nat → Nat) → List (List Nat) → (Nat → Nat) → γ × (Nat → Nat)} (hcm : ∀ l, MapOK good (cm l))
    {x : γ} (hx : good x) (hGx : GraphLike.view x = G) (inCut0 : Nat → Bool) :
    ∃ r, viecutFinal cfg c cN cm x inCut0 = some r ∧ (∃ S, ProperCut G.n S ∧ cutValue G.n G.wt S = r.1) ∧
      r.1 ≤ G.minDegree ∧
      (G.n ≤ viecutThreshold → IsMinCut G.n G.wt r.1 ∧
        (cfg.noi.save = true → ProperCut G.n r.2 ∧ cutValue G.n G.wt r.2 = r.1)) := by
  have hex : ∀ (s : NOIState γ), LvlInv good G s → s.view.n > 1 →
      NOIInv good s.view cfg.noi.save (noiFinal cfg.noi cN s.cur s.inCut) ∧
      IsMinCut s.view.n s.view.wt (noiFinal cfg.noi cN s.cur s.inCut).mincut := by
    intro s hs hs1
    obtain ⟨φ, hφ⟩ := hs.con
    have ht := hφ.total_le hG
    have hmd : s.view.minDegree ≤ G.totalWeight :=
      le_trans (minDegree_le (show 0 < s.view.n by omega)) (hφ.deg_le hG (by omega))
    have hf : CfgFits cfg.noi s.view := hfit.mono hφ.le_n (by split <;> omega)
    obtain ⟨h1, h2⟩ := NOIInv.loop hφ.wf (by omega) hf hcN s.view.n 0 _
      (NOIInv.init (G := s.view) hs.ok rfl hφ.wf (by omega) (by omega) cfg.noi.save s.inCut) (le_refl _)
    exact ⟨h1, h1.final h2⟩
  obtain ⟨hi, hfl⟩ := LvlInv.init hx hGx hG hn hb cfg.noi.save inCut0
  obtain ⟨s, hs, hinv⟩ := viecutLoop_inv hG hb hσ hc hcm ((GraphLike.view x).n + 1) 0 none _ hi
  unfold viecutFinal
  rw [hs, Option.map_some]
  refine ⟨_, rfl, ?_, ?_, ?_⟩
  · by_cases h1 : s.view.n > 1
    · simp only [if_pos h1]
      obtain ⟨_, he⟩ := hex s hinv h1
      rcases le_total s.mincut (noiFinal cfg.noi cN s.cur s.inCut).mincut with h | h
      · rw [min_eq_left h]; exact hinv.attained
      · rw [min_eq_right h]
        obtain ⟨⟨T, t1, t2⟩, _⟩ := he
        obtain ⟨φ, hφ⟩ := hinv.con
        exact ⟨_, hφ.proper t1, by rw [← hφ.cut]; exact t2⟩
    · simp only [if_neg h1]; exact hinv.attained
  · split
    · exact le_trans (min_le_left _ _) hinv.le
    · exact hinv.le
  · intro hth
    have hsi : s = noiInit cfg.noi.save x inCut0 := by
      unfold viecutLoop at hs
      rw [if_neg] at hs
      · simpa using hs.symm
      · rintro ⟨h, _⟩
        have : (noiInit cfg.noi.save x inCut0).view = G := hGx
        rw [this] at h; omega
    have hv : s.view = G := by rw [hsi]; exact hGx
    have hm : s.maps = [] := by rw [hsi]; rfl
    have h1 : s.view.n > 1 := by rw [hv]; omega
    obtain ⟨hN, he⟩ := hex s hinv h1
    simp only [if_pos h1, hm, List.isEmpty_nil, if_true]
    rw [hv] at he hN
    have hle : (noiFinal cfg.noi cN s.cur s.inCut).mincut ≤ s.mincut := by
      obtain ⟨S, s1, s2⟩ := hinv.attained
      rw [← s2]; exact he.2 S s1
    rw [min_eq_right hle]
    exact ⟨he, fun hsv => hN.flags hsv⟩

/-- Contraction in place keeps located, represented graphs. -/
theorem fromUnionFindM_inplace_ok {ord : Nat → List Nat → List Nat} (ho : IsOrder ord) :
    ContractOK (fun g : MGraph => MGraph.Valid g ∧ MGraph.Located g ∧ MGraph.HasRep g)
      (fun H uf => MGraph.fromUnionFindM H uf false ord) := by
  intro g uf hg hu hs
  have hs' : uf.size = g.n := by rw [hs]; exact MGraph.toGraph_n g
  obtain ⟨h1, h2, h3, h4, h5, h6, h7⟩ := MGraph.fromUnionFindM_inplace_spec hg.1 hg.2.1 hg.2.2 hu hs' ho
  refine ⟨⟨h1, h2, ?_⟩, h4, (MGraph.toGraph_n _).trans h5, ?_⟩
  · intro p hp
    obtain ⟨q, hq, he⟩ := h4.surj p (by rw [MGraph.toGraph_n]; exact hp)
    rw [MGraph.toGraph_n] at hq
    obtain ⟨r1, r2⟩ := MGraph.rep_pos hg.2.1 hg.2.2 hq
    have hpos := h7 _ r1
    rw [r2, he] at hpos
    have := h2.inv.mem _ (by rw [h3]; exact r1) (by rw [hpos]; exact hp)
    rw [hpos] at this
    exact List.ne_nil_of_mem this
  · intro u v hu' hv'
    have e : (GraphLike.view g).n = g.n := MGraph.toGraph_n g
    exact h6 u v (by rw [← e]; exact hu') (by rw [← e]; exact hv')

end VieCut
