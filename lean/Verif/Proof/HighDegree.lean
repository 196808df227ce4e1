import Verif.Proof.Arcs
import Verif.Proof.MulticutDelete

namespace VieCut
open Finset

variable {n : Nat} {w : Nat → Nat → Nat}

theorem btw_row {a : Nat} (ha : a < n) (B : Nat → Prop) :
    btw n w (fun x => x = a) B = ∑ v ∈ range n, ind (B v) * w a v := by
  unfold btw wsum
  rw [Finset.sum_eq_single a]
  · refine Finset.sum_congr rfl fun v _ => ?_
    dsimp only
    rw [ind_congr (show (a = a ∧ B v) ↔ B v by simp)]
  · intro u _ hne
    refine Finset.sum_eq_zero fun v _ => ?_
    dsimp only
    rw [ind_neg (fun h => hne h.1), Nat.zero_mul]
  · intro h; exact absurd (Finset.mem_range.2 ha) h

/-- Weight of the entries of row `a` whose target satisfies `b`. -/
def rowTo (G : Graph) (a : Nat) (b : Nat → Bool) : Nat := (((G.edges a).filter (fun e => b e.1)).map (·.2)).sum

theorem rowTo_eq {G : Graph} (hG : G.WF) (a : Nat) (b : Nat → Bool) :
    rowTo G a b = ∑ v ∈ range G.n, if b v then G.wt a v else 0 := by
  unfold rowTo
  rw [filter_sum_range _ G.n (fun e he => hG.tgt_lt a e (List.mem_of_mem_filter he))]
  refine Finset.sum_congr rfl fun v _ => ?_
  rw [List.filter_filter]
  unfold Graph.wt
  by_cases hb : b v
  · rw [if_pos hb]
    congr 2
    refine List.filter_congr fun e _ => ?_
    by_cases he : e.1 = v
    · simp [he, hb]
    · simp [he]
  · rw [if_neg hb]
    have : (G.edges a).filter (fun e => e.1 == v && b e.1) = [] := by
      rw [List.filter_eq_nil_iff]
      intro e _
      by_cases he : e.1 = v
      · simp [he, hb]
      · simp [he]
    rw [this]; rfl

theorem btw_le_rowTo {G : Graph} (hG : G.WF) {a : Nat} (ha : a < G.n) {B : Nat → Prop} {b : Nat → Bool}
    (h : ∀ v, v < G.n → 0 < G.wt a v → B v → b v = true) : btw G.n G.wt (fun x => x = a) B ≤ rowTo G a b := by
  rw [btw_row ha, rowTo_eq hG]
  refine Finset.sum_le_sum fun v hv => ?_
  by_cases c : B v
  · rw [ind_pos c, Nat.one_mul]
    by_cases c0 : 0 < G.wt a v
    · rw [if_pos (h v (Finset.mem_range.1 hv) c0 c)]
    · omega
  · rw [ind_neg c, Nat.zero_mul]; exact Nat.zero_le _

theorem rowTo_true {G : Graph} (a : Nat) : rowTo G a (fun _ => true) = G.deg a := by
  unfold rowTo Graph.deg
  rw [List.filter_true]

/-- With no parallel edges an entry is the whole weight. -/
theorem wt_of_mem {G : Graph} {a : Nat} (hs : ((G.edges a).map Prod.fst).Nodup) {e : Nat × Nat} (he : e ∈ G.edges a) :
    G.wt a e.1 = e.2 := by
  unfold Graph.wt
  generalize G.edges a = l at hs he
  induction l with
  | nil => simp at he
  | cons x l ih =>
    rw [List.map_cons, List.nodup_cons] at hs
    rw [List.mem_cons] at he
    rcases he with rfl | he
    · have : l.filter (fun y => y.1 == e.1) = [] := by
        rw [List.filter_eq_nil_iff]
        intro y hy
        simp only [beq_iff_eq]
        intro h
        exact hs.1 (List.mem_map.2 ⟨y, hy, h⟩)
      simp [this]
    · have : x.1 ≠ e.1 := fun h => hs.1 (List.mem_map.2 ⟨e, he, h.symm⟩)
      rw [List.filter_cons_of_neg (by simpa using this)]
      exact ih hs.2 he

theorem le_wt_of_mem {G : Graph} {a : Nat} {e : Nat × Nat} (he : e ∈ G.edges a) : e.2 ≤ G.wt a e.1 := by
  unfold Graph.wt
  exact List.le_sum_of_mem (List.mem_map.2 ⟨e, List.mem_filter.2 ⟨he, by simp⟩, rfl⟩)

theorem exists_mem_of_wt_pos {G : Graph} {a b : Nat} (h : 0 < G.wt a b) : ∃ e ∈ G.edges a, e.1 = b := by
  by_contra hc
  push Not at hc
  have : (G.edges a).filter (fun y => y.1 == b) = [] := by
    rw [List.filter_eq_nil_iff]
    intro y hy
    simpa using hc y hy
  unfold Graph.wt at h
  rw [this] at h
  simp at h

namespace Problem

/-- What the scan knows after the entries `pre`. -/
structure HDInv (term : Nat → Bool) (pre : List (Nat × Nat)) (s : HD) : Prop where
  non : s.non = ((pre.filter (fun e => !term e.1)).map (·.2)).sum
  max : 0 < s.maxw → (s.maxt, s.maxw) ∈ pre ∧ term s.maxt = true
  le : s.second ≤ s.maxw
  rest : ∀ e ∈ pre, term e.1 = true → e = (s.maxt, s.maxw) ∨ e.2 ≤ s.second

theorem HDInv.step {term : Nat → Bool} {pre : List (Nat × Nat)} {s : HD} (h : HDInv term pre s) (e : Nat × Nat) :
    HDInv term (pre ++ [e]) (if term e.1 then (if term e.1 then hdTerm s e.1 e.2 else s)
      else { (if term e.1 then hdTerm s e.1 e.2 else s) with
        non := (if term e.1 then hdTerm s e.1 e.2 else s).non + e.2 }) := by
  by_cases ht : term e.1 = true
  · simp only [ht, if_true]
    unfold hdTerm
    split
    · rename_i hgt
      refine ⟨?_, fun _ => ⟨by simp, ht⟩, Nat.le_of_lt hgt, ?_⟩
      · rw [List.filter_append, List.map_append, List.sum_append]
        simp [ht, h.non]
      · intro x hx htx
        rw [List.mem_append, List.mem_singleton] at hx
        rcases hx with hx | rfl
        · right
          rcases h.rest x hx htx with h1 | h1
          · rw [h1]
          · exact h1.trans h.le
        · left; rfl
    · rename_i hle
      have hnon : s.non = (((pre ++ [e]).filter (fun e => !term e.1)).map (·.2)).sum := by
        rw [List.filter_append, List.map_append, List.sum_append]
        simp [ht, h.non]
      split
      · rename_i h2
        refine ⟨hnon, fun hm => ⟨by simp [(h.max hm).1], (h.max hm).2⟩, by simp only; omega, ?_⟩
        intro x hx htx
        rw [List.mem_append, List.mem_singleton] at hx
        rcases hx with hx | rfl
        · rcases h.rest x hx htx with h1 | h1
          · exact Or.inl h1
          · right; simp only; omega
        · right; exact Nat.le_refl _
      · rename_i h2
        refine ⟨hnon, fun hm => ⟨by simp [(h.max hm).1], (h.max hm).2⟩, h.le, ?_⟩
        intro x hx htx
        rw [List.mem_append, List.mem_singleton] at hx
        rcases hx with hx | rfl
        · exact h.rest x hx htx
        · right; omega
  · have ht' : term e.1 = false := by simpa using ht
    simp only [ht', Bool.false_eq_true, if_false]
    refine ⟨?_, fun hm => ⟨by simp [(h.max hm).1], (h.max hm).2⟩, h.le, ?_⟩
    · rw [List.filter_append, List.map_append, List.sum_append, ← h.non]
      simp [ht']
    · intro x hx htx
      rw [List.mem_append, List.mem_singleton] at hx
      rcases hx with hx | rfl
      · exact h.rest x hx htx
      · rw [ht'] at htx; exact absurd htx (by simp)

theorem hdScan_spec {term : Nat → Bool} {deg : Nat} : ∀ (rest pre : List (Nat × Nat)) (s : HD), HDInv term pre s →
    ∀ t, hdScan term deg rest s = some t →
      (∃ e ∈ rest, e.1 = t ∧ deg ≤ e.2 * 2) ∨
      ∃ s', HDInv term (pre ++ rest) s' ∧ s'.maxt = t ∧ s'.non + s'.second < s'.maxw := by
  intro rest
  induction rest with
  | nil =>
    intro pre s h t ht
    unfold hdScan at ht
    split at ht
    · rename_i hc
      right
      exact ⟨s, by simpa using h, by simpa using ht, hc⟩
    · simp at ht
  | cons e rest ih =>
    intro pre s h t ht
    unfold hdScan at ht
    dsimp only at ht
    split at ht
    · rename_i hc
      left
      exact ⟨e, by simp, by simpa using ht, hc⟩
    · rcases ih (pre ++ [e]) _ (h.step e) t ht with ⟨x, hx, h1⟩ | ⟨s', h1, h2⟩
      · exact Or.inl ⟨x, by simp [hx], h1⟩
      · right; exact ⟨s', by simpa using h1, h2⟩

/-- A partner found by the scan is a safe arc. -/
theorem hdScan_arc {G : Graph} (hG : G.WF) {a t : Nat} (ha : a < G.n) (hs : ((G.edges a).map Prod.fst).Nodup)
    {ts : List Nat} {term : Nat → Bool} (hat : term a = false) (h1 : ∀ v, term v = true → v ∈ ts)
    (h2 : ∀ v ∈ ts, term v = true ∨ G.edges v = []) (h : hdScan term (G.deg a) (G.edges a) {} = some t) :
    Arc G.n G.wt ts a t := by
  have h0 : HDInv term [] {} := ⟨rfl, fun h => absurd h (by decide), Nat.le_refl _, by simp⟩
  have hne : G.edges a ≠ [] := by
    intro e
    rw [e] at h
    unfold hdScan at h
    simp at h
  have hats : a ∉ ts := by
    intro hh
    rcases h2 a hh with h' | h'
    · rw [hat] at h'; exact absurd h' (by simp)
    · exact hne h'
  rcases hdScan_spec (G.edges a) [] {} h0 t h with ⟨e, he, rfl, hd⟩ | ⟨s, hI, rfl, hlt⟩
  · refine ⟨ha, hG.tgt_lt a e he, hats, Or.inl ?_⟩
    have := btw_le_rowTo hG ha (B := fun x => x ≠ a) (b := fun _ => true) (fun _ _ _ _ => rfl)
    rw [rowTo_true] at this
    have := le_wt_of_mem he
    omega
  · rw [List.nil_append] at hI
    obtain ⟨m1, m2⟩ := hI.max (by omega)
    have hw : G.wt a s.maxt = s.maxw := wt_of_mem hs m1
    have hplain : toPlain G.n G.wt ts a ≤ s.non := by
      rw [hI.non]
      unfold toPlain
      refine btw_le_rowTo hG ha (b := fun v => !term v) ?_
      intro v _ _ hv
      by_contra hc
      exact hv.1 (h1 v (by simpa using hc))
    refine ⟨ha, hG.tgt_lt a _ m1, hats, Or.inr ⟨h1 _ m2, by omega, ?_⟩⟩
    intro x hx hxb
    by_cases hp : 0 < G.wt a x
    · obtain ⟨e, he, rfl⟩ := exists_mem_of_wt_pos hp
      have hxt : term e.1 = true := by
        rcases h2 e.1 hx with h' | h'
        · exact h'
        · exfalso
          rw [hG.wt_symm] at hp
          obtain ⟨e', he', _⟩ := exists_mem_of_wt_pos hp
          rw [h'] at he'; simp at he'
      rw [wt_of_mem hs he]
      rcases hI.rest e he hxt with h3 | h3
      · exact absurd (by rw [h3]) hxb
      · omega
    · omega

open MGraph

theorem nodup_targets {g : MGraph} (hs : g.NoParallel) {u : Nat} (hu : u < g.n) :
    ((g.toGraph.edges u).map Prod.fst).Nodup := by
  rw [toGraph_edges g hu, List.map_map]
  refine (List.nodup_map_iff_inj_on List.nodup_range).2 ?_
  intro a ha b hb h
  exact hs u hu a (List.mem_range.1 ha) b (List.mem_range.1 hb) h

theorem Valid.wdeg_eq {g : MGraph} (h : MGraph.Valid g) {u : Nat} (hu : u < g.n) : g.wdeg u = g.toGraph.deg u := by
  rw [toGraph_deg g hu]
  exact (valid_iff.1 h).2.1 u hu

theorem edges_nil_of_len {g : MGraph} {u : Nat} (h : g.len u = 0) : g.toGraph.edges u = [] := by
  by_cases hu : u < g.n
  · rw [toGraph_edges g hu, h]; rfl
  · exact Graph.edges_of_ge (by rw [toGraph_n]; omega)

variable {ots : List Nat} {p : Problem}

/-- The terminals the passes see and the positions of the original terminals. -/
theorem isTerm_spots : ∀ v, (p.setTerminals ots).isTerm v = true → v ∈ p.spots ots := by
  intro v hv
  unfold isTerm at hv
  rw [decide_eq_true_eq] at hv
  exact (mem_tpos_setTerminals.1 hv).1

theorem spots_isTerm (h : Ok ots p) : ∀ v ∈ p.spots ots,
    (p.setTerminals ots).isTerm v = true ∨ p.graph.len v = 0 := by
  intro v hv
  by_cases hl : p.graph.len v = 0
  · exact Or.inr hl
  · left
    unfold isTerm
    rw [decide_eq_true_eq]
    exact mem_tpos_setTerminals.2 ⟨hv, by omega, h.spot_lt v hv⟩

theorem highDegree_inv (h : Ok ots p) (active : Nat → Bool) : ∀ k, k ≤ p.graph.n →
    ∃ ps : List (Nat × Nat),
      UF.Rep ((List.range k).foldl (highStep p.graph (p.setTerminals ots).isTerm active) (UF.mk' p.graph.n)) ps ∧
      ((List.range k).foldl (highStep p.graph (p.setTerminals ots).isTerm active) (UF.mk' p.graph.n)).size = p.graph.n ∧
      (ps.map Prod.fst).Nodup ∧ (∀ q ∈ ps, q.1 < k) ∧
      ∀ q ∈ ps, Arc p.graph.n p.graph.toGraph.wt (p.spots ots) q.1 q.2 := by
  intro k
  induction k with
  | zero => intro _; exact ⟨[], UF.init_rep _, rfl, by simp, by simp, by simp⟩
  | succ k ih =>
    intro hk
    obtain ⟨ps, h1, h2, h3, h4, h5⟩ := ih (by omega)
    rw [List.range_succ, List.foldl_append, List.foldl_cons, List.foldl_nil]
    generalize hU : (List.range k).foldl (highStep p.graph (p.setTerminals ots).isTerm active) (UF.mk' p.graph.n) = uf at *
    have hkeep : ∃ ps : List (Nat × Nat), UF.Rep uf ps ∧ uf.size = p.graph.n ∧ (ps.map Prod.fst).Nodup ∧
        (∀ q ∈ ps, q.1 < k + 1) ∧ ∀ q ∈ ps, Arc p.graph.n p.graph.toGraph.wt (p.spots ots) q.1 q.2 :=
      ⟨ps, h1, h2, h3, fun q hq => by have := h4 q hq; omega, h5⟩
    unfold highStep
    split
    · exact hkeep
    split
    · exact hkeep
    rename_i _ hterm
    dsimp only
    have hfr := UF.find_rep h1 k
    have hfs : (uf.find k).2.size = p.graph.n := by rw [UF.find_size]; exact h2
    have hkeep2 : ∃ ps : List (Nat × Nat), UF.Rep (uf.find k).2 ps ∧ (uf.find k).2.size = p.graph.n ∧
        (ps.map Prod.fst).Nodup ∧ (∀ q ∈ ps, q.1 < k + 1) ∧
        ∀ q ∈ ps, Arc p.graph.n p.graph.toGraph.wt (p.spots ots) q.1 q.2 :=
      ⟨ps, hfr, hfs, h3, fun q hq => by have := h4 q hq; omega, h5⟩
    split
    · exact hkeep2
    split
    · rename_i t hsc
      rw [Valid.wdeg_eq h.valid (show k < p.graph.n by omega)] at hsc
      have harc := hdScan_arc (ts := p.spots ots) h.valid.wf (by rw [toGraph_n]; omega)
        (nodup_targets h.simple (show k < p.graph.n by omega)) (by simpa using hterm) isTerm_spots
        (fun v hv => (spots_isTerm h v hv).imp id edges_nil_of_len) hsc
      rw [toGraph_n] at harc
      have hu := UF.union_spec hfr (l := k) (r := t) (by rw [hfs]; exact harc.1) (by rw [hfs]; exact harc.2.1)
      refine ⟨ps ++ [(k, t)], hu.1, ?_, ?_, ?_, ?_⟩
      · exact hu.2.2.trans hfs
      · rw [List.map_append, List.nodup_append]
        refine ⟨h3, by simp, ?_⟩
        intro a ha b hb
        obtain ⟨q, hq, rfl⟩ := List.mem_map.1 ha
        have := h4 q hq
        simp at hb
        omega
      · intro q hq
        rw [List.mem_append, List.mem_singleton] at hq
        rcases hq with hq | rfl
        · have := h4 q hq; omega
        · simp
      · intro q hq
        rw [List.mem_append, List.mem_singleton] at hq
        rcases hq with hq | rfl
        · exact h5 q hq
        · exact harc
    · exact hkeep2

theorem highDegree_safe (h : Ok ots p) (active : Nat → Bool) :
    ((p.setTerminals ots).highDegree active).Inv ∧ ((p.setTerminals ots).highDegree active).size = p.graph.n ∧
    MergeSafe p.graph.n p.graph.toGraph.wt (p.spots ots) ((p.setTerminals ots).highDegree active).root := by
  obtain ⟨ps, h1, h2, h3, _, h5⟩ := highDegree_inv h active p.graph.n (Nat.le_refl _)
  refine ⟨h1.inv, h2, mergeSafe_of_rep h1 ?_⟩
  exact arcs_safe h.valid.wf.wt_symm h.spot_lt ps h3 h5

end Problem
end VieCut
