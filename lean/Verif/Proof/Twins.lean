import Verif.Proof.Isolating

namespace VieCut
open Finset

variable {n : Nat} {w : Nat → Nat → Nat}

/-- Vertices with the same connections to all other vertices. -/
def Twins (n : Nat) (w : Nat → Nat → Nat) (ts : List Nat) (a b : Nat) : Prop :=
  a = b ∨ (a ∉ ts ∧ b ∉ ts ∧ ∀ x, x ≠ a → x ≠ b → w a x = w b x)

theorem twins_equiv (hw : ∀ u v, w u v = w v u) (ts : List Nat) : Equivalence (Twins n w ts) := by
  refine ⟨fun _ => Or.inl rfl, ?_, ?_⟩
  · rintro a b (h | ⟨h1, h2, h3⟩)
    · exact Or.inl h.symm
    · exact Or.inr ⟨h2, h1, fun x hx hy => (h3 x hy hx).symm⟩
  · rintro a b c (rfl | ⟨h1, h2, h3⟩) (rfl | ⟨k1, k2, k3⟩)
    · exact Or.inl rfl
    · exact Or.inr ⟨k1, k2, k3⟩
    · exact Or.inr ⟨h1, h2, h3⟩
    · by_cases hac : a = c
      · exact Or.inl hac
      · refine Or.inr ⟨h1, k2, fun x hx hy => ?_⟩
        by_cases hxb : x = b
        · subst hxb
          rw [hw a x, k3 a (Ne.symm hx) hac, hw c a, h3 c (Ne.symm hac) (Ne.symm hy), hw x c]
        · rw [h3 x hx hxb, k3 x hxb hy]

/-- Weight between `c` and the vertices outside `C` with another label. -/
noncomputable def extCost (n : Nat) (w : Nat → Nat → Nat) (C : Nat → Prop) (f : Nat → Nat) (c : Nat) : Nat :=
  ∑ v ∈ range n, ind (¬ C v ∧ f c ≠ f v) * w c v

theorem relabel_twins (hw : ∀ u v, w u v = w v u) {C : Nat → Prop} {f : Nat → Nat} {a : Nat} (ha : C a)
    (htw : ∀ c, C c → ∀ x, ¬ C x → w c x = w a x)
    (hmin : ∀ c, c < n → C c → extCost n w C f a ≤ extCost n w C f c) :
    multicutValue n w (relabel f C (f a)) ≤ multicutValue n w f := by
  refine multicut_le_of hw (a := fun u v => ind (C u ∧ ¬ C v ∧ f u ≠ f v)) (b := fun u v => ind (C u ∧ ¬ C v ∧ f a ≠ f v))
    ?_ ?_
  · intro u v _ _
    by_cases cu : C u <;> by_cases cv : C v
    · rw [relabel_in cu, relabel_in cv]; simp [ind, cu, cv]
    · rw [relabel_in cu, relabel_out cv]; simp only [ind, cu, cv]
      by_cases h1 : f u = f v <;> by_cases h2 : f a = f v <;> simp [h1, h2]
    · rw [relabel_out cu, relabel_in cv]; simp only [ind, cu, cv]
      by_cases h1 : f u = f v <;> by_cases h2 : f a = f u <;> simp [h1, h2, eq_comm]
    · rw [relabel_out cu, relabel_out cv]; simp [ind, cu, cv]
  · unfold wsum
    refine Finset.sum_le_sum fun u hu => ?_
    by_cases cu : C u
    · have h1 := hmin u (Finset.mem_range.1 hu) cu
      unfold extCost at h1
      refine le_trans (le_of_eq ?_) (le_trans h1 (le_of_eq ?_))
      · refine Finset.sum_congr rfl fun v _ => ?_
        by_cases cv : C v
        · simp [ind, cv]
        · rw [htw u cu v cv]; simp [ind, cu, cv]
      · refine Finset.sum_congr rfl fun v _ => ?_
        rw [ind_congr (show (¬ C v ∧ f u ≠ f v) ↔ (C u ∧ ¬ C v ∧ f u ≠ f v) from ⟨fun h => ⟨cu, h⟩, fun h => h.2⟩)]
    · refine Finset.sum_le_sum fun v _ => ?_
      simp [ind, cu]

/-- Classes of twins may be merged. -/
theorem twins_safe (hw : ∀ u v, w u v = w v u) {ts : List Nat} (f : Nat → Nat) (hf : Separates ts f) :
    ∃ f', Separates ts f' ∧ multicutValue n w f' ≤ multicutValue n w f ∧
      ∀ u v, u < n → v < n → Twins n w ts u v → f' u = f' v := by
  have heq := twins_equiv (n := n) hw ts
  suffices ∀ k, k ≤ n → ∃ f', Separates ts f' ∧ multicutValue n w f' ≤ multicutValue n w f ∧
      ∀ u v, u < k → v < n → Twins n w ts u v → f' u = f' v by
    obtain ⟨f', h1, h2, h3⟩ := this n (Nat.le_refl _)
    exact ⟨f', h1, h2, fun u v hu hv => h3 u v hu hv⟩
  intro k
  induction k with
  | zero => intro _; exact ⟨f, hf, Nat.le_refl _, fun u v hu => absurd hu (by omega)⟩
  | succ k ih =>
    intro hk
    obtain ⟨f', h1, h2, h3⟩ := ih (by omega)
    classical
    obtain ⟨a, ha, hmin⟩ := Finset.exists_min_image ((range n).filter (fun x => Twins n w ts x k))
      (extCost n w (fun x => Twins n w ts x k) f')
      ⟨k, Finset.mem_filter.2 ⟨Finset.mem_range.2 (by omega), heq.refl k⟩⟩
    rw [Finset.mem_filter] at ha
    have hin : ∀ x, Twins n w ts x k → relabel f' (fun x => Twins n w ts x k) (f' a) x = f' a :=
      fun x hx => relabel_in (S := fun x => Twins n w ts x k) hx
    have hout : ∀ x, ¬ Twins n w ts x k → relabel f' (fun x => Twins n w ts x k) (f' a) x = f' x :=
      fun x hx => relabel_out (S := fun x => Twins n w ts x k) hx
    refine ⟨relabel f' (fun x => Twins n w ts x k) (f' a), ?_, ?_, ?_⟩
    · refine separates_relabel h1 fun t ht htw => ?_
      have hta : Twins n w ts t a := heq.trans htw (heq.symm ha.2)
      rcases hta with e | ⟨h, _⟩
      · rw [e]
      · exact absurd ht h
    · refine Nat.le_trans (relabel_twins hw (C := fun x => Twins n w ts x k) ha.2 ?_ ?_) h2
      · intro c hc x hx
        have hca : Twins n w ts c a := heq.trans hc (heq.symm ha.2)
        rcases hca with e | ⟨_, _, h⟩
        · rw [e]
        · exact h x (fun e => hx (e ▸ hc)) (fun e => hx (e ▸ ha.2))
      · intro c hc hcC
        exact hmin c (Finset.mem_filter.2 ⟨Finset.mem_range.2 hc, hcC⟩)
    · intro u v hu hv huv
      by_cases hk' : Twins n w ts u k
      · rw [hin u hk', hin v (heq.trans (heq.symm huv) hk')]
      · rw [hout u hk', hout v (fun h => hk' (heq.trans huv h))]
        refine h3 u v ?_ hv huv
        rcases Nat.lt_succ_iff_lt_or_eq.1 hu with h | h
        · exact h
        · exact absurd (h ▸ heq.refl u) hk'

namespace Problem
open MGraph

variable {ots : List Nat} {p : Problem} {g : MGraph}

theorem wt_nbrList {v : Nat} {skip : Option Nat} {x : Nat} (hx : some x ≠ skip) :
    (((nbrList g v skip).filter (fun e => e.1 == x)).map (·.2)).sum = g.toGraph.wt v x := by
  have hp : (nbrList g v skip).Perm ((g.toGraph.edges v).filter (fun e => some e.1 != skip)) := List.perm_insertionSort _ _
  rw [((hp.filter _).map _).sum_eq, List.filter_filter]
  unfold Graph.wt
  congr 2
  refine List.filter_congr fun e _ => ?_
  by_cases h : e.1 = x
  · simp only [h, beq_self_eq_true, Bool.true_and, bne_iff_ne]
    exact hx
  · simp [h]

theorem sameNbrs_eq {a b : List (Nat × Nat)} (hl : a.length = b.length) (h : sameNbrs a b = true) : a = b := by
  unfold sameNbrs at h
  rw [List.all_eq_true] at h
  refine List.ext_getElem? fun i => ?_
  by_cases hi : i < a.length
  · have := h i (List.mem_range.2 hi)
    simpa using this
  · rw [List.getElem?_eq_none (by omega), List.getElem?_eq_none (by omega)]

theorem length_nbrList_none (v : Nat) : (nbrList g v none).length = (g.toGraph.edges v).length := by
  unfold nbrList
  rw [List.length_insertionSort]
  congr 1
  exact List.filter_eq_self.2 fun e _ => by simp

theorem length_edges {v : Nat} (hv : v < g.n) : (g.toGraph.edges v).length = g.len v := by
  rw [toGraph_edges g hv]; simp

theorem length_filter_ne {l : List (Nat × Nat)} (hnd : (l.map Prod.fst).Nodup) {x : Nat} (hx : x ∈ l.map Prod.fst) :
    (l.filter (fun e => some e.1 != some x)).length + 1 = l.length := by
  induction l with
  | nil => simp at hx
  | cons e l ih =>
    rw [List.map_cons] at hnd hx
    obtain ⟨h1, h2⟩ := List.nodup_cons.1 hnd
    rw [List.filter_cons]
    by_cases he : e.1 = x
    · have hself : l.filter (fun e => some e.1 != some x) = l := by
        refine List.filter_eq_self.2 fun e' he' => ?_
        have : e'.1 ≠ x := fun h => h1 (by rw [he, ← h]; exact List.mem_map.2 ⟨e', he', rfl⟩)
        simpa using this
      rw [hself]
      simp [he]
    · have := ih h2 (by
        rcases List.mem_cons.1 hx with h | h
        · exact absurd h.symm he
        · exact h)
      simp [he]
      omega

/-- A hash that distinguishes the neighbour lists of vertices of different degree. -/
def NoCollision (hash : List Nat → Nat) (g : MGraph) : Prop :=
  ∀ u v, u < g.n → v < g.n →
    hash (((g.toGraph.edges u).map Prod.fst).insertionSort (· ≤ ·)) =
      hash (((g.toGraph.edges v).map Prod.fst).insertionSort (· ≤ ·)) → g.len u = g.len v

/-- Union-find structures that only link twins. -/
def TwinUF (g : MGraph) (ts : List Nat) (uf : UF) : Prop :=
  ∃ ps, uf.Rep ps ∧ uf.size = g.n ∧ ∀ q ∈ ps, Twins g.n g.toGraph.wt ts q.1 q.2

theorem TwinUF.union {ts : List Nat} {uf : UF} (h : TwinUF g ts uf) {a b : Nat} (ha : a < g.n) (hb : b < g.n)
    (hab : Twins g.n g.toGraph.wt ts a b) : TwinUF g ts (uf.union a b).2 := by
  obtain ⟨ps, h1, h2, h3⟩ := h
  have hu := UF.union_spec h1 (l := a) (r := b) (by rw [h2]; exact ha) (by rw [h2]; exact hb)
  refine ⟨ps ++ [(a, b)], hu.1, hu.2.2.trans h2, ?_⟩
  intro q hq
  rw [List.mem_append, List.mem_singleton] at hq
  rcases hq with hq | rfl
  · exact h3 q hq
  · exact hab

theorem TwinUF.fold {ts : List Nat} {α : Type} (step : UF → α → UF) (l : List α)
    (hstep : ∀ uf, ∀ x ∈ l, TwinUF g ts uf → TwinUF g ts (step uf x)) (uf : UF) (h : TwinUF g ts uf) :
    TwinUF g ts (l.foldl step uf) := by
  induction l generalizing uf with
  | nil => exact h
  | cons x l ih => exact ih (fun uf y hy => hstep uf y (by simp [hy])) _ (hstep uf x (by simp) h)

variable {ts : List Nat} {term : Nat → Bool}

theorem enStep_twin (hts : ∀ v ∈ ts, term v = true ∨ g.len v = 0) {hash : List Nat → Nat} (hh : NoCollision hash g)
    {bound : Nat} {active : Nat → Bool} {s : ENS} (h : TwinUF g ts s.uf)
    (hres : ∀ r ∈ s.results, r.2 < g.n ∧ 0 < g.len r.2 ∧
      r.1 = hash (((g.toGraph.edges r.2).map Prod.fst).insertionSort (· ≤ ·))) {k : Nat} (hk : k < g.n) :
    TwinUF g ts (enStep hash bound g term active s k).uf ∧
    ∀ r ∈ (enStep hash bound g term active s k).results, r.2 < g.n ∧ 0 < g.len r.2 ∧
      r.1 = hash (((g.toGraph.edges r.2).map Prod.fst).insertionSort (· ≤ ·)) := by
  unfold enStep
  split
  · exact ⟨h, hres⟩
  split
  · exact ⟨h, hres⟩
  rename_i hterm
  split
  · rename_i hlen
    dsimp only
    split
    · refine ⟨h, ?_⟩
      intro r hr
      dsimp only at hr
      rw [List.mem_append, List.mem_singleton] at hr
      rcases hr with hr | rfl
      · exact hres r hr
      · exact ⟨hk, hlen.2, rfl⟩
    · refine ⟨?_, hres⟩
      refine TwinUF.fold _ _ ?_ _ h
      intro uf r hr huf
      have hr' := List.mem_filter.1 hr
      obtain ⟨r1, r2, r3⟩ := hres r hr'.1
      split
      · exact huf
      rename_i hrt
      split
      · rename_i hsame
        have hl : g.len k = g.len r.2 := hh k r.2 hk r1 (by rw [← r3]; exact (eq_of_beq hr'.2).symm)
        have heq := sameNbrs_eq (by rw [length_nbrList_none, length_nbrList_none, length_edges hk, length_edges r1, hl])
          hsame
        refine huf.union hk r1 (Or.inr ⟨?_, ?_, fun x _ _ => ?_⟩)
        · intro hm; rcases hts _ hm with h' | h'
          · exact hterm h'
          · omega
        · intro hm; rcases hts _ hm with h' | h'
          · exact hrt h'
          · omega
        · rw [← wt_nbrList (v := k) (skip := none) (by simp), heq, wt_nbrList (by simp)]
      · exact huf
  · exact ⟨h, hres⟩

theorem enNbrStep_twin (hv : Valid g) (hs : g.NoParallel) (hts : ∀ v ∈ ts, term v = true ∨ g.len v = 0)
    {bound : Nat} {active : Nat → Bool} {uf : UF} (h : TwinUF g ts uf) {k : Nat} (hk : k < g.n) :
    TwinUF g ts (enNbrStep bound g term active uf k) := by
  unfold enNbrStep
  split
  · exact h
  split
  · exact h
  rename_i hterm
  split
  · rename_i hlen
    refine TwinUF.fold _ _ ?_ _ h
    intro uf e he huf
    split
    · rename_i hc
      obtain ⟨c1, c2, _, c4⟩ := hc
      have htn : e.1 < g.n := by
        have := hv.wf.tgt_lt k e he
        rw [toGraph_n] at this; exact this
      have hke : k ∈ (g.toGraph.edges e.1).map Prod.fst := by
        have hpos : 0 < g.len k := hlen.2
        rw [toGraph_edges g hk, List.mem_map] at he
        obtain ⟨i, hi, rfl⟩ := he
        have hc := consistent_iff.2 hv
        have hi' := List.mem_range.1 hi
        have hb := hc.back k i hk hi'
        have hp := hc.partner k i hk hi'
        have := edge_mem htn hp
        rw [hb.1] at this
        exact List.mem_map.2 ⟨_, this, rfl⟩
      have hek : e.1 ∈ (g.toGraph.edges k).map Prod.fst := List.mem_map.2 ⟨e, he, rfl⟩
      have l1 := length_filter_ne (nodup_targets hs hk) hek
      have l2 := length_filter_ne (nodup_targets hs htn) hke
      rw [length_edges hk] at l1
      rw [length_edges htn] at l2
      have heq := sameNbrs_eq (by
        unfold nbrList
        rw [List.length_insertionSort, List.length_insertionSort]
        omega) c4
      refine huf.union hk htn (Or.inr ⟨?_, ?_, fun x hx1 hx2 => ?_⟩)
      · intro hm; rcases hts _ hm with h' | h'
        · exact hterm h'
        · omega
      · intro hm; rcases hts _ hm with h' | h'
        · rw [c1] at h'; exact absurd h' (by simp)
        · omega
      · rw [← wt_nbrList (v := k) (skip := some e.1) (x := x) (by simpa using hx2), heq, wt_nbrList (by simpa using hx1)]
    · exact huf
  · exact h

theorem equalNeighborhoods_safe (h : Ok ots p) {hash : List Nat → Nat} (hh : NoCollision hash p.graph) (bound : Nat)
    (active : Nat → Bool) :
    ((p.setTerminals ots).equalNeighborhoods hash bound active).Inv ∧
    ((p.setTerminals ots).equalNeighborhoods hash bound active).size = p.graph.n ∧
    MergeSafe p.graph.n p.graph.toGraph.wt (p.spots ots)
      ((p.setTerminals ots).equalNeighborhoods hash bound active).root := by
  have hts := spots_isTerm h
  have first : ∀ k, k ≤ p.graph.n →
      TwinUF p.graph (p.spots ots) ((List.range k).foldl (enStep hash bound p.graph (p.setTerminals ots).isTerm active)
        ⟨[], UF.mk' p.graph.n⟩).uf ∧
      ∀ r ∈ ((List.range k).foldl (enStep hash bound p.graph (p.setTerminals ots).isTerm active)
        ⟨[], UF.mk' p.graph.n⟩).results, r.2 < p.graph.n ∧ 0 < p.graph.len r.2 ∧
        r.1 = hash (((p.graph.toGraph.edges r.2).map Prod.fst).insertionSort (· ≤ ·)) := by
    intro k
    induction k with
    | zero => intro _; exact ⟨⟨[], UF.init_rep _, rfl, by simp⟩, by simp⟩
    | succ k ih =>
      intro hk
      obtain ⟨i1, i2⟩ := ih (by omega)
      rw [List.range_succ, List.foldl_append, List.foldl_cons, List.foldl_nil]
      exact enStep_twin hts hh i1 i2 (by omega)
  have h1 := (first p.graph.n (Nat.le_refl _)).1
  have h2 : TwinUF p.graph (p.spots ots) ((p.setTerminals ots).equalNeighborhoods hash bound active) := by
    unfold equalNeighborhoods
    exact TwinUF.fold _ _ (fun uf x hx huf => enNbrStep_twin h.valid h.simple hts huf (List.mem_range.1 hx)) _ h1
  obtain ⟨ps, a1, a2, a3⟩ := h2
  refine ⟨a1.inv, a2, fun f hf => ?_⟩
  obtain ⟨f', b1, b2, b3⟩ := twins_safe (n := p.graph.n) h.valid.wf.wt_symm f hf
  refine ⟨f', b1, b2, fun u v hu hv e => b3 u v hu hv ?_⟩
  exact _root_.VieCut.Linked.least (twins_equiv h.valid.wf.wt_symm _) (fun a b hab => a3 (a, b) hab) ((a1.iff u v).1 e)

end Problem
end VieCut
