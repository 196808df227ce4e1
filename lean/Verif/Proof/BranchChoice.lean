import Verif.Proof.Branching
import Verif.Proof.HighDegree

namespace VieCut
open Finset Function

variable {n : Nat} {w : Nat → Nat → Nat}

/-- Weight of the edges from a vertex to a list of vertices. -/
theorem btw_list {v : Nat} (hv : v < n) (L : List Nat) (hnd : L.Nodup) (hL : ∀ t ∈ L, t < n) :
    btw n w (fun x => x = v) (fun x => x ∈ L) = (L.map (w v)).sum := by
  induction L with
  | nil => simp [btw, wsum, ind]
  | cons t L ih =>
    obtain ⟨ht, hnd'⟩ := List.nodup_cons.1 hnd
    rw [btw_split_right _ _ (fun x => x = t), List.map_cons, List.sum_cons, ← ih hnd' (fun t ht => hL t (by simp [ht])),
      ← btw_singletons (w := w) hv (hL t (by simp))]
    congr 1
    · exact btw_congr (fun _ _ => Iff.rfl) fun x _ => by constructor <;> simp +contextual
    · refine btw_congr (fun _ _ => Iff.rfl) fun x _ => ?_
      constructor
      · rintro ⟨h1, h2⟩
        rcases List.mem_cons.1 h1 with h | h
        · exact absurd h h2
        · exact h
      · intro h
        exact ⟨List.mem_cons_of_mem _ h, fun e => ht (e ▸ h)⟩

/-- Moving a single vertex. -/
theorem relabel_one (hw : ∀ u v, w u v = w v u) {f : Nat → Nat} {v h : Nat} (hv : v < n) (hh : h < n) (hne : v ≠ h)
    (hle : btw n w (fun x => x = v) (fun x => x ≠ v ∧ f x = f v) ≤ w v h) :
    multicutValue n w (relabel f (fun x => x = v) (f h)) ≤ multicutValue n w f := by
  by_cases e : f v = f h
  · refine Nat.le_of_eq (multicut_congr fun a b _ _ => ?_)
    have : ∀ a, relabel f (fun x => x = v) (f h) a = f a := by
      intro a
      by_cases c : a = v
      · rw [relabel_in (S := fun x => x = v) c, c, e]
      · rw [relabel_out (S := fun x => x = v) c]
    rw [this, this]
  · refine relabel_le hw ?_
    refine Nat.le_trans ?_ (Nat.le_add_right _ _)
    refine Nat.le_trans (Nat.le_trans ?_ hle) ?_
    · exact wsum_mono fun a b _ _ => ind_mono fun ⟨h1, h2, h3, h4⟩ => ⟨h1, h2, by rw [← h4, h1]⟩
    · rw [← btw_singletons (w := w) hv hh]
      exact wsum_mono fun a b _ _ => ind_mono fun ⟨h1, h2⟩ => ⟨h1, by rw [h1]; exact e, by rw [h2]; exact hne.symm, by rw [h2]⟩

/-- Among the choices kept by the branching rule there is one compatible with a solution that is not heavier. -/
theorem branch_complete (hw : ∀ u v, w u v = w v u) {ts T N : List Nat} {v h : Nat} (hv : v < n) (hvt : v ∉ ts)
    (htn : ∀ t ∈ ts, t < n) (hT : ∀ t ∈ T, t ∈ ts) (hiso : ∀ s ∈ ts, s ∉ T → ∀ x, w s x = 0)
    (hN : ∀ t ∈ N, t ∈ T) (hNT : ∀ t ∈ T, t ∉ N → w v t = 0) (hh : h ∈ N) (hmax : ∀ t ∈ N, w v t ≤ w v h)
    {non : Nat} (hnon : non = btw n w (fun x => x = v) (fun x => x ∉ N)) {f : Nat → Nat} (hf : Separates ts f) :
    ∃ f', Separates ts f' ∧ multicutValue n w f' ≤ multicutValue n w f ∧
      ((∃ t ∈ N, f' v = f' t ∧ (non + w v t > w v h ∨ w v h = w v t)) ∨
        ((∃ s ∈ T, s ∉ N) ∧ non > w v h ∧ ∀ t ∈ T, w v t ≠ 0 → f' v ≠ f' t)) := by
  classical
  have hhn : h < n := htn h (hT h (hN h hh))
  have hvh : v ≠ h := fun e => hvt (e ▸ hT h (hN h hh))
  -- moving `v` to the heaviest terminal
  have move : btw n w (fun x => x = v) (fun x => x ≠ v ∧ f x = f v) ≤ w v h →
      ∃ f', Separates ts f' ∧ multicutValue n w f' ≤ multicutValue n w f ∧
        ∃ t ∈ N, f' v = f' t ∧ (non + w v t > w v h ∨ w v h = w v t) := by
    intro hle
    refine ⟨relabel f (fun x => x = v) (f h), separates_relabel hf ?_, relabel_one hw hv hhn hvh hle, h, hh, ?_, Or.inr rfl⟩
    · intro t ht e; exact absurd (e ▸ ht) hvt
    · rw [relabel_in (S := fun x => x = v) rfl, relabel_out (S := fun x => x = v) (fun e => hvh e.symm)]
  -- weight to vertices with the same label
  have hown : ∀ t ∈ T, f v = f t → btw n w (fun x => x = v) (fun x => x ≠ v ∧ f x = f v) ≤ w v t + non := by
    intro t ht e
    rw [hnon, ← btw_singletons (w := w) hv (htn t (hT t ht)), btw_split_right _ _ (fun x => x = t)]
    refine Nat.add_le_add (btw_mono (fun _ _ h => h) fun x _ hx => hx.2) (btw_mono (fun _ _ h => h) ?_)
    rintro x _ ⟨⟨_, h1⟩, h2⟩ hxN
    exact hf x (hT x (hN x hxN)) t (hT t ht) h2 (h1.trans e)
  have hnone : (∀ t ∈ N, f v ≠ f t) → btw n w (fun x => x = v) (fun x => x ≠ v ∧ f x = f v) ≤ non := by
    intro h1
    rw [hnon]
    exact btw_mono (fun _ _ h => h) fun x _ hx hxN => h1 x hxN hx.2.symm
  by_cases hA : ∃ t ∈ N, f v = f t
  · obtain ⟨t, htN, e⟩ := hA
    by_cases hk : non + w v t > w v h ∨ w v h = w v t
    · exact ⟨f, hf, Nat.le_refl _, Or.inl ⟨t, htN, e, hk⟩⟩
    · push Not at hk
      have := hown t (hN t htN) e
      obtain ⟨f', h1, h2, h3⟩ := move (by omega)
      exact ⟨f', h1, h2, Or.inl h3⟩
  · push Not at hA
    have hW := hnone hA
    by_cases hc : non ≤ w v h
    · obtain ⟨f', h1, h2, h3⟩ := move (by omega)
      exact ⟨f', h1, h2, Or.inl h3⟩
    · by_cases hs : ∃ s ∈ T, s ∉ N
      · refine ⟨f, hf, Nat.le_refl _, Or.inr ⟨hs, by omega, fun t ht hw0 => ?_⟩⟩
        by_cases htN : t ∈ N
        · exact hA t htN
        · exact absurd (hNT t ht htN) hw0
      · push Not at hs
        -- `v` is adjacent to all terminals and its block contains none of them
        let S : Nat → Prop := fun x => x ∉ ts ∧ f x = f v
        refine ⟨relabel f S (f h), separates_relabel hf (fun t ht hS => absurd ht hS.1), relabel_le hw ?_, Or.inl ⟨h, hh, ?_, Or.inr rfl⟩⟩
        · have : wsum n w (fun a b => ind (S a ∧ ¬ S b ∧ f a ≠ f h ∧ f a = f b)) ≤ wsum n w (fun _ _ => 0) := by
            refine wsum_le_wsum fun a b _ _ h0 => ?_
            rw [ind_neg]
            rintro ⟨h1, h2, _, h4⟩
            have hb : b ∈ ts := by
              by_contra hb
              exact h2 ⟨hb, h4.symm.trans h1.2⟩
            by_cases hbT : b ∈ T
            · exact hA b (hs b hbT) (h1.2.symm.trans h4)
            · exact h0 (by rw [hw, hiso b hb hbT])
          have h0 : wsum n w (fun _ _ => 0) = 0 := by simp [wsum]
          omega
        · rw [relabel_in (S := S) ⟨hvt, rfl⟩, relabel_out (S := S) (fun hS => hS.1 (hT h (hN h hh)))]

namespace Problem
open MGraph

variable {ots : List Nat} {p : Problem} {vtx : Nat}

theorem mem_nbrTerminals {x : Nat × Nat} : x ∈ p.nbrTerminals vtx ↔
    x.1 ∈ p.tpos ∧ ∃ e, firstTo p.graph x.1 vtx = some e ∧ x.2 = (p.graph.edge x.1 e).weight := by
  unfold nbrTerminals
  rw [List.mem_filterMap]
  constructor
  · rintro ⟨t, ht, h⟩
    rw [Option.map_eq_some_iff] at h
    obtain ⟨e, he, rfl⟩ := h
    exact ⟨ht, e, he, rfl⟩
  · rintro ⟨h1, e, h2, h3⟩
    exact ⟨x.1, h1, by rw [h2, Option.map_some, ← h3]⟩

theorem nbrTerminals_fst : (p.nbrTerminals vtx).map Prod.fst = p.tpos.filter (fun t => (firstTo p.graph t vtx).isSome) := by
  unfold nbrTerminals
  induction p.tpos with
  | nil => rfl
  | cons t l ih =>
    rw [List.filterMap_cons, List.filter_cons]
    rcases firstTo p.graph t vtx with _ | e
    · simpa using ih
    · simpa using ih

theorem foldl_max {l : List (Nat × Nat)} (m : Nat) :
    m ≤ l.foldl (fun m e => max m e.2) m ∧ (∀ e ∈ l, e.2 ≤ l.foldl (fun m e => max m e.2) m) ∧
    (l.foldl (fun m e => max m e.2) m = m ∨ ∃ e ∈ l, e.2 = l.foldl (fun m e => max m e.2) m) := by
  induction l generalizing m with
  | nil => simp
  | cons x l ih =>
    rw [List.foldl_cons]
    obtain ⟨h1, h2, h3⟩ := ih (max m x.2)
    refine ⟨by omega, ?_, ?_⟩
    · intro e he
      rcases List.mem_cons.1 he with rfl | he
      · omega
      · exact h2 e he
    · rcases h3 with h3 | ⟨e, he, h3⟩
      · rcases Nat.le_total m x.2 with hm | hm
        · right; exact ⟨x, by simp, by omega⟩
        · left; omega
      · right; exact ⟨e, List.mem_cons_of_mem _ he, h3⟩

theorem some_mem_branch {t : Nat} : some t ∈ p.branchTerminals vtx ↔ ∃ x ∈ p.nbrTerminals vtx, x.1 = t ∧
    (p.graph.wdeg vtx - ((p.nbrTerminals vtx).map Prod.snd).sum + x.2 > (p.nbrTerminals vtx).foldl (fun m e => max m e.2) 0 ∨
      (p.nbrTerminals vtx).foldl (fun m e => max m e.2) 0 = x.2) := by
  unfold branchTerminals
  simp only [List.mem_map, List.mem_filter, List.mem_insertionSort, List.mem_append, decide_eq_true_eq]
  constructor
  · rintro ⟨y, ⟨⟨x, hx, rfl⟩ | hy, hk⟩, he⟩
    · exact ⟨x, hx, by simpa using he, hk⟩
    · split at hy
      · rw [List.mem_singleton] at hy
        rw [hy] at he
        exact absurd he (by simp)
      · simp at hy
  · rintro ⟨x, hx, rfl, hk⟩
    exact ⟨(some x.1, x.2), ⟨Or.inl ⟨x, hx, rfl⟩, hk⟩, rfl⟩

theorem none_mem_branch : none ∈ p.branchTerminals vtx ↔ (p.nbrTerminals vtx).length < p.terminals.length ∧
    p.graph.wdeg vtx - ((p.nbrTerminals vtx).map Prod.snd).sum > (p.nbrTerminals vtx).foldl (fun m e => max m e.2) 0 := by
  unfold branchTerminals
  simp only [List.mem_map, List.mem_filter, List.mem_insertionSort, List.mem_append, decide_eq_true_eq]
  constructor
  · rintro ⟨y, ⟨⟨x, hx, rfl⟩ | hy, hk⟩, he⟩
    · exact absurd he (by simp)
    · split at hy
      · assumption
      · simp at hy
  · rintro h
    refine ⟨(none, p.graph.wdeg vtx - ((p.nbrTerminals vtx).map Prod.snd).sum), ⟨Or.inr (by rw [if_pos h]; simp), ?_⟩, rfl⟩
    dsimp only
    omega

/-- What `findHeavyVertex` returns if some terminal has a neighbour of positive degree. -/
theorem heavyVertex_spec (h : ∃ t ∈ p.tpos, ∃ e, e < p.graph.len t ∧ 0 < p.graph.wdeg (p.graph.edge t e).target) :
    p.heavyVertex.1 ∈ p.tpos ∧ p.heavyVertex.2 < p.graph.len p.heavyVertex.1 ∧
    ∀ t ∈ p.tpos, ∀ e, e < p.graph.len t →
      p.graph.wdeg (p.graph.edge t e).target ≤ p.graph.wdeg (p.graph.edge p.heavyVertex.1 p.heavyVertex.2).target := by
  let I : Heavy → Prop := fun s => s.wgt = 0 ∨ (s.t ∈ p.tpos ∧ s.e < p.graph.len s.t ∧
    s.wgt = p.graph.wdeg (p.graph.edge s.t s.e).target)
  let step : Nat → Heavy → Nat → Heavy := fun t s e =>
    if p.graph.wdeg (p.graph.edge t e).target > s.wgt then ⟨p.graph.wdeg (p.graph.edge t e).target, t, e⟩ else s
  have inner : ∀ t ∈ p.tpos, ∀ (l : List Nat) (s : Heavy), (∀ e ∈ l, e < p.graph.len t) → I s →
      I (l.foldl (step t) s) ∧ s.wgt ≤ (l.foldl (step t) s).wgt ∧
      ∀ e ∈ l, p.graph.wdeg (p.graph.edge t e).target ≤ (l.foldl (step t) s).wgt := by
    intro t ht l
    induction l with
    | nil => intro s _ hs; exact ⟨hs, Nat.le_refl _, by simp⟩
    | cons e l ih =>
      intro s hl hs
      rw [List.foldl_cons]
      have h1 : I (step t s e) ∧ s.wgt ≤ (step t s e).wgt ∧ p.graph.wdeg (p.graph.edge t e).target ≤ (step t s e).wgt := by
        show I (if _ then _ else _) ∧ _ ≤ (if _ then _ else _ : Heavy).wgt ∧ _ ≤ (if _ then _ else _ : Heavy).wgt
        split
        · exact ⟨Or.inr ⟨ht, hl e (by simp), rfl⟩, by dsimp only; omega, Nat.le_refl _⟩
        · exact ⟨hs, Nat.le_refl _, by omega⟩
      obtain ⟨a1, a2, a3⟩ := ih _ (fun e he => hl e (by simp [he])) h1.1
      refine ⟨a1, h1.2.1.trans a2, fun e' he' => ?_⟩
      rcases List.mem_cons.1 he' with rfl | he'
      · exact h1.2.2.trans a2
      · exact a3 e' he'
  have outer : ∀ (l : List Nat) (s : Heavy), (∀ t ∈ l, t ∈ p.tpos) → I s →
      I (l.foldl (fun s t => (List.range (p.graph.len t)).foldl (step t) s) s) ∧
      s.wgt ≤ (l.foldl (fun s t => (List.range (p.graph.len t)).foldl (step t) s) s).wgt ∧
      ∀ t ∈ l, ∀ e, e < p.graph.len t → p.graph.wdeg (p.graph.edge t e).target ≤
        (l.foldl (fun s t => (List.range (p.graph.len t)).foldl (step t) s) s).wgt := by
    intro l
    induction l with
    | nil => intro s _ hs; exact ⟨hs, Nat.le_refl _, by simp⟩
    | cons t l ih =>
      intro s hl hs
      rw [List.foldl_cons]
      obtain ⟨b1, b2, b3⟩ := inner t (hl t (by simp)) (List.range (p.graph.len t)) s (fun e he => List.mem_range.1 he) hs
      obtain ⟨a1, a2, a3⟩ := ih _ (fun t ht => hl t (by simp [ht])) b1
      refine ⟨a1, b2.trans a2, fun t' ht' e he => ?_⟩
      rcases List.mem_cons.1 ht' with rfl | ht'
      · exact (b3 e (List.mem_range.2 he)).trans a2
      · exact a3 t' ht' e he
  obtain ⟨h1, _, h3⟩ := outer p.tpos {} (fun t ht => ht) (Or.inl rfl)
  obtain ⟨t, ht, e, he, hp⟩ := h
  have hpos := h3 t ht e he
  have hv : p.heavyVertex = ((p.tpos.foldl (fun s t => (List.range (p.graph.len t)).foldl (step t) s) {}).t,
    (p.tpos.foldl (fun s t => (List.range (p.graph.len t)).foldl (step t) s) {}).e) := rfl
  rw [hv]
  rcases h1 with h1 | ⟨k1, k2, k3⟩
  · omega
  · refine ⟨k1, k2, fun t ht e he => ?_⟩
    dsimp only
    rw [← k3]
    exact h3 t ht e he

theorem optimumWith_of {c : Nat} {P : (Nat → Nat) → Prop} (h : Optimum ots p c) {f : Nat → Nat}
    (hf : Separates (p.spots ots) f) (hP : P f) (hc : p.cost f ≤ c) : OptimumWith ots p P c := by
  rw [optimum_iff] at h
  have := h.2 f hf
  exact ⟨⟨f, hf, hP, by unfold cost at this hc; omega⟩, fun g hg _ => h.2 g hg⟩

/-- The reverse edge. -/
theorem exists_reverse (h : Consistent p.graph) {a e : Nat} (ha : a < p.graph.n) (he : e < p.graph.len a) :
    ∃ e', e' < p.graph.len (p.graph.edge a e).target ∧ (p.graph.edge (p.graph.edge a e).target e').target = a :=
  ⟨_, h.partner a e ha he, (h.back a e ha he).1⟩

/-- `multiBranch`: every created problem is in order and not better than the given one, and one of them has the same
optimum. -/
theorem multiBranch_ok (h : Ok ots p) (hc : Current ots p)
    (hclean : ∀ t ∈ p.tpos, ∀ e, e < p.graph.len t → (p.graph.edge t e).target ∉ p.spots ots)
    (hedge : ∃ t ∈ p.tpos, ∃ e, e < p.graph.len t ∧ 0 < p.graph.wdeg (p.graph.edge t e).target) :
    (∀ q ∈ p.multiBranch ots, Ok ots q ∧ (∀ c d, Optimum ots p c → Optimum ots q d → c ≤ d) ∧
      (q.graph.n < p.graph.n ∨ (q.graph.n = p.graph.n ∧ q.graph.numEdges < p.graph.numEdges))) ∧
    ∃ q ∈ p.multiBranch ots, ∀ c, Optimum ots p c → Optimum ots q c := by
  obtain ⟨k1, k2, _⟩ := heavyVertex_spec hedge
  set vtx := (p.graph.edge p.heavyVertex.1 p.heavyVertex.2).target with hvtx
  have htn : p.heavyVertex.1 < p.graph.n := h.spot_lt _ (hc.spots _ k1)
  have hv : vtx < p.graph.n := h.consistent.target _ _ htn k2
  have hvs : vtx ∉ p.spots ots := hclean _ k1 _ k2
  have hmb : p.multiBranch ots = (p.branchTerminals vtx).map (mbChild ots p vtx) := rfl
  set nt := p.nbrTerminals vtx with hnt
  set N := nt.map Prod.fst with hN
  set heavy := nt.foldl (fun m e => max m e.2) 0 with hheavy
  set non := p.graph.wdeg vtx - (nt.map Prod.snd).sum with hnon
  have hNf : N = p.tpos.filter (fun t => (firstTo p.graph t vtx).isSome) := nbrTerminals_fst
  have hNnd : N.Nodup := by rw [hNf]; exact hc.nodup.filter _
  have hNT : ∀ t ∈ N, t ∈ p.tpos := by intro t ht; rw [hNf] at ht; exact List.mem_of_mem_filter ht
  have hwsymm : ∀ u v, p.graph.toGraph.wt u v = p.graph.toGraph.wt v u := h.valid.wf.wt_symm
  -- weights recorded in `nt`
  have hw : ∀ x ∈ nt, x.2 = p.graph.toGraph.wt vtx x.1 := by
    intro x hx
    obtain ⟨h1, e, h2, h3⟩ := mem_nbrTerminals.1 hx
    obtain ⟨h4, h5⟩ := firstTo_some h2
    rw [h3, hwsymm, ← h5, wt_edge h.simple (h.spot_lt _ (hc.spots _ h1)) h4]
  have hback : ∀ t ∈ N, ∃ e, e < p.graph.len vtx ∧ (p.graph.edge vtx e).target = t := by
    intro t ht
    obtain ⟨x, hx, rfl⟩ := List.mem_map.1 ht
    obtain ⟨h1, e, h2, h3⟩ := mem_nbrTerminals.1 hx
    obtain ⟨h4, h5⟩ := firstTo_some h2
    obtain ⟨e', h6, h7⟩ := exists_reverse h.consistent (h.spot_lt _ (hc.spots _ h1)) h4
    rw [h5] at h6 h7
    exact ⟨e', h6, h7⟩
  have hzero : ∀ t ∈ p.tpos, t ∉ N → p.graph.toGraph.wt vtx t = 0 := by
    intro t ht htN
    by_contra h0
    have hpos : 0 < p.graph.toGraph.wt t vtx := by rw [hwsymm]; omega
    obtain ⟨x, hx, hx1⟩ := exists_mem_of_wt_pos hpos
    rw [toGraph_edges _ (h.spot_lt _ (hc.spots _ ht)), List.mem_map] at hx
    obtain ⟨e, he, rfl⟩ := hx
    apply htN
    rw [hNf, List.mem_filter]
    refine ⟨ht, ?_⟩
    rcases hf : firstTo p.graph t vtx with _ | e'
    · exact absurd hx1 (firstTo_none.1 hf e (List.mem_range.1 he))
    · rfl
  have hmem : p.heavyVertex.1 ∈ N := by
    rw [hNf, List.mem_filter]
    refine ⟨k1, ?_⟩
    rcases hf : firstTo p.graph p.heavyVertex.1 vtx with _ | e'
    · exact absurd rfl (firstTo_none.1 hf _ k2)
    · rfl
  obtain ⟨-, m2, m3⟩ := foldl_max (l := nt) 0
  rw [← hheavy] at m2 m3
  obtain ⟨hx0, hx0m, hx0w⟩ : ∃ x ∈ nt, x.2 = heavy := by
    rcases m3 with m3 | m3
    · obtain ⟨x, hx, -⟩ := List.mem_map.1 hmem
      exact ⟨x, hx, by have := m2 x hx; omega⟩
    · exact m3
  have hh : hx0.1 ∈ N := List.mem_map.2 ⟨_, hx0m, rfl⟩
  have hhw : p.graph.toGraph.wt vtx hx0.1 = heavy := by rw [← hw _ hx0m, hx0w]
  have hsum : (nt.map Prod.snd).sum = (N.map (p.graph.toGraph.wt vtx)).sum := by
    rw [hN, List.map_map]
    congr 1
    exact List.map_congr_left fun x hx => hw x hx
  have hnonb : non = btw p.graph.n p.graph.toGraph.wt (fun x => x = vtx) (fun x => x ∉ N) := by
    have h1 := btw_list (n := p.graph.n) (w := p.graph.toGraph.wt) hv N hNnd
      (fun t ht => h.spot_lt _ (hc.spots _ (hNT t ht)))
    have h2 : p.graph.wdeg vtx = btw p.graph.n p.graph.toGraph.wt (fun x => x = vtx) (fun _ => True) := by
      rw [Valid.wdeg_eq h.valid hv, btw_row hv, h.valid.wf.deg_eq]
      rw [toGraph_n]
      exact Finset.sum_congr rfl fun u _ => by rw [ind_pos trivial, Nat.one_mul]
    rw [btw_split_right _ _ (fun x => x ∈ N)] at h2
    have h3 : btw p.graph.n p.graph.toGraph.wt (fun x => x = vtx) (fun x => True ∧ x ∈ N) =
        btw p.graph.n p.graph.toGraph.wt (fun x => x = vtx) (fun x => x ∈ N) :=
      btw_congr (fun _ _ => Iff.rfl) fun x _ => by simp
    have h4 : btw p.graph.n p.graph.toGraph.wt (fun x => x = vtx) (fun x => True ∧ ¬ x ∈ N) =
        btw p.graph.n p.graph.toGraph.wt (fun x => x = vtx) (fun x => x ∉ N) :=
      btw_congr (fun _ _ => Iff.rfl) fun x _ => by simp
    rw [h3, h4] at h2
    rw [hnon, h2, hsum, h1, Nat.add_sub_cancel_left]
  have hisNone : (∃ s ∈ p.tpos, s ∉ N) → nt.length < p.terminals.length := by
    rintro ⟨s, hs, hsN⟩
    have e1 : nt.length = N.length := by rw [hN, List.length_map]
    have e2 : p.terminals.length = p.tpos.length := by unfold tpos; rw [List.length_map]
    rw [e1, e2, hNf]
    refine lt_of_le_of_ne (List.length_filter_le _ _) fun e => ?_
    have := List.filter_eq_self.2 (List.length_filter_eq_length_iff.1 e)
    exact hsN (by rw [hNf, this]; exact hs)
  refine ⟨?_, ?_⟩
  · intro q hq
    rw [hmb, List.mem_map] at hq
    obtain ⟨ctr, hctr, rfl⟩ := hq
    rcases ctr with _ | t
    · obtain ⟨a1, a2, _, _, a5, _⟩ := mbChild_none (vtx := vtx) h hc.spots hv
      obtain ⟨e, he, het⟩ := hback _ hmem
      exact ⟨a1, a5, Or.inr ⟨a2, mbChild_none_edges h hc.spots hv (hNT _ hmem) he het⟩⟩
    · obtain ⟨x, hx, rfl, _⟩ := some_mem_branch.1 hctr
      have hxN : x.1 ∈ N := List.mem_map.2 ⟨x, hx, rfl⟩
      obtain ⟨e, he, het⟩ := hback _ hxN
      obtain ⟨a1, a2, a3⟩ := mbChild_some h hc.spots hv hvs (hNT _ hxN) he het
      refine ⟨a1, fun c d hc' hd => ?_, Or.inl (by rw [a2]; omega)⟩
      obtain ⟨⟨f, f1, _, rfl⟩, _⟩ := (a3 d).1 hd
      exact (optimum_iff.1 hc').2 f f1
  · obtain ⟨c, hopt⟩ := optimum_exists ots p
    obtain ⟨⟨f, hf, rfl⟩, hmin⟩ := optimum_iff.1 hopt
    have huniq : ∀ q : Problem, Optimum ots q (p.cost f) → ∀ c, Optimum ots p c → Optimum ots q c := by
      intro q hq c hc'
      rw [optimum_unique hc' hopt]; exact hq
    obtain ⟨f', g1, g2, g3⟩ := branch_complete hwsymm hv hvs (fun t ht => h.spot_lt t ht) hc.spots
      (fun s hs hsT x => by
        have hl : p.graph.len s = 0 := by
          by_contra h0
          exact hsT (hc.all s hs (by omega))
        unfold Graph.wt
        rw [edges_nil_of_len hl]; rfl)
      hNT hzero hh (fun t ht => by
        obtain ⟨x, hx, rfl⟩ := List.mem_map.1 ht
        rw [← hw x hx, hhw]; exact m2 x hx) hnonb hf
    have hcost : p.cost f' = p.cost f := by
      have := hmin f' g1
      unfold cost at this ⊢
      omega
    rw [hhw] at g3
    rcases g3 with ⟨t, htN, e, hk⟩ | ⟨hs, hk, hcut⟩
    · obtain ⟨x, hx, rfl⟩ := List.mem_map.1 htN
      rw [← hw x hx] at hk
      refine ⟨mbChild ots p vtx (some x.1), ?_, huniq _ ?_⟩
      · rw [hmb]
        exact List.mem_map_of_mem (some_mem_branch.2 ⟨x, hx, rfl, hk⟩)
      · obtain ⟨e', he', het⟩ := hback _ htN
        obtain ⟨_, _, a3⟩ := mbChild_some h hc.spots hv hvs (hNT _ htN) he' het
        rw [a3]
        exact optimumWith_of hopt g1 e (Nat.le_of_eq hcost)
    · refine ⟨mbChild ots p vtx none, ?_, huniq _ ?_⟩
      · rw [hmb]
        exact List.mem_map_of_mem (none_mem_branch.2 ⟨hisNone hs, hk⟩)
      · obtain ⟨_, _, _, _, _, a6⟩ := mbChild_none (vtx := vtx) h hc.spots hv
        have := a6 f' g1 hcut (by rw [hcost]; exact hopt)
        rwa [hcost] at this

theorem current_setTerminals (h : Ok ots p) : Current ots (p.setTerminals ots) :=
  ⟨fun _ ht => (mem_tpos_setTerminals.1 ht).1, fun s hs hl => mem_tpos_setTerminals.2 ⟨hs, hl, h.spot_lt s hs⟩,
    setTerminals_pos_nodup h⟩

/-- After `deleteTermEdges` the recorded terminals are current and no edge joins two terminals. -/
theorem deleteTermEdges_clean (h : Ok ots p) : Current ots (p.deleteTermEdges ots) ∧
    ∀ t ∈ (p.deleteTermEdges ots).tpos, ∀ e, e < (p.deleteTermEdges ots).graph.len t →
      ((p.deleteTermEdges ots).graph.edge t e).target ∉ (p.deleteTermEdges ots).spots ots := by
  set T := (p.setTerminals ots).tpos with hTd
  have hT : ∀ t ∈ T, t ∈ p.spots ots := fun t ht => (mem_tpos_setTerminals.1 ht).1
  have h0 : DInv ots p ⟨p.graph, 0, (p.setTerminals ots).terminals⟩ :=
    ⟨h.congr rfl rfl, rfl, fun c => (Optimum.congr rfl rfl rfl c).symm, rfl⟩
  obtain ⟨h1, h2⟩ := dteLoop_inv hT T _ (fun t ht => ht) h0
  obtain ⟨d1, _, d3, d4, _⟩ := deleteTermEdges_ok h
  have hlen : ∀ v, (p.deleteTermEdges ots).graph.len v ≤ p.graph.len v := by
    intro v
    have := deleteTermEdges_row_le h (fun _ _ => 1) v
    unfold rowSum at this
    simpa using this
  have hcur : Current ots (p.deleteTermEdges ots) := by
    have hq : Ok ots (p.ofDTE (T.foldl (dteTerm T) ⟨p.graph, 0, (p.setTerminals ots).terminals⟩)) := h1.ok
    exact current_setTerminals (h1.ok.congr rfl rfl)
  have hsub : ∀ t ∈ (p.deleteTermEdges ots).tpos, 0 < (p.deleteTermEdges ots).graph.len t → t ∈ T := by
    intro t ht hl
    have hs := hcur.spots t ht
    rw [d3] at hs
    exact mem_tpos_setTerminals.2 ⟨hs, Nat.lt_of_lt_of_le hl (hlen t), h.spot_lt t hs⟩
  refine ⟨hcur, fun t ht e he hin => ?_⟩
  have htT := hsub t ht (by omega)
  have htn : t < (p.deleteTermEdges ots).graph.n := d1.spot_lt t (hcur.spots t ht)
  have hl : 0 < (p.deleteTermEdges ots).graph.len ((p.deleteTermEdges ots).graph.edge t e).target :=
    Nat.lt_of_le_of_lt (Nat.zero_le _) (d1.consistent.partner t e htn he)
  have hm := hsub _ (hcur.all _ hin hl) hl
  exact h2 t htT (Or.inl htT) e (Nat.zero_le _) he hm

end Problem
end VieCut
