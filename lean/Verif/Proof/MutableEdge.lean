import Verif.Proof.MutableVertexSet

/-! `contractEdge`, `contractEdgeSparseTarget`, `contractSparseTargetNoEdge`. -/

namespace VieCut.MGraph
open Function Finset

/-- Start of folding `target` into `keep`. -/
theorem CI.init {g : MGraph} (hg : Valid g) {keep target : Nat} (hk : keep < g.n) (ht : target < g.n)
    (hne : keep ≠ target) :
    CI g g [keep, target] keep (fun b => b < g.len keep ∧ (g.edge keep b).target = target)
      (fun a b => a = target ∧ b < g.len target ∧ (g.edge target b).target ≠ keep) (g.len target) (Simple g []) := by
  refine ⟨rfl, by simp, hk, ?_, ?_, ?_, ?_, fun _ _ _ => rfl, fun _ _ _ _ _ => rfl, fun _ _ _ => rfl,
    fun _ _ => rfl, hg.wdeg keep hk (by simp), ?_, ?_, fun b hb => hb.1, fun _ _ => rfl, fun _ _ _ _ => rfl, ⟨le_refl _,
    fun _ _ => rfl⟩, fun hw => ⟨fun a b hab => by rw [hab.1] at *; exact hw target b ht (by simp) hab.2.1, fun b hb => hw keep b hk (by simp) hb⟩⟩
  · intro a b hab
    unfold LC at hab ⊢
    have hmem : ∀ x, x ∉ [keep, target] ↔ x ≠ keep ∧ x ≠ target := by intro x; simp
    rw [hmem] at hab
    rw [hmem]
    rcases hab with ⟨a1, a2, a3⟩ | ⟨rfl, a2, a3⟩ | ⟨rfl, a2, a3⟩
    · obtain ⟨k1, ⟨k2, _, k2'⟩, k3, k4, k5, k6⟩ := hg.pv a b ⟨a2, by simp, a3⟩
      refine ⟨k1, ?_, k3, k4, k5, k6⟩
      by_cases h1 : (g.edge a b).target = keep
      · right; left
        rw [h1] at k2' k3
        refine ⟨h1, k2', ?_⟩
        rintro ⟨_, h2⟩
        rw [k3] at h2; exact a1.2 h2
      · by_cases h2 : (g.edge a b).target = target
        · right; right
          rw [h2] at k2' k3
          refine ⟨h2, k2', ?_⟩
          rw [k3]; exact a1.1
        · exact Or.inl ⟨⟨h1, h2⟩, k2, k2'⟩
    · obtain ⟨k1, ⟨k2, _, k2'⟩, k3, k4, k5, k6⟩ := hg.pv a b ⟨hk, by simp, a2⟩
      exact ⟨k1, Or.inl ⟨⟨k6, fun hh => a3 ⟨a2, hh⟩⟩, k2, k2'⟩, k3, k4, k5, k6⟩
    · obtain ⟨k1, ⟨k2, _, k2'⟩, k3, k4, k5, k6⟩ := hg.pv a b ⟨ht, by simp, a2⟩
      exact ⟨k1, Or.inl ⟨⟨a3, k6⟩, k2, k2'⟩, k3, k4, k5, k6⟩
  · rintro a b ⟨rfl, _⟩
    exact ⟨by simp, Ne.symm hne⟩
  · rintro a b ⟨rfl, h1, h2⟩
    refine ⟨?_, rfl, rfl⟩
    have := (hg.pv a b ⟨ht, by simp, h1⟩).2.2.2.2.2
    simp [h2, this]
  · intro b hb hd
    have := (hg.pv keep b ⟨hk, by simp, hb⟩).2.2.2.2.2
    have h2 : (g.edge keep b).target ≠ target := fun hh => hd ⟨hb, hh⟩
    simp [h2, this]
  · rw [hg.num]
    have e : (range g.n).filter (fun u => u ∉ ([] : List Nat)) =
        insert keep (insert target ((range g.n).filter (fun u => u ∉ [keep, target]))) := by
      ext u
      simp only [List.not_mem_nil, not_false_eq_true, mem_filter, mem_range, and_true, mem_insert, List.mem_cons,
        or_false, not_or]
      constructor
      · intro hu
        by_cases h1 : u = keep
        · exact Or.inl h1
        · by_cases h2 : u = target
          · exact Or.inr (Or.inl h2)
          · exact Or.inr (Or.inr ⟨hu, h1, h2⟩)
      · rintro (h1 | h1 | h1)
        · omega
        · omega
        · exact h1.1
    rw [e, Finset.sum_insert (by simp [hne]), Finset.sum_insert (by simp)]
    omega
  · intro hs b b' hb _ hb' _ heq
    obtain ⟨k1, ⟨k2, _, k2'⟩, _⟩ := hg.pv keep b ⟨hk, by simp, hb⟩
    have hc := hs keep (g.edge keep b).target hk (by simp) k2 (by simp)
    unfold cnt rowSum at hc
    rw [← Finset.sum_filter, ← Finset.card_eq_sum_ones, Finset.card_le_one] at hc
    exact hc b (by rw [mem_filter, mem_range]; exact ⟨hb, rfl⟩) b'
      (by rw [mem_filter, mem_range]; exact ⟨hb', heq.symm⟩)

theorem CI.congrDead {g0 g S keep dead dead' pend R sim} (h : CI g0 g S keep dead pend R sim)
    (hp : ∀ b, dead' b ↔ dead b) : CI g0 g S keep dead' pend R sim := by
  have : dead' = dead := by funext b; exact propext (hp b)
  rw [this]; exact h

/-- At most one edge between two vertices. -/
theorem cnt_le_one {g : MGraph} {u v : Nat} (h : g.cnt u v ≤ 1) {b b' : Nat} (hb : b < g.len u) (hb' : b' < g.len u)
    (h1 : (g.edge u b).target = v) (h2 : (g.edge u b').target = v) : b = b' := by
  unfold cnt rowSum at h
  rw [← Finset.sum_filter, ← Finset.card_eq_sum_ones, Finset.card_le_one] at h
  exact h b (by rw [mem_filter, mem_range]; exact ⟨hb, h1⟩) b' (by rw [mem_filter, mem_range]; exact ⟨hb', h2⟩)

theorem cnt_zero {g : MGraph} {u v : Nat} (h : g.cnt u v = 0) {b : Nat} (hb : b < g.len u) :
    (g.edge u b).target ≠ v := by
  unfold cnt rowSum at h
  intro hh
  have := Finset.sum_eq_zero_iff.1 h b (mem_range.2 hb)
  simp [hh] at this

/-- Deleting the edge between the two merged vertices. -/
def kill (g : MGraph) (keep edge w : Nat) : MGraph :=
  { g.internalDelete keep edge with
    numEdges := (g.internalDelete keep edge).numEdges - 2
    wdeg := update (g.internalDelete keep edge).wdeg keep ((g.internalDelete keep edge).wdeg keep - w) }

theorem CI.kill {g0 g : MGraph} {S : List Nat} {keep edge : Nat} {sim : Prop}
    (h : CI g0 g S keep (fun b => b = edge) (fun _ _ => False) 1 sim) :
    CE g0 (g.kill keep edge (g0.edge keep edge).weight) S keep sim := by
  have he : edge < g.len keep := h.deadlt edge rfl
  obtain ⟨f1, f2, f3, f4, f5, f6⟩ := internalDelete_frame g keep edge
  have hLk : ∀ b, LC g S keep (fun b => b = edge) (fun _ _ => False) keep b ↔ b < g.len keep ∧ b ≠ edge := by
    intro b
    unfold LC
    constructor
    · rintro (h1 | h1 | h1)
      · exact absurd h.kS h1.1
      · exact h1.2
      · exact h1.elim
    · intro h1; exact Or.inr (Or.inl ⟨rfl, h1⟩)
  have hl : g.len keep > edge + 1 → LC g S keep (fun b => b = edge) (fun _ _ => False) keep (g.len keep - 1) := by
    intro h1; rw [hLk]; omega
  have hd : ¬ LC g S keep (fun b => b = edge) (fun _ _ => False) keep edge := by rw [hLk]; omega
  have hpv := h.pv.internalDelete he hd hl
  have hlen : (g.kill keep edge (g0.edge keep edge).weight).len = update g.len keep (g.len keep - 1) := f6
  have hn : (g.kill keep edge (g0.edge keep edge).weight).n = g.n := f1
  have hkn : ∀ t, t ∉ S → t ≠ keep := fun t ht hh => ht (by rw [hh]; exact h.kS)
  refine ⟨?_, h.kS, by rw [hn]; exact h.kn, ?_, ?_, ?_, ?_, ?_, ?_, ?_, ?_⟩
  · exact (internalDelete_frame' g keep edge).trans h.fr
  · have hiff : ∀ a b, LC (g.kill keep edge (g0.edge keep edge).weight) S keep (fun _ => False) (fun _ _ => False) a b ↔
        Lren (LC g S keep (fun b => b = edge) (fun _ _ => False)) keep edge (g.len keep - 1) a b := by
      intro a b
      unfold Lren
      by_cases hak : a = keep
      · subst hak
        rw [if_pos rfl]
        constructor
        · rintro (h1 | h1 | h1)
          · exact absurd h.kS h1.1
          · have hb := h1.2.1
            rw [hlen, update_self] at hb
            refine ⟨hb, ?_⟩
            split
            · rw [hLk]; omega
            · rw [hLk]; omega
          · exact h1.elim
        · rintro ⟨h1, h2⟩
          right; left
          rw [hlen, update_self]
          exact ⟨rfl, h1, not_false⟩
      · rw [if_neg hak]
        unfold LC
        rw [hlen, update_of_ne hak, hn]
        constructor
        · rintro (h1 | h1 | h1)
          · exact Or.inl h1
          · exact absurd h1.1 hak
          · exact h1.elim
        · rintro (h1 | h1 | h1)
          · exact Or.inl h1
          · exact absurd h1.1 hak
          · exact h1.elim
    intro a b hab
    have := hpv a b ((hiff a b).1 hab)
    rw [← hiff] at this
    exact this
  · intro t ht htn f hf
    rw [hn] at htn
    rw [← h.rows t ht htn f hf]
    exact (rowSum_internalDelete h.pv he hl f).2 t (hkn t ht)
  · intro t ht htn
    rw [hn] at htn
    rw [← h.rowS t ht htn]
    exact (rowSum_internalDelete h.pv he hl (fun a w => if a ∈ S then w else 0)).2 t (hkn t ht)
  · intro t ht
    show update (g.internalDelete keep edge).wdeg keep _ t = _
    rw [update_of_ne (hkn t ht), f2]; exact h.wdegT t ht
  · show update (g.internalDelete keep edge).wdeg keep _ keep = _
    rw [update_self, f2, h.wdegK]
    have := (rowSum_internalDelete h.pv he hl (fun _ w => w)).1
    rw [h.deadE edge rfl] at this
    have e1 : rowSum (g.kill keep edge (g0.edge keep edge).weight) (fun _ w => w) keep =
      rowSum (g.internalDelete keep edge) (fun _ w => w) keep := rfl
    rw [e1]; omega
  · show (g.internalDelete keep edge).numEdges - 2 = _
    rw [f3, h.num, hn, hlen, update_self]
    have : ∑ u ∈ (range g.n).filter (fun u => u ∉ S), update g.len keep (g.len keep - 1) u =
        ∑ u ∈ (range g.n).filter (fun u => u ∉ S), g.len u := by
      refine Finset.sum_congr rfl fun u hu => update_of_ne (hkn u (mem_filter.1 hu).2) _ _
    rw [this]; omega
  · intro hs b b' hb hb' heq
    rw [hlen, update_self] at hb hb'
    have e1 : ∀ b, ((g.kill keep edge (g0.edge keep edge).weight).edge keep b).target =
        ((g.internalDelete keep edge).edge keep b).target := fun b => rfl
    rw [e1, e1, (internalDelete_edge_target h.pv he hl keep b).1, (internalDelete_edge_target h.pv he hl keep b').1] at heq
    have key : ∀ b, b < g.len keep - 1 → ∃ c, c < g.len keep ∧ c ≠ edge ∧
        (if keep = keep ∧ b = edge ∧ g.len keep > edge + 1 then g.edge keep (g.len keep - 1) else g.edge keep b) =
          g.edge keep c ∧ c = if b = edge then g.len keep - 1 else b := by
      intro b hb
      by_cases hbe : b = edge
      · exact ⟨g.len keep - 1, by omega, by omega, by rw [if_pos ⟨rfl, hbe, by omega⟩], by rw [if_pos hbe]⟩
      · exact ⟨b, by omega, hbe, by rw [if_neg (fun hh => hbe hh.2.1)], by rw [if_neg hbe]⟩
    obtain ⟨c, c1, c2, c3, c4⟩ := key b hb
    obtain ⟨c', c1', c2', c3', c4'⟩ := key b' hb'
    rw [c3, c3'] at heq
    have hcc := h.uniq hs c c' c1 c2 c1' c2' heq
    rw [c4, c4'] at hcc
    split at hcc <;> split at hcc <;> omega
  · intro hw
    have h1 := (rowSum_internalDelete h.pv he hl (fun _ w => if w = 0 then 1 else 0)).1
    have h2 := posRow_iff.1 (h.posP hw).2
    have e1 : rowSum (g.kill keep edge (g0.edge keep edge).weight) (fun _ w => if w = 0 then 1 else 0) keep =
      rowSum (g.internalDelete keep edge) (fun _ w => if w = 0 then 1 else 0) keep := rfl
    refine posRow_iff.2 ?_
    rw [e1]; omega

theorem mergeEdgeSparse_spec {g0 g : MGraph} {S : List Nat} {keep n e R : Nat} {dead : Nat → Prop}
    {pend : Nat → Nat → Prop} {sim : Prop} (h : CI g0 g S keep dead pend (R + 1) sim) (hp : pend n e)
    (hdead : ∀ b, dead b → b < g0.len keep ∧ (g0.edge keep b).target ∈ S) :
    CI g0 (mergeEdgeSparse keep n g e) S keep dead (fun a b => pend a b ∧ ¬ (a = n ∧ b = e)) R sim := by
  unfold mergeEdgeSparse
  simp only
  rcases hf : (List.range (g.len keep)).find? (fun s => (g.edge keep s).target == (g.edge n e).target) with _ | s
  · simp only
    refine h.redir hp ?_
    intro _ b hb _ heq
    have := List.find?_eq_none.1 hf b (List.mem_range.2 hb)
    simp [heq] at this
  · simp only
    have h1 := List.find?_some hf
    have h2 := List.mem_range.1 (List.mem_of_find?_eq_some hf)
    rw [beq_iff_eq] at h1
    refine h.merge hp h2 ?_ h1
    intro hd
    obtain ⟨d1, d2⟩ := hdead s hd
    rw [h.keepO.2 s d1] at h1
    exact (h.pendT n e hp).1 (by rw [← h1]; exact d2)

/-- The loop over the edges of `n` in the sparse variants; slots with `sk` are skipped. -/
theorem sparse_loop {g0 : MGraph} {S : List Nat} {keep n K : Nat} {dead : Nat → Prop} {sim : Prop}
    (sk : Nat → Prop) [DecidablePred sk] (hdead : ∀ b, dead b → b < g0.len keep ∧ (g0.edge keep b).target ∈ S) :
    ∀ (l : List Nat), l.Nodup → ∀ g, CI g0 g S keep dead (fun a b => a = n ∧ b ∈ l ∧ ¬ sk b)
      (K + (l.filter (fun b => ¬ sk b)).length) sim →
    CI g0 (l.foldl (fun h ed => if sk ed then h else mergeEdgeSparse keep n h ed) g) S keep dead (fun _ _ => False) K sim := by
  intro l
  induction l with
  | nil =>
    intro _ g h
    exact (h.congr (fun a b => by simp))
  | cons ed l ih =>
    intro hnd g h
    rw [List.nodup_cons] at hnd
    rw [List.foldl_cons]
    by_cases hsk : sk ed
    · rw [if_pos hsk]
      refine ih hnd.2 g ?_
      rw [List.filter_cons_of_neg (by simp [hsk])] at h
      refine h.congr ?_
      intro a b
      constructor
      · rintro ⟨h1, h2, h3⟩; exact ⟨h1, by simp [h2], h3⟩
      · rintro ⟨h1, h2, h3⟩
        refine ⟨h1, ?_, h3⟩
        rcases List.mem_cons.1 h2 with h4 | h4
        · rw [h4] at h3; exact absurd hsk h3
        · exact h4
    · rw [if_neg hsk]
      rw [List.filter_cons_of_pos (by simp [hsk]), List.length_cons, ← Nat.add_assoc] at h
      refine ih hnd.2 _ ((mergeEdgeSparse_spec h ⟨rfl, by simp, hsk⟩ hdead).congr ?_)
      intro a b
      constructor
      · rintro ⟨h1, h2, h3⟩
        exact ⟨⟨h1, by simp [h2], h3⟩, fun hh => hnd.1 (by rw [← hh.2]; exact h2)⟩
      · rintro ⟨⟨h1, h2, h3⟩, h4⟩
        refine ⟨h1, ?_, h3⟩
        rcases List.mem_cons.1 h2 with h5 | h5
        · exact absurd ⟨h1, h5⟩ h4
        · exact h5

/-- The loop of `contractEdge`, which looks edges up in the initial adjacency of `node`. -/
theorem dense_loop {g0 : MGraph} {S : List Nat} {node target edge rv K : Nat}
    (hT : ∀ b b', b < g0.len target → b' < g0.len target → (g0.edge target b).target = (g0.edge target b').target → b = b')
    (htS : target ∈ S) (htn : target ≠ node) :
    ∀ (l : List Nat), l.Nodup → (∀ b ∈ l, b < g0.len target) → ∀ h,
    CI g0 h S node (fun b => b = edge) (fun a b => a = target ∧ b ∈ l ∧ ¬ b = rv)
      (K + (l.filter (fun b => ¬ b = rv)).length) True →
    (∀ s, s < g0.len node → s ≠ edge → (∃ ed ∈ l, ed ≠ rv ∧ (g0.edge target ed).target = (g0.edge node s).target) →
      (h.edge node s).rev = (g0.edge node s).rev) →
    (∀ b, g0.len node ≤ b → b < h.len node → ∀ ed ∈ l, ed ≠ rv → (h.edge node b).target ≠ (g0.edge target ed).target) →
    CI g0 (l.foldl (fun (h : MGraph) (ed : Nat) =>
      if ed = rv then h
      else
        match (List.range (g0.len node)).find? (fun s => s != edge && (g0.edge node s).target == (h.edge target ed).target) with
        | some s => h.mergePair node s (h.edge target ed).target (g0.edge node s).rev (h.edge target ed)
        | none => h.redirect node (h.edge target ed)) h) S node (fun b => b = edge) (fun _ _ => False) K True := by
  intro l
  induction l with
  | nil =>
    intro _ _ h hc _ _
    exact (hc.congr (fun a b => by simp))
  | cons ed l ih =>
    intro hnd hlt h hc k2 k3
    rw [List.nodup_cons] at hnd
    rw [List.foldl_cons]
    by_cases hsk : ed = rv
    · rw [if_pos hsk]
      refine ih hnd.2 (fun b hb => hlt b (by simp [hb])) h ?_ ?_ ?_
      · rw [List.filter_cons_of_neg (by simp [hsk])] at hc
        refine hc.congr ?_
        intro a b
        constructor
        · rintro ⟨h1, h2, h3⟩; exact ⟨h1, by simp [h2], h3⟩
        · rintro ⟨h1, h2, h3⟩
          refine ⟨h1, ?_, h3⟩
          rcases List.mem_cons.1 h2 with h4 | h4
          · rw [h4] at h3; exact absurd hsk h3
          · exact h4
      · rintro s h1 h2 ⟨ed', h3, h4⟩
        exact k2 s h1 h2 ⟨ed', by simp [h3], h4⟩
      · intro b h1 h2 ed' h3 h4
        exact k3 b h1 h2 ed' (by simp [h3]) h4
    · rw [if_neg hsk]
      rw [List.filter_cons_of_pos (by simp [hsk]), List.length_cons, ← Nat.add_assoc] at hc
      have hp : (fun a b => a = target ∧ b ∈ ed :: l ∧ ¬ b = rv) target ed := ⟨rfl, by simp, hsk⟩
      obtain ⟨F, htgn⟩ := hc.fold hp
      have hdT : (h.edge target ed).target = (g0.edge target ed).target := hc.memT target ed htS htn
      have hpend : ∀ a b, (a = target ∧ b ∈ l ∧ ¬ b = rv) ↔ ((a = target ∧ b ∈ ed :: l ∧ ¬ b = rv) ∧ ¬ (a = target ∧ b = ed)) := by
        intro a b
        constructor
        · rintro ⟨h1, h2, h3⟩
          exact ⟨⟨h1, by simp [h2], h3⟩, fun hh => hnd.1 (by rw [← hh.2]; exact h2)⟩
        · rintro ⟨⟨h1, h2, h3⟩, h4⟩
          refine ⟨h1, ?_, h3⟩
          rcases List.mem_cons.1 h2 with h5 | h5
          · exact absurd ⟨h1, h5⟩ h4
          · exact h5
      have hdiff : ∀ ed' ∈ l, (g0.edge target ed').target ≠ (g0.edge target ed).target := by
        intro ed' h1 h2
        have := hT ed' ed (hlt ed' (by simp [h1])) (hlt ed (by simp)) h2
        exact hnd.1 (by rw [← this]; exact h1)
      have hkt0 : node ≠ (h.edge target ed).target := fun hh => F.tk hh.symm
      rcases hf : (List.range (g0.len node)).find?
          (fun s => s != edge && (g0.edge node s).target == (h.edge target ed).target) with _ | s
      · simp only
        have hno : ∀ b, b < h.len node → ¬ b = edge → (h.edge node b).target ≠ (h.edge target ed).target := by
          intro b hb hbe heq
          by_cases hbo : b < g0.len node
          · have := List.find?_eq_none.1 hf b (List.mem_range.2 hbo)
            rw [hc.keepO.2 b hbo] at heq
            simp [hbe, heq] at this
          · exact k3 b (by omega) hb ed (by simp) hsk (by rw [heq, hdT])
        have hc' := (hc.redir hp (fun _ => hno)).congr hpend
        obtain ⟨p1, p2, p3, p4, p5, _, _, p8, p9, p10, p11⟩ := redirect_spec F
        have hlk : (h.redirect node (h.edge target ed)).len node = h.len node + 1 := by rw [p2, update_self]
        refine ih hnd.2 (fun b hb => hlt b (by simp [hb])) _ hc' ?_ ?_
        · rintro s h1 h2 ⟨ed', h3, h4⟩
          have := hc.keepO.1
          rw [p10 node s hkt0 (fun hh => by omega)]
          exact k2 s h1 h2 ⟨ed', by simp [h3], h4⟩
        · intro b h1 h2 ed' h3 h4
          by_cases hb : b = h.len node
          · rw [hb, p8, hdT]; exact (hdiff ed' h3).symm
          · rw [p10 node b hkt0 (fun hh => hb hh.2)]
            exact k3 b h1 (by omega) ed' (by simp [h3]) h4
      · simp only
        have h1 := List.find?_some hf
        have h2 := List.mem_range.1 (List.mem_of_find?_eq_some hf)
        rw [Bool.and_eq_true, beq_iff_eq, bne_iff_ne] at h1
        obtain ⟨hse, hst⟩ := h1
        have hrev : (g0.edge node s).rev = (h.edge node s).rev :=
          (k2 s h2 hse ⟨ed, by simp, hsk, by rw [hst, hdT]⟩).symm
        have hsl : s < h.len node := by have := hc.keepO.1; omega
        have hst' : (h.edge node s).target = (h.edge target ed).target := by rw [hc.keepO.2 s h2]; exact hst
        rw [hrev]
        have hc' := (hc.merge hp hsl hse hst').congr hpend
        obtain ⟨p1, p2, p3, p4, p5, _, _, p8, p9, p10, p11⟩ :=
          mergePair_spec F (Or.inr (Or.inl ⟨rfl, hsl, hse⟩)) hst'
        have hlk : (h.mergePair node s (h.edge target ed).target (h.edge node s).rev (h.edge target ed)).len node =
          h.len node := by rw [p2, update_of_ne hkt0]
        refine ih hnd.2 (fun b hb => hlt b (by simp [hb])) _ hc' ?_ ?_
        · rintro s' h1 h2' ⟨ed', h3, h4, h5⟩
          have hsl' : s' < h.len node := by have := hc.keepO.1; omega
          rw [p10 node s' hkt0 (Or.inr (Or.inl ⟨rfl, hsl', h2'⟩)) (fun hh => htn hh.1.symm), if_neg]
          · exact k2 s' h1 h2' ⟨ed', by simp [h3], h4, h5⟩
          · rintro ⟨q1, _⟩
            rw [hc.keepO.2 s' h1, ← h5, hdT] at q1
            exact hdiff ed' h3 q1
        · intro b h1 h2' ed' h3 h4
          rw [hlk] at h2'
          rw [p8 node b hkt0]
          exact k3 b h1 h2' ed' (by simp [h3]) h4

theorem internalDelete_congr {g g' : MGraph} (hl : g'.len = g.len) (he : g'.edge = g.edge) (u e : Nat) :
    (g'.internalDelete u e).edge = (g.internalDelete u e).edge ∧
    (g'.internalDelete u e).len = (g.internalDelete u e).len := by
  cases g; cases g'
  simp only at hl he
  subst hl he
  unfold internalDelete
  simp only
  split <;> exact ⟨rfl, rfl⟩

/-- Freeing a slot first and deleting an edge afterwards is the same as the other order. -/
theorem free_then_kill {g g2 : MGraph} {slot node edge : Nat}
    (h : PV g (fun a b => a < g.n ∧ a ≠ slot ∧ b < g.len a ∧ ¬ (a = node ∧ b = edge)))
    (hns : node < slot) (hs : slot < g.n) (he : edge < g.len node)
    (hlen : ∀ a, a < g.n - 1 → g2.len a = g.len (if a = slot then g.n - 1 else a))
    (hedge : ∀ a, a < g.n - 1 → ∀ b, b < g.len (if a = slot then g.n - 1 else a) → ¬ (a = node ∧ b = edge) →
      g2.edge a b = { g.edge (if a = slot then g.n - 1 else a) b with
        target := relab slot (g.n - 1) (g.edge (if a = slot then g.n - 1 else a) b).target }) :
    (∀ a, a < g.n - 1 → (g2.internalDelete node edge).len a =
      (g.internalDelete node edge).len (if a = slot then g.n - 1 else a)) ∧
    (∀ a, a < g.n - 1 → ∀ b, b < (g.internalDelete node edge).len (if a = slot then g.n - 1 else a) →
      (g2.internalDelete node edge).edge a b = { (g.internalDelete node edge).edge (if a = slot then g.n - 1 else a) b with
        target := relab slot (g.n - 1) ((g.internalDelete node edge).edge (if a = slot then g.n - 1 else a) b).target }) := by
  have hl1 := (internalDelete_frame g node edge).2.2.2.2.2
  have hl2 := (internalDelete_frame g2 node edge).2.2.2.2.2
  have hnode : (if node = slot then g.n - 1 else node) = node := if_neg (by omega)
  have hold : ∀ a, a < g.n - 1 → ((if a = slot then g.n - 1 else a) = node ↔ a = node) := by
    intro a ha
    split <;> omega
  have hoS : ∀ a, a < g.n - 1 → (if a = slot then g.n - 1 else a) < g.n ∧ (if a = slot then g.n - 1 else a) ≠ slot := by
    intro a ha
    split <;> omega
  have hln : g2.len node = g.len node := by rw [hlen node (by omega), hnode]
  constructor
  · intro a ha
    rw [hl1, hl2]
    by_cases han : a = node
    · subst han; rw [hnode, update_self, update_self, hln]
    · rw [update_of_ne han, update_of_ne (fun hh => han ((hold a ha).1 hh)), hlen a ha]
  · intro a ha b hb
    rw [hl1] at hb
    have hlive : ∀ a, a < g.n - 1 → b < g.len (if a = slot then g.n - 1 else a) → ¬ (a = node ∧ b = edge) →
        g2.edge a b = { g.edge (if a = slot then g.n - 1 else a) b with
          target := relab slot (g.n - 1) (g.edge (if a = slot then g.n - 1 else a) b).target } := fun a h1 h2 h3 =>
      hedge a h1 b h2 h3
    have hbl : b < g.len (if a = slot then g.n - 1 else a) := by
      by_cases h1 : (if a = slot then g.n - 1 else a) = node
      · rw [h1, update_self] at hb; rw [h1]; omega
      · rw [update_of_ne h1] at hb; exact hb
    unfold internalDelete
    rw [hln]
    by_cases hc : g.len node > edge + 1
    · rw [if_pos hc, if_pos hc]
      have hr2 : g2.edge node (g.len node - 1) = { g.edge node (g.len node - 1) with
          target := relab slot (g.n - 1) (g.edge node (g.len node - 1)).target } := by
        have := hedge node (by omega) (g.len node - 1) (by rw [hnode]; omega) (by omega)
        rw [hnode] at this
        exact this
      obtain ⟨j1, ⟨j2, j2', j2''⟩, _⟩ := h node (g.len node - 1) ⟨by omega, by omega, by omega, by omega⟩
      obtain ⟨q1, q2, q3⟩ := relab_spec (D := []) hs (by simp) j2 (by simpa using j2')
      simp only [setEdge_edge, setEdge_len, hln, and_self, if_true]
      rw [hr2]
      simp only
      have hcond : (a = relab slot (g.n - 1) (g.edge node (g.len node - 1)).target) ↔
          ((if a = slot then g.n - 1 else a) = (g.edge node (g.len node - 1)).target) := by
        constructor
        · intro hh; rw [← hh] at q3; exact q3
        · intro hh
          rw [← hh]
          unfold relab
          by_cases h1 : a = slot
          · rw [if_pos h1, if_pos rfl, h1]
          · rw [if_neg h1, if_neg (by omega)]
      have htr : relab slot (g.n - 1) (g.edge node (g.len node - 1)).target = node ↔
          (g.edge node (g.len node - 1)).target = node := by
        constructor
        · intro hh
          rw [hh, hnode] at q3; exact q3.symm
        · intro hh; rw [hh]; unfold relab; rw [if_neg (by omega)]
      have hj6 : (g.edge node (g.len node - 1)).target ≠ node :=
        (h node (g.len node - 1) ⟨by omega, by omega, by omega, by omega⟩).2.2.2.2.2
      by_cases hA : (if a = slot then g.n - 1 else a) = (g.edge node (g.len node - 1)).target ∧
          b = (g.edge node (g.len node - 1)).rev
      · rw [if_pos ⟨hcond.2 hA.1, hA.2⟩, if_pos hA]
        rw [if_neg (fun hh => hj6 (htr.1 hh.1)), if_neg (fun hh => hj6 hh.1)]
        have e1 := hlive a ha hbl (by
          rintro ⟨h1, h2⟩
          rw [h1, hnode] at hA
          exact hj6 hA.1.symm)
        rw [← hcond.2 hA.1, ← hA.2, e1, hA.1]
      · rw [if_neg (fun hh => hA ⟨hcond.1 hh.1, hh.2⟩), if_neg hA]
        by_cases hB : a = node ∧ b = edge
        · rw [if_pos hB, if_pos ⟨(hold a ha).2 hB.1, hB.2⟩]
        · rw [if_neg hB, if_neg (fun hh => hB ⟨(hold a ha).1 hh.1, hh.2⟩)]
          exact hlive a ha hbl hB
    · rw [if_neg hc, if_neg hc]
      refine hlive a ha hbl ?_
      rintro ⟨h1, h2⟩
      rw [h1, hnode, update_self] at hb
      omega

theorem CI.congrSim {g0 g S keep dead pend R sim sim'} (h : CI g0 g S keep dead pend R sim) (hs : sim' → sim) :
    CI g0 g S keep dead pend R sim' :=
  ⟨h.fr, h.kS, h.kn, h.pv, h.pendS, h.pendT, h.keepT, h.memlen, h.rows, h.rowS, h.wdegT, h.wdegK, h.num,
    fun s => h.uniq (hs s), h.deadlt, h.deadE, h.memT, h.keepO, h.posP⟩

theorem filter_ne_length {m r : Nat} (h : r < m) : ((List.range m).filter (fun b => ¬ b = r)).length + 1 = m := by
  have h1 : (List.range m).filter (fun b => decide (¬ b = r)) = (List.range m).erase r := by
    rw [List.Nodup.erase_eq_filter List.nodup_range]
    refine List.filter_congr fun b _ => ?_
    by_cases hb : b = r <;> simp [hb]
  rw [h1, List.length_erase_of_mem (List.mem_range.2 h), List.length_range]
  omega

/-- Common start of the edge contractions. -/
theorem edge_init {g : MGraph} (hg : Valid g) {node edge : Nat} (hn : node < g.n) (he : edge < g.len node)
    (hc : g.cnt node (g.edge node edge).target ≤ 1) :
    (g.edge node edge).target < g.n ∧ (g.edge node edge).target ≠ node ∧
    CI g g [node, (g.edge node edge).target] node (fun b => b = edge)
      (fun a b => a = (g.edge node edge).target ∧ b ∈ List.range (g.len (g.edge node edge).target) ∧
        ¬ b = (g.edge node edge).rev)
      (1 + ((List.range (g.len (g.edge node edge).target)).filter (fun b => ¬ b = (g.edge node edge).rev)).length)
      (Simple g []) := by
  obtain ⟨k1, ⟨k2, _, k2'⟩, k3, k4, k5, k6⟩ := hg.pv node edge ⟨hn, by simp, he⟩
  refine ⟨k2, k6, ?_⟩
  have hR : 1 + ((List.range (g.len (g.edge node edge).target)).filter (fun b => ¬ b = (g.edge node edge).rev)).length =
      g.len (g.edge node edge).target := by
    have := filter_ne_length k2'; omega
  rw [hR]
  refine ((CI.init hg hn k2 (Ne.symm k6)).congrDead ?_).congr ?_
  · intro b
    constructor
    · rintro rfl; exact ⟨he, rfl⟩
    · rintro ⟨h1, h2⟩; exact cnt_le_one hc h1 he h2 rfl
  · intro a b
    have hc' : g.cnt (g.edge node edge).target node ≤ 1 := by
      rw [hg.cnt_symm k2 (by simp) hn (by simp)]; exact hc
    constructor
    · rintro ⟨h1, h2, h3⟩
      refine ⟨h1, List.mem_range.1 h2, ?_⟩
      intro hh
      exact h3 (cnt_le_one hc' (List.mem_range.1 h2) k2' hh k3)
    · rintro ⟨h1, h2, h3⟩
      refine ⟨h1, List.mem_range.2 h2, ?_⟩
      rintro rfl
      exact h3 k3

/-- Position-related members. -/
def pframe (g : MGraph) := (g.n, g.pos, g.posSize, g.cont, g.origNodes)

theorem pframe_of_frame {g g' : MGraph} (h : g'.frame = g.frame) : g'.pframe = g.pframe := by
  unfold frame at h
  simp only [Prod.mk.injEq] at h
  unfold pframe
  simp only [Prod.mk.injEq]
  exact ⟨h.1, h.2.1, h.2.2.1, h.2.2.2.1, h.2.2.2.2.2.2.2.1⟩

theorem absorb_pframe {g g' : MGraph} (h : g'.pframe = g.pframe) (a b : Nat) :
    (g'.absorb a b).pframe = (g.absorb a b).pframe := by
  unfold pframe at h
  simp only [Prod.mk.injEq] at h
  obtain ⟨h1, h2, h3, h4, h5⟩ := h
  simp only [pframe, absorb, h1, h2, h3, h4, h5]

theorem move_pframe (g : MGraph) (slot : Nat) : ((g.moveLast slot).popVertex.remap slot).pframe =
    (g.n - 1, g.pos, g.posSize, g.cont, g.origNodes) := by
  rw [pframe_of_frame (remap_frame _ _)]
  rfl

theorem freeSlot_pframe {g g' : MGraph} (h : g'.pframe = g.pframe) (slot : Nat) :
    (g'.freeSlot slot).pframe = (g.freeSlot slot).pframe := by
  unfold pframe at h
  simp only [Prod.mk.injEq] at h
  obtain ⟨h1, h2, h3, h4, h5⟩ := h
  unfold freeSlot
  rw [h1]
  split
  · rw [move_pframe, move_pframe]
    simp only [relocate, h1, h2, h3, h4, h5]
  · simp only [pframe, popVertex, h1, h2, h3, h4, h5]

theorem PosIn.of_pframe {E : Nat → Prop} {g g' : MGraph} (hp : PosIn E g) (h : g'.pframe = g.pframe) : PosIn E g' := by
  unfold pframe at h
  simp only [Prod.mk.injEq] at h
  obtain ⟨h1, h2, h3, h4, h5⟩ := h
  exact hp.of_eq h1 h2 h4

theorem lastNode_of_frame {g g' : MGraph} (h : g'.frame = g.frame) : g'.lastNode = g.lastNode := by
  unfold frame at h
  simp only [Prod.mk.injEq] at h
  exact h.2.2.2.2.2.1

theorem contSize_of_frame {g g' : MGraph} (h : g'.frame = g.frame) : g'.contSize = g.contSize := by
  unfold frame at h
  simp only [Prod.mk.injEq] at h
  exact h.2.2.2.2.1

/-- Last part of all edge contractions: `h'` is the graph after folding, `gf` the final one. -/
theorem edge_finish {g h' gf : MGraph} {node target : Nat} {sim : Prop} (hg : Valid g) (htn : target < g.n)
    (hne : target ≠ node) (ce : CE g h' [node, target] node sim) (hF : AV h' [target] → Freed h' gf target [])
    (hpf : gf.pframe = ((h'.absorb node target).freeSlot target).pframe) (hla : gf.lastNode = h'.lastNode - 1)
    (hcs : gf.contSize = h'.contSize - 1) :
    (∃ φ, Contracted g gf [node, target] φ) ∧ (sim → Simple g [] → Simple gf []) ∧ gf.n = g.n - 1 := by
  obtain ⟨f1, f2, f3, f4⟩ := ce.finish (D := [target]) hg rfl (fun _ _ _ _ => rfl) (fun _ _ _ => rfl)
    (fun u _ => by
      simp only [List.mem_cons, List.not_mem_nil, or_false]
      constructor
      · rintro rfl; exact ⟨Or.inr rfl, hne⟩
      · rintro ⟨h1 | h1, h2⟩
        · exact absurd h1 h2
        · exact h1)
  have hn : h'.n = g.n := frame_n ce.fr
  have hkn : node < g.n := by rw [← hn]; exact ce.kn
  have hrem := Rem.start f1 f2 ce.fr (by simp) hkn (fun u => by
      simp only [List.mem_cons, List.not_mem_nil, or_false]
      constructor
      · rintro rfl; exact ⟨htn, Or.inr rfl, hne⟩
      · rintro ⟨_, h1 | h1, h2⟩
        · exact absurd h1 h2
        · exact h1) f4
  have hFr := hF f1
  have hav : AV gf [] := hFr.av f1 (by rw [hn]; exact htn) (by simp)
  obtain ⟨m1, m2, _⟩ := freeSlot_misc (h'.absorb node target) target
  have hpf' := hpf
  unfold pframe at hpf'
  simp only [Prod.mk.injEq] at hpf'
  obtain ⟨g1, g2, g3, g4, g5⟩ := hpf'
  obtain ⟨k1, k2, k3⟩ := hrem.step' (by simp) hav hFr (fun E hp => by
      obtain ⟨q1, q2⟩ := remove_pos hp (by rw [hn]; exact hkn) (by rw [hn]; exact htn) (Ne.symm hne) rfl
      refine ⟨q1.of_pframe hpf, ?_⟩
      intro v hv hvn
      rw [g2]; exact q2 v hv hvn) (g5.trans m1) (g3.trans m2) hla hcs
  exact ⟨⟨_, k1.contracted⟩, fun hs hsi => k2 (f3 hs hsi), by rw [k3, hn]⟩

theorem contractEdgeOrdered_spec {g : MGraph} {node edge : Nat} (hg : Valid g) (hs : Simple g []) (hn : node < g.n)
    (he : edge < g.len node) (hlt : node < (g.edge node edge).target) :
    (∃ φ, Contracted g (g.contractEdgeOrdered node edge) [node, (g.edge node edge).target] φ) ∧
    Simple (g.contractEdgeOrdered node edge) [] ∧ (g.contractEdgeOrdered node edge).n = g.n - 1 := by
  obtain ⟨k1, ⟨k2, _, k2'⟩, k3, k4, k5, k6⟩ := hg.pv node edge ⟨hn, by simp, he⟩
  obtain ⟨t1, t2, c0⟩ := edge_init hg hn he (hs node _ hn (by simp) k2 (by simp))
  set target := (g.edge node edge).target with htg
  set rv := (g.edge node edge).rev with hrv
  have c1 := dense_loop (K := 1) (edge := edge) (rv := rv) (fun b b' hb hb' heq => by
      obtain ⟨_, ⟨q2, _⟩, _⟩ := hg.pv target b ⟨t1, by simp, hb⟩
      exact cnt_le_one (hs target _ t1 (by simp) q2 (by simp)) hb hb' rfl heq.symm)
    (by simp) t2 (List.range (g.len target)) List.nodup_range (fun b hb => List.mem_range.1 hb) g
    (c0.congrSim (fun _ => hs)) (fun _ _ _ _ => rfl) (fun b h1 h2 => by omega)
  set g1 := (List.range (g.len target)).foldl (fun (h : MGraph) (ed : Nat) =>
      if ed = rv then h
      else
        match (List.range (g.len node)).find? (fun s => s != edge && (g.edge node s).target == (h.edge target ed).target) with
        | some s => h.mergePair node s (h.edge target ed).target (g.edge node s).rev (h.edge target ed)
        | none => h.redirect node (h.edge target ed)) g with hg1
  have hdef : g.contractEdgeOrdered node edge =
      { ((g1.absorb node target).freeSlot target).internalDelete node edge with
        numEdges := (((g1.absorb node target).freeSlot target).internalDelete node edge).numEdges - 2
        wdeg := update (((g1.absorb node target).freeSlot target).internalDelete node edge).wdeg node
          ((((g1.absorb node target).freeSlot target).internalDelete node edge).wdeg node - (g.edge node edge).weight)
        lastNode := (((g1.absorb node target).freeSlot target).internalDelete node edge).lastNode - 1 } := rfl
  have hn1 : g1.n = g.n := frame_n c1.fr
  have he1 : edge < g1.len node := c1.deadlt edge rfl
  have ce := c1.kill
  set g2 := (g1.absorb node target).freeSlot target with hg2
  have hpv : PV g1 (fun a b => a < g1.n ∧ a ≠ target ∧ b < g1.len a ∧ ¬ (a = node ∧ b = edge)) := by
    have hiff : ∀ a b, LC g1 [node, target] node (fun b => b = edge) (fun _ _ => False) a b ↔
        (a < g1.n ∧ a ≠ target ∧ b < g1.len a ∧ ¬ (a = node ∧ b = edge)) := by
      intro a b
      unfold LC
      simp only [List.mem_cons, List.not_mem_nil, or_false, not_or]
      constructor
      · rintro (⟨h1, h2, h3⟩ | ⟨h1, h2, h3⟩)
        · exact ⟨h2, h1.2, h3, fun hh => h1.1 hh.1⟩
        · subst h1; exact ⟨c1.kn, Ne.symm t2, h2, fun hh => h3 hh.2⟩
      · rintro ⟨h1, h2, h3, h4⟩
        by_cases han : a = node
        · subst han; exact Or.inr ⟨rfl, h3, fun hh => h4 ⟨rfl, hh⟩⟩
        · exact Or.inl ⟨⟨han, h2⟩, h1, h3⟩
    intro a b hab
    have := c1.pv a b ((hiff a b).2 hab)
    rw [hiff] at this
    exact this
  -- effect of freeing the slot
  have hfree : g2.n = g1.n - 1 ∧ g2.numEdges = g1.numEdges ∧
      (∀ a, a < g1.n - 1 → g2.len a = g1.len (if a = target then g1.n - 1 else a)) ∧
      (∀ a, a < g1.n - 1 → g2.wdeg a = g1.wdeg (if a = target then g1.n - 1 else a)) ∧
      (∀ a, a < g1.n - 1 → ∀ b, b < g1.len (if a = target then g1.n - 1 else a) → ¬ (a = node ∧ b = edge) →
        g2.edge a b = { g1.edge (if a = target then g1.n - 1 else a) b with
          target := relab target (g1.n - 1) (g1.edge (if a = target then g1.n - 1 else a) b).target }) := by
    rw [hg2]
    unfold freeSlot
    have e0 : (g1.absorb node target).n = g1.n := rfl
    rw [e0]
    by_cases hlast : target < g1.n - 1
    · rw [if_pos hlast]
      obtain ⟨m1, m2, m3, m4, m5⟩ := moved_edges (g := (g1.absorb node target).relocate target (g1.n - 1))
        (L := fun a b => a < g1.n ∧ a ≠ target ∧ b < g1.len a ∧ ¬ (a = node ∧ b = edge)) hpv hlast
        (fun c hc => ⟨by show g1.n - 1 < g1.n; omega, by show g1.n - 1 ≠ target; omega, hc, by
          show ¬ (g1.n - 1 = node ∧ _); omega⟩)
        (fun b hb => hb.2.1 rfl)
      refine ⟨m1, m2, m3, m4, ?_⟩
      intro a ha b hb hne
      refine m5 a ha b ⟨?_, ?_, hb, ?_⟩
      · show (if a = target then g1.n - 1 else a) < g1.n
        split <;> omega
      · show (if a = target then g1.n - 1 else a) ≠ target
        split <;> omega
      · show ¬ ((if a = target then g1.n - 1 else a) = node ∧ _)
        rintro ⟨h1, h2⟩
        refine hne ⟨?_, h2⟩
        split at h1
        · omega
        · exact h1
    · rw [if_neg hlast]
      have ht' : target = g1.n - 1 := by omega
      have hne : ∀ a, a < g1.n - 1 → (if a = target then g1.n - 1 else a) = a := by
        intro a ha; rw [if_neg (by omega)]
      refine ⟨rfl, rfl, ?_, ?_, ?_⟩
      · intro a ha; rw [hne a ha]; rfl
      · intro a ha; rw [hne a ha]; rfl
      · intro a ha b hb hab
        rw [hne a ha] at hb ⊢
        obtain ⟨_, ⟨_, q2, _⟩, _⟩ := hpv a b ⟨by omega, by omega, hb, hab⟩
        unfold relab
        rw [if_neg (by omega)]
        rfl
  obtain ⟨r1, r2, r3, r4, r5⟩ := hfree
  obtain ⟨u1, u2⟩ := free_then_kill hpv hlt (by omega) he1 r3 r5
  have hold : ∀ a, a < g1.n - 1 → ((if a = target then g1.n - 1 else a) = node ↔ a = node) := by
    intro a ha
    split <;> omega
  have hkn : (g1.kill node edge (g.edge node edge).weight).n = g1.n := (internalDelete_frame g1 node edge).1
  obtain ⟨x1, x2, x3⟩ := edge_finish (gf := g.contractEdgeOrdered node edge) hg t1 t2 ce (fun hav => by
    have i1 := internalDelete_frame g1 node edge
    have i2 := internalDelete_frame g2 node edge
    rw [hdef]
    refine ⟨?_, ?_, ?_, ?_, ?_⟩
    · show (g2.internalDelete node edge).n = _
      rw [i2.1, r1, hkn]
    · intro a ha _
      rw [hkn] at ha ⊢
      exact u1 a ha
    · intro a ha _
      rw [hkn] at ha ⊢
      show update (g2.internalDelete node edge).wdeg node _ a = update (g1.internalDelete node edge).wdeg node _ _
      rw [i2.2.1, i1.2.1]
      by_cases h1 : a = node
      · subst h1
        rw [(hold a ha).2 rfl, update_self, update_self, r4 a ha, (hold a ha).2 rfl]
      · rw [update_of_ne h1, update_of_ne (fun hh => h1 ((hold a ha).1 hh)), r4 a ha]
    · intro a ha _ b hb
      rw [hkn] at ha hb ⊢
      exact u2 a ha b hb
    · show (g2.internalDelete node edge).numEdges - 2 = (g1.internalDelete node edge).numEdges - 2
      rw [i2.2.2.1, i1.2.2.1, r2]) (by
    have e1 : (g.contractEdgeOrdered node edge).pframe = (g2.internalDelete node edge).pframe := rfl
    rw [e1, pframe_of_frame (internalDelete_frame' g2 node edge), hg2]
    refine freeSlot_pframe (absorb_pframe ?_ _ _) _
    have e2 : (g1.kill node edge (g.edge node edge).weight).pframe = (g1.internalDelete node edge).pframe := rfl
    rw [e2, pframe_of_frame (internalDelete_frame' g1 node edge)])
    (by
      have m3 := (freeSlot_misc (g1.absorb node target) target).2.2.1
      show (g2.internalDelete node edge).lastNode - 1 = (g1.internalDelete node edge).lastNode - 1
      rw [lastNode_of_frame (internalDelete_frame' g2 node edge), lastNode_of_frame (internalDelete_frame' g1 node edge), hg2, m3]
      rfl)
    (by
      have m3 := (freeSlot_misc (g1.absorb node target) target).2.2.2.2
      show (g2.internalDelete node edge).contSize = (g1.internalDelete node edge).contSize - 1
      rw [contSize_of_frame (internalDelete_frame' g2 node edge), contSize_of_frame (internalDelete_frame' g1 node edge), hg2, m3]
      rfl)
  exact ⟨x1, x2 trivial hs, x3⟩

theorem Contracted.congr {g g' : MGraph} {S S' : List Nat} {φ} (h : Contracted g g' S φ) (hS : ∀ x, x ∈ S' ↔ x ∈ S) :
    Contracted g g' S' φ :=
  ⟨h.valid, h.con, fun u v hu hv => by rw [hS, hS]; exact h.ker u v hu hv, h.posE, h.posSize, h.orig, h.posw, h.last, h.csize⟩

theorem contractEdge_spec {g : MGraph} {node edge : Nat} (hg : Valid g) (hs : Simple g []) (hn : node < g.n)
    (he : edge < g.len node) :
    (∃ φ, Contracted g (g.contractEdge node edge) [node, (g.edge node edge).target] φ) ∧
    Simple (g.contractEdge node edge) [] ∧ (g.contractEdge node edge).n = g.n - 1 := by
  obtain ⟨k1, ⟨k2, _, k2'⟩, k3, k4, k5, k6⟩ := hg.pv node edge ⟨hn, by simp, he⟩
  unfold contractEdge
  simp only
  split
  · rename_i hlt
    obtain ⟨⟨φ, h1⟩, h2, h3⟩ := contractEdgeOrdered_spec hg hs k2 k2' (by rw [k3]; exact hlt)
    rw [k3] at h1
    refine ⟨⟨φ, h1.congr ?_⟩, h2, h3⟩
    intro x
    simp only [List.mem_cons, List.not_mem_nil, or_false]
    tauto
  · rename_i hlt
    exact contractEdgeOrdered_spec hg hs hn he (by omega)

theorem contractEdgeSparseTarget_spec {g : MGraph} {node edge : Nat} (hg : Valid g) (hs : Simple g [])
    (hn : node < g.n) (he : edge < g.len node) :
    (∃ φ, Contracted g (g.contractEdgeSparseTarget node edge) [node, (g.edge node edge).target] φ) ∧
    Simple (g.contractEdgeSparseTarget node edge) [] ∧ (g.contractEdgeSparseTarget node edge).n = g.n - 1 := by
  by_cases hc : node = (g.edge node edge).target + 1
  · have : g.contractEdgeSparseTarget node edge = g.contractEdge node edge := by
      unfold contractEdgeSparseTarget
      exact if_pos hc
    rw [this]
    exact contractEdge_spec hg hs hn he
  · obtain ⟨k1, ⟨k2, _, k2'⟩, k3, k4, k5, k6⟩ := hg.pv node edge ⟨hn, by simp, he⟩
    obtain ⟨t1, t2, c0⟩ := edge_init hg hn he (hs node _ hn (by simp) k2 (by simp))
    set target := (g.edge node edge).target with htg
    set rv := (g.edge node edge).rev with hrv
    have c1 := sparse_loop (K := 1) (n := target) (fun b => b = rv) (by
        rintro b rfl; exact ⟨he, by simp [htg]⟩) (List.range (g.len target)) List.nodup_range g c0
    set g1 := (List.range (g.len target)).foldl
      (fun h ed => if ed = rv then h else mergeEdgeSparse node target h ed) g with hg1
    have ce := c1.kill
    have hn1 : g1.n = g.n := frame_n c1.fr
    set g3 := (if target < g1.n - 1 then (g1.absorb node target).relocate target (g1.n - 1) else g1.absorb node target)
      with hg3
    have e3 : g3.len = g1.len ∧ g3.edge = g1.edge ∧ g3.wdeg = g1.wdeg ∧ g3.numEdges = g1.numEdges ∧ g3.n = g1.n := by
      rw [hg3]; split <;> exact ⟨rfl, rfl, rfl, rfl, rfl⟩
    set g5 : MGraph := { g3.internalDelete node edge with
        numEdges := (g3.internalDelete node edge).numEdges - 2
        wdeg := update (g3.internalDelete node edge).wdeg node
          ((g3.internalDelete node edge).wdeg node - (g.edge node edge).weight)
        lastNode := (g3.internalDelete node edge).lastNode - 1 } with hg5
    have hdef : g.contractEdgeSparseTarget node edge =
        if target < g5.n - 1 then (g5.moveLast target).popVertex.remap target else g5.popVertex := by
      unfold contractEdgeSparseTarget
      exact if_neg hc
    have i1 := internalDelete_frame g1 node edge
    have i3 := internalDelete_frame g3 node edge
    obtain ⟨d1, d2⟩ := internalDelete_congr e3.1 e3.2.1 node edge
    have hkn : (g1.kill node edge (g.edge node edge).weight).n = g1.n := i1.1
    have q1 : g5.n = (g1.kill node edge (g.edge node edge).weight).n := by
      show (g3.internalDelete node edge).n = _
      rw [i3.1, e3.2.2.2.2, hkn]
    have q2 : g5.len = (g1.kill node edge (g.edge node edge).weight).len := d2
    have q3 : g5.edge = (g1.kill node edge (g.edge node edge).weight).edge := d1
    have q4 : g5.wdeg = (g1.kill node edge (g.edge node edge).weight).wdeg := by
      show update (g3.internalDelete node edge).wdeg node _ = update (g1.internalDelete node edge).wdeg node _
      rw [i3.2.1, i1.2.1, e3.2.2.1]
    have q5 : g5.numEdges = (g1.kill node edge (g.edge node edge).weight).numEdges := by
      show (g3.internalDelete node edge).numEdges - 2 = (g1.internalDelete node edge).numEdges - 2
      rw [i3.2.2.1, i1.2.2.1, e3.2.2.2.1]
    obtain ⟨x1, x2, x3⟩ := edge_finish (gf := g.contractEdgeSparseTarget node edge) hg t1 t2 ce (fun hav => by
        have hav5 : AV g5 [target] := hav.of_eq q1 q2 q3 q4 q5
        have hF : Freed g5 (g.contractEdgeSparseTarget node edge) target [] := by
          rw [hdef]
          split
          · rename_i h1; exact freed_move hav5 h1 (by simp)
          · rename_i h1; exact freed_pop hav5 (by omega) (by omega)
        refine ⟨?_, ?_, ?_, ?_, ?_⟩
        · rw [← q1]; exact hF.n
        · rw [← q1, ← q2]; exact hF.len
        · rw [← q1, ← q4]; exact hF.wdeg
        · rw [← q1, ← q2, ← q3]; exact hF.edge
        · rw [← q5]; exact hF.num) (by
      have e4 : (g1.kill node edge (g.edge node edge).weight).pframe = g1.pframe :=
        (pframe_of_frame (g' := g1.internalDelete node edge) (internalDelete_frame' g1 node edge))
      have e5 : ((g1.kill node edge (g.edge node edge).weight).absorb node target).pframe =
          (g1.absorb node target).pframe := absorb_pframe e4 _ _
      rw [freeSlot_pframe e5, hdef]
      have e6 : g5.pframe = g3.pframe := pframe_of_frame (g' := g3.internalDelete node edge) (internalDelete_frame' g3 node edge)
      have e7 : g5.n = g1.n := by rw [q1, hkn]
      unfold freeSlot
      have e8 : (g1.absorb node target).n = g1.n := rfl
      rw [e7, e8]
      unfold pframe at e6
      simp only [Prod.mk.injEq] at e6
      obtain ⟨y1, y2, y3, y4, y5⟩ := e6
      by_cases h1 : target < g1.n - 1
      · rw [if_pos h1, if_pos h1, move_pframe, move_pframe, y2, y3, y4, y5, y1, hg3, if_pos h1]
      · rw [if_neg h1, if_neg h1]
        unfold pframe
        simp only [popVertex, y2, y3, y4, y5, y1]
        rw [hg3, if_neg h1])
      (by
        have m1 : g5.lastNode = g3.lastNode - 1 := by
          show (g3.internalDelete node edge).lastNode - 1 = _
          rw [lastNode_of_frame (internalDelete_frame' g3 node edge)]
        have m2 : g3.lastNode = g1.lastNode := by rw [hg3]; split <;> rfl
        have m4 : (g1.kill node edge (g.edge node edge).weight).lastNode = g1.lastNode :=
          lastNode_of_frame (internalDelete_frame' g1 node edge)
        rw [hdef, m4, ← m2, ← m1]
        split
        · rw [lastNode_of_frame (remap_frame _ _)]; rfl
        · rfl)
      (by
        have m1 : g5.contSize = g3.contSize :=
          contSize_of_frame (g' := g3.internalDelete node edge) (internalDelete_frame' g3 node edge)
        have m2 : g3.contSize = g1.contSize := by rw [hg3]; split <;> rfl
        have m4 : (g1.kill node edge (g.edge node edge).weight).contSize = g1.contSize :=
          contSize_of_frame (g' := g1.internalDelete node edge) (internalDelete_frame' g1 node edge)
        rw [hdef, m4, ← m2, ← m1]
        split
        · rw [contSize_of_frame (remap_frame _ _)]; rfl
        · rfl)
    exact ⟨x1, x2 hs hs, x3⟩

theorem contractSparseTargetNoEdge_spec {g : MGraph} {node target : Nat} (hg : Valid g) (hn : node < g.n)
    (ht : target < g.n) (hne : node ≠ target) (hno : g.cnt node target = 0) :
    (∃ φ, Contracted g (g.contractSparseTargetNoEdge node target) [node, target] φ) ∧
    (Simple g [] → Simple (g.contractSparseTargetNoEdge node target) []) ∧
    (g.contractSparseTargetNoEdge node target).n = g.n - 1 := by
  by_cases hc : node = target + 1
  · have : g.contractSparseTargetNoEdge node target = g.contractVertexSet [node, target] := by
      unfold contractSparseTargetNoEdge
      exact if_pos hc
    rw [this]
    obtain ⟨h1, h2, h3⟩ := contractVertexSet_spec hg (S := [node, target]) (by simp [hne])
    refine ⟨h1, h2, ?_⟩
    rw [h3]
    simp [hn, ht]
  · have hno' : g.cnt target node = 0 := by rw [hg.cnt_symm ht (by simp) hn (by simp)]; exact hno
    have c0 : CI g g [node, target] node (fun _ => False)
        (fun a b => a = target ∧ b ∈ List.range (g.len target) ∧ ¬ False)
        (0 + ((List.range (g.len target)).filter (fun b => ¬ False)).length) (Simple g []) := by
      have hR : 0 + ((List.range (g.len target)).filter (fun b => ¬ False)).length = g.len target := by simp
      rw [hR]
      refine ((CI.init hg hn ht hne).congrDead ?_).congr ?_
      · intro b
        constructor
        · exact fun h => h.elim
        · rintro ⟨h1, h2⟩; exact cnt_zero hno h1 h2
      · intro a b
        constructor
        · rintro ⟨h1, h2, _⟩
          exact ⟨h1, List.mem_range.1 h2, cnt_zero hno' (List.mem_range.1 h2)⟩
        · rintro ⟨h1, h2, _⟩
          exact ⟨h1, List.mem_range.2 h2, not_false⟩
    have c1 := sparse_loop (K := 0) (n := target) (fun _ => False) (fun b hb => hb.elim)
      (List.range (g.len target)) List.nodup_range g c0
    simp only [if_false] at c1
    set g1 := (List.range (g.len target)).foldl (mergeEdgeSparse node target) g with hg1
    have hdef : g.contractSparseTargetNoEdge node target =
        { (g1.absorb node target).freeSlot target with
          lastNode := ((g1.absorb node target).freeSlot target).lastNode - 1 } := by
      unfold contractSparseTargetNoEdge
      exact if_neg hc
    have hn1 : g1.n = g.n := frame_n c1.fr
    refine edge_finish (gf := g.contractSparseTargetNoEdge node target) hg ht (Ne.symm hne) c1.ce (fun hav => ?_) ?_ ?_ ?_ |>.imp id
      (fun h => ⟨fun hs => h.1 hs hs, h.2⟩)
    · have hF := (remove_one (keep := node) hav (by rw [hn1]; exact ht) (by simp) rfl).2
      rw [hdef]
      exact ⟨hF.n, hF.len, hF.wdeg, hF.edge, hF.num⟩
    · rw [hdef]; rfl
    · have m3 := (freeSlot_misc (g1.absorb node target) target).2.2.1
      rw [hdef]
      show ((g1.absorb node target).freeSlot target).lastNode - 1 = g1.lastNode - 1
      rw [m3]; rfl
    · rw [hdef]; exact (freeSlot_misc (g1.absorb node target) target).2.2.2.2

end VieCut.MGraph
