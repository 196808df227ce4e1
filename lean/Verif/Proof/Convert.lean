import Verif.Model.Convert
import Verif.Proof.GraphAccess
import Verif.Proof.MutableContract

namespace VieCut
namespace MGraph
open Function Finset

/-- Contribution of an inserted edge `(s, t, w)` to the row of `a`. -/
def contrib (f : Nat → Nat → Nat) (a : Nat) (x : Nat × Nat × Nat) : Nat :=
  if x.1 < x.2.1 then (if a = x.1 then f x.2.1 x.2.2 else 0) + if a = x.2.1 then f x.1 x.2.2 else 0 else 0

theorem foldNew_spec (E : List (Nat × Nat × Nat)) : ∀ {g : MGraph}, Valid g → (∀ x ∈ E, x.2.1 < g.n) →
    Valid (E.foldl (fun h x => h.newEdge x.1 x.2.1 x.2.2) g) ∧
    (E.foldl (fun h x => h.newEdge x.1 x.2.1 x.2.2) g).pframe = g.pframe ∧
    (∀ f a, rowSum (E.foldl (fun h x => h.newEdge x.1 x.2.1 x.2.2) g) f a = rowSum g f a + (E.map (contrib f a)).sum) ∧
    (E.foldl (fun h x => h.newEdge x.1 x.2.1 x.2.2) g).part = g.part ∧
    (E.foldl (fun h x => h.newEdge x.1 x.2.1 x.2.2) g).partCount = g.partCount ∧
    (E.foldl (fun h x => h.newEdge x.1 x.2.1 x.2.2) g).contSize = g.contSize ∧
    (E.foldl (fun h x => h.newEdge x.1 x.2.1 x.2.2) g).lastNode = g.lastNode := by
  induction E with
  | nil => intro g hg _; simp [hg]
  | cons x E ih =>
    intro g hg hx
    rw [List.foldl_cons]
    by_cases hlt : x.1 < x.2.1
    · obtain ⟨a1, a2, a3⟩ := newEdge_spec hg (w := x.2.2) hlt (hx x (by simp))
      have hn : (g.newEdge x.1 x.2.1 x.2.2).n = g.n := by
        unfold pframe at a2; simp only [Prod.mk.injEq] at a2; exact a2.1
      obtain ⟨b1, b2, b3, b4, b5, b6, b7⟩ := ih a1 (fun y hy => by rw [hn]; exact hx y (by simp [hy]))
      refine ⟨b1, b2.trans a2, ?_, ?_, ?_, ?_, ?_⟩
      · intro f a
        rw [b3, a3, List.map_cons, List.sum_cons]
        simp only [contrib, if_pos hlt]
        omega
      · rw [b4]; simp only [newEdge, if_pos hlt]; rfl
      · rw [b5]; simp only [newEdge, if_pos hlt]; rfl
      · rw [b6]; simp only [newEdge, if_pos hlt]; rfl
      · rw [b7]; simp only [newEdge, if_pos hlt]; rfl
    · have e : g.newEdge x.1 x.2.1 x.2.2 = g := by simp only [newEdge, if_neg hlt]
      rw [e]
      obtain ⟨b1, b2, b3, b4⟩ := ih hg (fun y hy => hx y (by simp [hy]))
      refine ⟨b1, b2, ?_, b4⟩
      intro f a
      rw [b3, List.map_cons, List.sum_cons]
      simp only [contrib, if_neg hlt]
      omega

/-! ### `from_graph_access` -/

theorem newNode_lt {g : MGraph} (h : g.lastNode ≠ g.n) : g.newNode = { g with lastNode := g.lastNode + 1 } := by
  unfold newNode; rw [if_neg h]

theorem fga_row (u : Nat) (row : List (Nat × Nat)) : ∀ (s : MGraph × (Nat → Option Nat)),
    (row.map (·.1)).Nodup → (∀ e ∈ row, s.2 e.1 ≠ some u) →
    (row.foldl (fgaEdge u) s).1 = (row.map (fun e => (u, e.1, e.2))).foldl (fun h x => h.newEdge x.1 x.2.1 x.2.2) s.1 ∧
    ∀ t v, (row.foldl (fgaEdge u) s).2 t = some v → v = u ∨ s.2 t = some v := by
  induction row with
  | nil => intro s _ _; exact ⟨rfl, fun t v h => Or.inr h⟩
  | cons e row ih =>
    intro s hnd hne
    rw [List.map_cons, List.nodup_cons] at hnd
    rw [List.foldl_cons, List.map_cons, List.foldl_cons]
    have e1 : fgaEdge u s e = (s.1.newEdge u e.1 e.2, update s.2 e.1 (some u)) := by
      unfold fgaEdge; rw [if_neg (hne e (by simp))]
    rw [e1]
    obtain ⟨a, b⟩ := ih (s.1.newEdge u e.1 e.2, update s.2 e.1 (some u)) hnd.2 (by
      intro e' he'
      have : e'.1 ≠ e.1 := fun h => hnd.1 (h ▸ List.mem_map_of_mem he')
      simp only [update_of_ne this]
      exact hne e' (by simp [he']))
    refine ⟨a, ?_⟩
    intro t v h
    rcases b t v h with h1 | h1
    · exact Or.inl h1
    · by_cases ht : t = e.1
      · subst ht; simp only [update_self, Option.some.injEq] at h1; exact Or.inl h1.symm
      · simp only [update_of_ne ht] at h1; exact Or.inr h1

/-- All half edges of the view, in iteration order. -/
def flat (G : Graph) (k : Nat) : List (Nat × Nat × Nat) := CSR.rowsFlat G.edges k

theorem flat_sum (G : Graph) (k : Nat) (f : Nat × Nat × Nat → Nat) :
    ((flat G k).map f).sum = ∑ u ∈ range k, ((G.edges u).map (fun e => f (u, e.1, e.2))).sum := by
  induction k with
  | zero => simp [flat, CSR.rowsFlat]
  | succ k ih =>
    unfold flat at *
    rw [CSR.rowsFlat_succ, List.map_append, List.sum_append, ih, Finset.sum_range_succ, List.map_map]
    rfl

/-- Equality up to `last_node`, which `newEdge` neither reads nor writes. -/
theorem foldNew_lastNode (E : List (Nat × Nat × Nat)) (g : MGraph) (l : Nat) :
    E.foldl (fun h x => h.newEdge x.1 x.2.1 x.2.2) { g with lastNode := l } =
    { E.foldl (fun h x => h.newEdge x.1 x.2.1 x.2.2) g with lastNode := l } := by
  induction E generalizing g with
  | nil => rfl
  | cons x E ih =>
    rw [List.foldl_cons, List.foldl_cons, ← ih]
    congr 1
    by_cases hlt : x.1 < x.2.1
    · simp only [newEdge, if_pos hlt]; rfl
    · simp only [newEdge, if_neg hlt]

theorem foldNew_frame' (E : List (Nat × Nat × Nat)) (g : MGraph) :
    (E.foldl (fun h x => h.newEdge x.1 x.2.1 x.2.2) g).n = g.n ∧
    (E.foldl (fun h x => h.newEdge x.1 x.2.1 x.2.2) g).lastNode = g.lastNode := by
  induction E generalizing g with
  | nil => exact ⟨rfl, rfl⟩
  | cons x E ih =>
    rw [List.foldl_cons]
    obtain ⟨a, b⟩ := ih (g.newEdge x.1 x.2.1 x.2.2)
    rw [a, b]
    by_cases hlt : x.1 < x.2.1
    · simp only [newEdge, if_pos hlt]; exact ⟨rfl, rfl⟩
    · simp only [newEdge, if_neg hlt, and_self]

theorem fga_rows {G : Graph} (hs : ∀ u, u < G.n → ((G.edges u).map (·.1)).Nodup) (k : Nat) (hk : k ≤ G.n) :
    ((List.range k).foldl (fun s u => (G.edges u).foldl (fgaEdge u) (s.1.newNode, s.2)) (start G.n, fun _ => none)).1 =
      { (flat G k).foldl (fun h x => h.newEdge x.1 x.2.1 x.2.2) (start G.n) with lastNode := k } ∧
    ∀ t v, ((List.range k).foldl (fun s u => (G.edges u).foldl (fgaEdge u) (s.1.newNode, s.2))
      (start G.n, fun _ => none)).2 t = some v → v < k := by
  induction k with
  | zero => exact ⟨rfl, by intro t v h; simp at h⟩
  | succ k ih =>
    obtain ⟨a, b⟩ := ih (by omega)
    rw [List.range_succ, List.foldl_append, List.foldl_cons, List.foldl_nil]
    set s := (List.range k).foldl (fun s u => (G.edges u).foldl (fgaEdge u) (s.1.newNode, s.2)) (start G.n, fun _ => none)
      with hsdef
    obtain ⟨c, d⟩ := fga_row k (G.edges k) (s.1.newNode, s.2) (hs k (by omega)) (by
      intro e _ h
      have := b _ _ h
      omega)
    have hnn : s.1.newNode = { (flat G k).foldl (fun h x => h.newEdge x.1 x.2.1 x.2.2) (start G.n) with lastNode := k + 1 } := by
      rw [newNode_lt]
      · rw [a]
      · rw [a]
        show k ≠ ((flat G k).foldl (fun h x => h.newEdge x.1 x.2.1 x.2.2) (start G.n)).n
        rw [(foldNew_frame' _ _).1]
        show k ≠ G.n
        omega
    refine ⟨?_, ?_⟩
    · rw [c]
      show List.foldl _ s.1.newNode _ = _
      rw [hnn, foldNew_lastNode]
      unfold flat
      rw [CSR.rowsFlat_succ, List.foldl_append]
    · intro t v h
      rcases d t v h with h1 | h1
      · omega
      · have := b t v h1; omega

theorem sum_filter_ite (l : List (Nat × Nat)) (p : Nat × Nat → Bool) (f : Nat × Nat → Nat) :
    ((l.filter p).map f).sum = (l.map (fun e => if p e = true then f e else 0)).sum := by
  induction l with
  | nil => rfl
  | cons e l ih =>
    rw [List.filter_cons, List.map_cons, List.sum_cons]
    cases hp : p e
    · simp [ih]
    · simp [ih]

theorem wt_sum (G : Graph) (u v : Nat) : G.wt u v = ((G.edges u).map (fun e => if e.1 = v then e.2 else 0)).sum := by
  unfold Graph.wt
  rw [sum_filter_ite]
  congr 1
  refine List.map_congr_left fun e _ => ?_
  by_cases h : e.1 = v
  · simp [h]
  · simp [h]

theorem fromGraphAccess_spec {G : Graph} (hG : G.WF) (hs : ∀ u, u < G.n → ((G.edges u).map (·.1)).Nodup) :
    Valid (fromGraphAccess G) ∧ (fromGraphAccess G).Fresh ∧ (fromGraphAccess G).n = G.n ∧
    ∀ u v, u < G.n → v < G.n → (fromGraphAccess G).toGraph.wt u v = G.wt u v := by
  obtain ⟨a, -⟩ := fga_rows hs G.n (le_refl _)
  have e : fromGraphAccess G = { (flat G G.n).foldl (fun h x => h.newEdge x.1 x.2.1 x.2.2) (start G.n) with lastNode := G.n } := by
    unfold fromGraphAccess
    rw [a]
    unfold finishConstruction
    simp only [(foldNew_frame' _ _).1]
    rfl
  set g := (flat G G.n).foldl (fun h x => h.newEdge x.1 x.2.1 x.2.2) (start G.n) with hg
  obtain ⟨b1, b2, b3, -⟩ := foldNew_spec (flat G G.n) (Valid.start G.n) (by
    intro x hx
    obtain ⟨u, hu, hx⟩ := List.mem_flatMap.1 hx
    obtain ⟨e, he, rfl⟩ := List.mem_map.1 hx
    exact hG.tgt_lt u e he)
  rw [← hg] at b1 b2 b3
  unfold pframe at b2
  simp only [Prod.mk.injEq] at b2
  obtain ⟨c1, c2, c3, c4, c5⟩ := b2
  have hv : Valid (fromGraphAccess G) := by rw [e]; exact ⟨b1.pv, b1.wdeg, b1.num⟩
  have hn : (fromGraphAccess G).n = G.n := by rw [e]; exact c1
  have hltW : ∀ u v, u < G.n → v < G.n → u < v → (fromGraphAccess G).toGraph.wt u v = G.wt u v := by
    intro u v hu hv' huv
    rw [toGraph_wt _ (by omega)]
    have : (fromGraphAccess G).W u v = g.W u v := by rw [e]; rfl
    rw [this]
    unfold W
    rw [b3, flat_sum]
    have h0 : rowSum (start G.n) (fun a w => if a = v then w else 0) u = 0 := by simp [rowSum, start]
    rw [h0, Nat.zero_add, Finset.sum_eq_single u]
    · rw [wt_sum]
      congr 1
      refine List.map_congr_left fun e he => ?_
      unfold contrib
      simp only [if_true]
      have hno : e.1 ≠ u := hG.no_loop u e he
      by_cases h1 : u < e.1
      · simp only [h1, if_true]
        have h2 : ¬ u = e.1 := by omega
        simp only [h2, if_false, Nat.add_zero]
      · simp only [h1, if_false]
        rw [if_neg (by omega)]
    · intro s hs' hsu
      rw [List.sum_eq_zero]
      intro y hy
      obtain ⟨e, he, rfl⟩ := List.mem_map.1 hy
      unfold contrib
      simp only
      by_cases h1 : s < e.1
      · rw [if_pos h1, if_neg (Ne.symm hsu)]
        by_cases h2 : u = e.1
        · rw [if_pos h2, if_neg (by omega)]; rfl
        · rw [if_neg h2]; rfl
      · rw [if_neg h1]
    · intro h; exact absurd (Finset.mem_range.2 hu) h
  refine ⟨hv, ?_, hn, ?_⟩
  · rw [e]
    refine ⟨?_, ?_⟩
    · show g.posSize = g.n
      rw [c3, c1]; rfl
    · intro v hv'
      have h1 : g.pos v = v := by rw [c2]; rfl
      have h2 : g.cont v = [v] := by rw [c4]; rfl
      exact ⟨h1, h2⟩
  · intro u v hu hv'
    rcases Nat.lt_trichotomy u v with h | h | h
    · exact hltW u v hu hv' h
    · subst h
      rw [wt_sum, wt_sum, List.sum_eq_zero, List.sum_eq_zero]
      · intro y hy
        obtain ⟨e, he, rfl⟩ := List.mem_map.1 hy
        rw [if_neg (hG.no_loop u e he)]
      · intro y hy
        obtain ⟨e, he, rfl⟩ := List.mem_map.1 hy
        rw [if_neg (hv.wf.no_loop u e he)]
    · rw [hv.wf.symm u v (by rw [toGraph_n]; omega) (by rw [toGraph_n]; omega), hG.symm u v hu hv']
      exact hltW v u hv' hu h

/-! ### Serialisation -/

/-- The forward edges of the view, in the order in which they are written. -/
def fwd (g : MGraph) (u : Nat) : List (Nat × Nat) := (g.toGraph.edges u).filter (fun e => decide (u < e.1))

theorem dsLoop_row {N M u : Nat} (hu : u < N) (rest : List Nat) (es : List (Nat × Nat)) : ∀ (g : MGraph),
    (∀ e ∈ es, e.1 < M ∧ e.1 < N) →
    dsLoop N M u (es.flatMap (fun e => [e.1, e.2]) ++ rest) g =
      dsLoop N M u rest ((es.map (fun e => (u, e.1, e.2))).foldl (fun h x => h.newEdge x.1 x.2.1 x.2.2) g) := by
  induction es with
  | nil => intro g _; rfl
  | cons e es ih =>
    intro g h
    have he := h e (by simp)
    rw [List.flatMap_cons]
    show dsLoop N M u (e.1 :: e.2 :: (es.flatMap (fun e => [e.1, e.2]) ++ rest)) g = _
    rw [dsLoop, if_pos hu, if_neg (by omega), if_pos he.2, ih _ (fun e' he' => h e' (by simp [he']))]
    rfl

theorem dsLoop_rows {g : MGraph} {N M : Nat} (hM : g.numEdges = M) (hb : N + M < undefinedEdge) (rest : List Nat) (k : Nat) :
    ∀ (j n : Nat) (h : MGraph), n < N → j + k ≤ N → (∀ u, u < N → ∀ e ∈ g.fwd u, e.1 < M ∧ e.1 < N) →
    ∃ n', n' < N ∧
    dsLoop N M n ((List.range' j k).flatMap g.serialRow ++ rest) h = dsLoop N M n' rest
      (((List.range' j k).flatMap (fun u => (g.fwd u).map (fun e => (u, e.1, e.2)))).foldl
        (fun h x => h.newEdge x.1 x.2.1 x.2.2) h) := by
  induction k with
  | zero => intro j n h hn _ _; exact ⟨n, hn, rfl⟩
  | succ k ih =>
    intro j n h hn hj hE
    rw [List.range'_succ, List.flatMap_cons, List.flatMap_cons, List.foldl_append]
    obtain ⟨n', h1, h2⟩ := ih (j + 1) j
      (((g.fwd j).map (fun e => (j, e.1, e.2))).foldl (fun h x => h.newEdge x.1 x.2.1 x.2.2) h) (by omega) (by omega) hE
    refine ⟨n', h1, ?_⟩
    rw [← h2, List.append_assoc]
    unfold serialRow
    rw [List.cons_append, dsLoop.eq_def]
    simp only [hM, if_pos hn]
    rw [if_pos (by omega), if_neg (by omega), Nat.add_sub_cancel_left]
    exact dsLoop_row (by omega) _ _ _ (hE j (by omega))

/-- All forward edges. -/
def fwdAll (g : MGraph) : List (Nat × Nat × Nat) := CSR.rowsFlat g.fwd g.n

theorem fwdAll_sum (g : MGraph) (f : Nat × Nat × Nat → Nat) :
    (g.fwdAll.map f).sum = ∑ u ∈ range g.n, ((g.fwd u).map (fun e => f (u, e.1, e.2))).sum := by
  unfold fwdAll
  generalize g.n = k
  induction k with
  | zero => simp [CSR.rowsFlat]
  | succ k ih =>
    rw [CSR.rowsFlat_succ, List.map_append, List.sum_append, ih, Finset.sum_range_succ, List.map_map]
    rfl

theorem list_row_sum (g : MGraph) {u : Nat} (hu : u < g.n) (f : Nat → Nat → Nat) :
    ((g.toGraph.edges u).map (fun e => f e.1 e.2)).sum = rowSum g f u := by
  rw [toGraph_edges g hu, List.map_map]
  unfold rowSum
  rw [← sum_range_list]
  rfl

theorem fwd_sum (g : MGraph) {u : Nat} (hu : u < g.n) (f : Nat → Nat → Nat) :
    ((g.fwd u).map (fun e => f e.1 e.2)).sum = rowSum g (fun t w => if u < t then f t w else 0) u := by
  unfold fwd
  rw [sum_filter_ite, ← list_row_sum g hu]
  congr 1
  refine List.map_congr_left fun e _ => ?_
  simp

theorem rowSum_split {g : MGraph} (hg : Valid g) {a : Nat} (ha : a < g.n) (f : Nat → Nat → Nat) :
    rowSum g f a = ∑ v ∈ range g.n, rowSum g (fun t w => if t = v then f v w else 0) a := by
  unfold rowSum
  rw [Finset.sum_comm]
  refine Finset.sum_congr rfl fun e he => ?_
  have ht := (hg.pv a e ⟨ha, by simp, by simpa using he⟩).2.1.1
  rw [Finset.sum_eq_single (g.edge a e).target]
  · exact (if_pos rfl).symm
  · intro b _ hb; exact if_neg (Ne.symm hb)
  · intro h; exact absurd (Finset.mem_range.2 ht) h

theorem rowSum_zero (g : MGraph) (a : Nat) : rowSum g (fun _ _ => 0) a = 0 := by simp [rowSum]

theorem rowSum_ext {g : MGraph} {a : Nat} {f f' : Nat → Nat → Nat}
    (h : ∀ e, e < g.len a → f (g.edge a e).target (g.edge a e).weight = f' (g.edge a e).target (g.edge a e).weight) :
    rowSum g f a = rowSum g f' a :=
  Finset.sum_congr rfl fun e he => h e (Finset.mem_range.1 he)

/-- Inserting the forward edges of a valid graph into an empty graph gives the same rows. -/
theorem fwdAll_contrib {g : MGraph} (hg : Valid g) (f : Nat → Nat → Nat) {a : Nat} (ha : a < g.n) :
    (g.fwdAll.map (contrib f a)).sum = rowSum g f a := by
  rw [fwdAll_sum]
  have h1 : ∀ u ∈ range g.n, ((g.fwd u).map (fun e => contrib f a (u, e.1, e.2))).sum =
      (if u = a then rowSum g (fun t w => if a < t then f t w else 0) a else 0) +
      (if u < a then rowSum g (fun t w => if t = u then f u w else 0) a else 0) := by
    intro u hu
    rw [Finset.mem_range] at hu
    have h2 := fwd_sum g hu (fun t w => contrib f a (u, t, w))
    rw [h2]
    by_cases hua : u = a
    · subst hua
      rw [if_pos rfl, if_neg (lt_irrefl _), Nat.add_zero]
      refine rowSum_ext fun e _ => ?_
      unfold contrib
      by_cases h3 : u < (g.edge u e).target
      · have h4 : ¬ u = (g.edge u e).target := by omega
        simp [h3, h4]
      · simp [h3]
    · rw [if_neg hua, Nat.zero_add]
      by_cases h3 : u < a
      · rw [if_pos h3, hg.symm ha (by simp) hu (by simp) (fun w => f u w)]
        refine rowSum_ext fun e _ => ?_
        unfold contrib
        by_cases h4 : (g.edge u e).target = a
        · rw [h4]; simp [h3, Ne.symm hua]
        · simp [h4, Ne.symm hua, Ne.symm h4]
      · rw [if_neg h3]
        refine (rowSum_ext fun e _ => ?_).trans (rowSum_zero g u)
        unfold contrib
        by_cases h4 : u < (g.edge u e).target
        · have h5 : ¬ a = (g.edge u e).target := by omega
          simp [h4, h5, Ne.symm hua]
        · simp [h4]
  rw [Finset.sum_congr rfl h1, Finset.sum_add_distrib, Finset.sum_ite_eq' (range g.n) a, if_pos (Finset.mem_range.2 ha)]
  rw [rowSum_split hg ha f]
  have h6 : rowSum g (fun t w => if a < t then f t w else 0) a =
      ∑ v ∈ range g.n, if a < v then rowSum g (fun t w => if t = v then f v w else 0) a else 0 := by
    rw [rowSum_split hg ha]
    refine Finset.sum_congr rfl fun v _ => ?_
    by_cases hv : a < v
    · simp only [hv, if_true]
    · simp only [hv, if_false]
      exact (rowSum_ext fun e _ => by simp).trans (rowSum_zero g a)
  rw [h6, ← Finset.sum_add_distrib]
  refine Finset.sum_congr rfl fun v _ => ?_
  rcases Nat.lt_trichotomy a v with h | h | h
  · rw [if_pos h, if_neg (by omega)]; rfl
  · subst h
    rw [if_neg (lt_irrefl _)]
    symm
    rw [Nat.add_zero]
    refine (rowSum_ext fun e he => ?_).trans (rowSum_zero g a)
    have := (hg.pv a e ⟨ha, by simp, he⟩).2.2.2.2.2
    exact if_neg this
  · rw [if_neg (by omega), if_pos h, Nat.zero_add]

/-- Two graphs with equal row sums have the same adjacency lists up to order. -/
theorem perm_of_rowSum {g h : MGraph} {u : Nat} (hu : u < g.n) (hu' : u < h.n) (he : ∀ f, rowSum g f u = rowSum h f u) :
    (g.toGraph.edges u).Perm (h.toGraph.edges u) := by
  rw [List.perm_iff_count]
  intro x
  have key : ∀ l : List (Nat × Nat), l.count x = (l.map (fun e => if e.1 = x.1 ∧ e.2 = x.2 then 1 else 0)).sum := by
    intro l
    induction l with
    | nil => rfl
    | cons e l ih =>
      rw [List.count_cons, List.map_cons, List.sum_cons, ih]
      by_cases hx : e = x
      · subst hx; simp; omega
      · have : ¬ (e.1 = x.1 ∧ e.2 = x.2) := fun h => hx (Prod.ext h.1 h.2)
        simp [hx, this]
  rw [key, key]
  have h1 := list_row_sum g hu (fun a b => if a = x.1 ∧ b = x.2 then 1 else 0)
  have h2 := list_row_sum h hu' (fun a b => if a = x.1 ∧ b = x.2 then 1 else 0)
  rw [h1, h2, he]

theorem fwdAll_length {g : MGraph} (hg : Valid g) : 2 * g.fwdAll.length = g.numEdges := by
  have hnum := (valid_iff.1 hg).2.2
  rw [hnum]
  have h1 : ∑ a ∈ range g.n, g.len a = ∑ a ∈ range g.n, (g.fwdAll.map (contrib (fun _ _ => 1) a)).sum := by
    refine Finset.sum_congr rfl fun a ha => ?_
    rw [fwdAll_contrib hg _ (Finset.mem_range.1 ha)]
    simp [rowSum]
  have h2 : ∀ l : List (Nat × Nat × Nat), (∀ x ∈ l, x.1 < x.2.1 ∧ x.2.1 < g.n) →
      ∑ a ∈ range g.n, (l.map (contrib (fun _ _ => 1) a)).sum = 2 * l.length := by
    intro l
    induction l with
    | nil => intro _; simp
    | cons x l ih =>
      intro hl
      have hx := hl x (by simp)
      have e1 : ∑ a ∈ range g.n, ((x :: l).map (contrib (fun _ _ => 1) a)).sum =
          ∑ a ∈ range g.n, ((if a = x.1 then 1 else 0) + (if a = x.2.1 then 1 else 0) + (l.map (contrib (fun _ _ => 1) a)).sum) := by
        refine Finset.sum_congr rfl fun a _ => ?_
        rw [List.map_cons, List.sum_cons]
        simp only [contrib, if_pos hx.1]
      rw [e1, Finset.sum_add_distrib, Finset.sum_add_distrib, ih (fun y hy => hl y (by simp [hy])),
        Finset.sum_ite_eq' (range g.n), Finset.sum_ite_eq' (range g.n), if_pos (Finset.mem_range.2 (by omega)),
        if_pos (Finset.mem_range.2 hx.2), List.length_cons]
      omega
  rw [h1, h2]
  intro x hx
  obtain ⟨u, hu, hx⟩ := List.mem_flatMap.1 hx
  obtain ⟨e, he, rfl⟩ := List.mem_map.1 hx
  have := List.mem_filter.1 he
  have ht := hg.wf.tgt_lt u e this.1
  rw [toGraph_n] at ht
  exact ⟨by simpa using this.2, ht⟩

/-! ### Round trip -/

theorem fwd_flat_length (g : MGraph) (k : Nat) :
    ((List.range k).flatMap g.serialRow).length = k + 2 * (CSR.rowsFlat g.fwd k).length := by
  have h2 : ∀ l : List (Nat × Nat), (l.flatMap (fun e => [e.1, e.2])).length = 2 * l.length := by
    intro l
    induction l with
    | nil => rfl
    | cons e l ih => rw [List.flatMap_cons, List.length_append, ih, List.length_cons]; simp; omega
  induction k with
  | zero => simp [CSR.rowsFlat]
  | succ k ih =>
    rw [List.range_succ, List.flatMap_append, List.length_append, ih, CSR.rowsFlat_succ, List.length_append]
    have : ([k].flatMap g.serialRow).length = 1 + 2 * (g.fwd k).length := by
      rw [List.flatMap_cons, List.flatMap_nil, List.append_nil]
      unfold serialRow
      rw [List.length_cons, h2]; unfold fwd; omega
    rw [this, List.length_map]; omega

theorem serialWords_length {g : MGraph} (hg : Valid g) :
    g.serialWords.length = 5 + 2 * g.n + g.numEdges + g.posSize := by
  unfold serialWords
  simp only [List.length_append, fwd_flat_length, List.length_map, List.length_range, List.length_cons, List.length_nil]
  have := fwdAll_length hg
  unfold fwdAll at this
  omega

theorem dsPositions_spec {N : Nat} (f : Nat → Nat) (ws : List Nat) (k : Nat) :
    ∀ (h : MGraph), h.contSize = N → (∀ p, p < N → h.cont p = []) →
    (∀ i, i < k → ws.getD i 0 % 2 ^ 32 = f i ∧ f i < N) →
    ∃ h', (List.range k).foldl (fun g i => dsPos i (ws.getD i 0 % 2 ^ 32) g) (some h) = some h' ∧
      (∀ i, h'.pos i = if i < k then f i else h.pos i) ∧ (∀ p, p < N → h'.cont p = (List.range k).filter (fun i => f i == p)) ∧
      h' = { h with pos := h'.pos, cont := h'.cont } := by
  induction k with
  | zero => intro h _ hc _; exact ⟨h, rfl, by intro i; simp, by intro p hp; simp [hc p hp], rfl⟩
  | succ k ih =>
    intro h hN hc hf
    obtain ⟨h', a, b, c, d⟩ := ih h hN hc (fun i hi => hf i (by omega))
    rw [List.range_succ, List.foldl_append, a, List.foldl_cons, List.foldl_nil]
    obtain ⟨e1, e2⟩ := hf k (by omega)
    have hcs : h'.contSize = N := by rw [d]; exact hN
    have hstep : dsPos k (ws.getD k 0 % 2 ^ 32) (some h') =
        some { h' with pos := update h'.pos k (f k), cont := update h'.cont (f k) (h'.cont (f k) ++ [k]) } := by
      unfold dsPos
      rw [Option.bind_some, e1, if_pos (by omega)]
    refine ⟨_, hstep, ?_, ?_, ?_⟩
    · intro i
      simp only [update_apply, b]
      by_cases hi : i = k
      · subst hi; simp
      · rw [if_neg hi]
        by_cases h2 : i < k
        · rw [if_pos h2, if_pos (by omega)]
        · rw [if_neg h2, if_neg (by omega)]
    · intro p hpN
      simp only [update_apply, c p hpN, c (f k) e2, List.filter_append]
      by_cases hp : p = f k
      · subst hp; simp
      · have : (f k == p) = false := by rw [beq_eq_false_iff_ne]; exact Ne.symm hp
        simp [hp, this]
    · conv_lhs => rw [d]

theorem target_lt_numEdges {g : MGraph} (hg : Valid g) (hiso : ∀ u, u < g.n → 0 < g.len u) :
    ∀ u, u < g.n → ∀ e ∈ g.toGraph.edges u, e.1 < g.numEdges := by
  intro u _ e he
  have ht := hg.wf.tgt_lt u e he
  rw [toGraph_n] at ht
  have hnum := (valid_iff.1 hg).2.2
  have : g.n ≤ g.numEdges := by
    rw [hnum]
    calc g.n = ∑ _u ∈ range g.n, 1 := by simp
      _ ≤ ∑ u ∈ range g.n, g.len u := Finset.sum_le_sum fun u hu => hiso u (Finset.mem_range.1 hu)
  omega

theorem fwd_bounds {g : MGraph} (hg : Valid g) (hfit : ∀ u, u < g.n → ∀ e ∈ g.toGraph.edges u, e.1 < g.numEdges) (u : Nat) :
    ∀ e ∈ g.fwd u, e.1 < g.numEdges ∧ e.1 < g.n := by
  intro e he
  have h1 := List.mem_filter.1 he
  have ht := hg.wf.tgt_lt u e h1.1
  rw [toGraph_n] at ht
  refine ⟨hfit u ?_ e h1.1, ht⟩
  have := of_decide_eq_true h1.2
  omega

theorem serialize_roundtrip {g : MGraph} (hg : Valid g) (hfit : ∀ u, u < g.n → ∀ e ∈ g.toGraph.edges u, e.1 < g.numEdges)
    (hpos : g.posSize = g.origNodes) (horig : g.n ≤ g.origNodes) (hlive : ∀ v, v < g.posSize → g.pos v < g.n)
    (hn : g.n < 2 ^ 32) (hb : g.n + g.numEdges < undefinedEdge) :
    ∃ ws g', g.serialize = some ws ∧ deserialize ws = some g' ∧ Valid g' ∧ g'.n = g.n ∧ g'.numEdges = g.numEdges ∧
      (∀ f a, a < g.n → rowSum g' f a = rowSum g f a) ∧ (∀ u, u < g.n → g'.part u = g.part u) ∧
      g'.partCount = g.partCount ∧ g'.origNodes = g.origNodes ∧ g'.posSize = g.posSize ∧
      (∀ v, v < g.posSize → g'.pos v = g.pos v) ∧
      (∀ p, p < g.n → g'.cont p = (List.range g.posSize).filter (fun v => g.pos v == p)) := by
  have hlen := serialWords_length hg
  have hser : g.serialize = some g.serialWords := by
    unfold serialize
    simp only
    rw [if_pos (by omega), hlen, hpos, Nat.sub_self]; simp
  refine ⟨g.serialWords, ?_⟩
  set g0 : MGraph := ({ start g.n with partCount := g.partCount } : MGraph).setOriginalNodes g.origNodes with hg0
  have hg0n : g0.n = g.n := by rw [hg0]; unfold setOriginalNodes; split <;> rfl
  have hg0ps : g0.posSize = g.origNodes := by
    rw [hg0]; unfold setOriginalNodes
    by_cases hc : g.origNodes > g.n
    · exact (congrArg MGraph.posSize (if_pos hc)).trans rfl
    · have : g.origNodes = g.n := by omega
      exact (congrArg MGraph.posSize (if_neg hc)).trans this.symm
  have hg0v : Valid g0 := by
    have h1 := Valid.start g.n
    rw [hg0]; unfold setOriginalNodes
    split
    · exact ⟨h1.pv, h1.wdeg, h1.num⟩
    · exact ⟨h1.pv, h1.wdeg, h1.num⟩
  have hg0e : ∀ f a, rowSum g0 f a = 0 := by
    intro f a
    rw [hg0]; unfold setOriginalNodes
    split <;> simp [rowSum, start]
  have hg0pc : g0.partCount = g.partCount := by rw [hg0]; unfold setOriginalNodes; split <;> rfl
  have hg0o : g0.origNodes = g.origNodes := by rw [hg0]; unfold setOriginalNodes; split <;> rfl
  have hg0c : g0.contSize = g.n := by rw [hg0]; unfold setOriginalNodes; split <;> rfl
  set tail := (List.range g.n).map g.part ++ (List.range g.posSize).map g.pos with htail
  have hwords : g.serialWords = g.n :: g.numEdges :: g.partCount :: g.origNodes ::
      ((List.range' 0 g.n).flatMap g.serialRow ++ (undefinedEdge :: tail)) := by
    unfold serialWords
    rw [← List.range_eq_range', htail]; simp
  set E := (List.range' 0 g.n).flatMap (fun u => (g.fwd u).map (fun e => (u, e.1, e.2))) with hE
  have hEe : E = g.fwdAll := by rw [hE, ← List.range_eq_range']; rfl
  set g1 := E.foldl (fun h x => h.newEdge x.1 x.2.1 x.2.2) g0 with hg1
  have htl : tail.length = g.n + g.posSize := by rw [htail]; simp
  have hloop : ∃ rest, dsLoop g.n g.numEdges 0 ((List.range' 0 g.n).flatMap g.serialRow ++ (undefinedEdge :: tail)) g0 =
      some (g1, rest) ∧ tail.length ≤ rest.length ∧ ∀ i, i < tail.length → rest.getD i 0 = tail.getD i 0 := by
    rcases Nat.eq_zero_or_pos g.n with h0 | h0
    · have hp0 : g.posSize = 0 := by
        rcases Nat.eq_zero_or_pos g.posSize with h1 | h1
        · exact h1
        · have := hlive 0 h1; omega
      have hE0 : E = [] := by rw [hE, h0]; rfl
      refine ⟨(List.range' 0 g.n).flatMap g.serialRow ++ (undefinedEdge :: tail), ?_, by omega, ?_⟩
      · have : (List.range' 0 g.n).flatMap g.serialRow = [] := by rw [h0]; rfl
        rw [this, List.nil_append, dsLoop.eq_def]
        simp only
        rw [if_neg (by omega), hg1, hE0]; rfl
      · intro i hi; omega
    · obtain ⟨n', h1, h2⟩ := dsLoop_rows (g := g) (N := g.n) rfl hb (undefinedEdge :: tail) g.n 0 0 g0 h0 (by omega)
        (fun u _ => fwd_bounds hg hfit u)
      refine ⟨tail, ?_, le_refl _, fun _ _ => rfl⟩
      rw [h2, dsLoop.eq_def]
      simp only [if_pos h1]
      rw [if_pos (by omega)]
      simp only [if_true]
      rfl
  obtain ⟨rest, hloop, hrl, hrest⟩ := hloop
  obtain ⟨b1, b2, b3, b4, b5, b6, b7⟩ := foldNew_spec E hg0v (by
    intro x hx
    rw [hE] at hx
    obtain ⟨u, _, hx⟩ := List.mem_flatMap.1 hx
    obtain ⟨e, he, rfl⟩ := List.mem_map.1 hx
    rw [hg0n]
    exact (fwd_bounds hg hfit u e he).2)
  rw [← hg1] at b1 b2 b3 b4 b5 b6 b7
  unfold pframe at b2
  simp only [Prod.mk.injEq] at b2
  obtain ⟨c1, c2, c3, c4, c5⟩ := b2
  set g2 : MGraph := { g1 with part := fun i => if i < g.n then rest.getD i 0 else g1.part i
                               cont := fun i => if i < g.n then [] else g1.cont i } with hg2
  have hpart : dsPart g.n g1 rest = some (g2, rest.drop g.n) := by
    unfold dsPart; rw [if_pos (by omega)]
  obtain ⟨g3, d1, d2, d3, d4⟩ := dsPositions_spec (N := g.n) g.pos (rest.drop g.n) g.origNodes g2 (b6.trans hg0c)
    (by intro p hp; rw [hg2]; exact if_pos hp) (by
      intro i hi
      have h1 : (rest.drop g.n).getD i 0 = g.pos i := by
        rw [List.getD_eq_getElem?_getD, List.getElem?_drop, ← List.getD_eq_getElem?_getD, hrest _ (by omega), htail,
          List.getD_eq_getElem?_getD, List.getElem?_append_right (by simp)]
        simp [hpos, hi]
      have h2 := hlive i (by omega)
      rw [h1]
      exact ⟨Nat.mod_eq_of_lt (by omega), h2⟩)
  have hdes : deserialize g.serialWords = some g3.finishConstruction := by
    rw [hwords]
    unfold deserialize
    simp only
    rw [← hg0, hloop, Option.bind_some, hpart, Option.bind_some]
    unfold dsPositions
    simp only
    rw [if_pos (by rw [List.length_drop]; omega), d1]; rfl
  have hE2 : ∀ f a, rowSum g3.finishConstruction f a = rowSum g1 f a := by
    intro f a
    have h1 : g3.finishConstruction.len = g1.len := by unfold finishConstruction; rw [d4]
    have h2 : g3.finishConstruction.edge = g1.edge := by unfold finishConstruction; rw [d4]
    unfold rowSum; rw [h1, h2]
  have hv1 : Valid g3.finishConstruction := by
    rw [d4]; exact ⟨b1.pv, b1.wdeg, b1.num⟩
  have hrow : ∀ f a, a < g.n → rowSum g3.finishConstruction f a = rowSum g f a := by
    intro f a ha
    rw [hE2, b3, hg0e, Nat.zero_add, hEe, fwdAll_contrib hg f ha]
  have hn3 : g3.finishConstruction.n = g.n := by
    unfold finishConstruction; rw [d4]; exact c1.trans hg0n
  refine ⟨g3.finishConstruction, hser, hdes, hv1, hn3, ?_, hrow, ?_, ?_, ?_, ?_, ?_, ?_⟩
  · rw [(valid_iff.1 hv1).2.2, (valid_iff.1 hg).2.2, hn3]
    refine Finset.sum_congr rfl fun a ha => ?_
    have := hrow (fun _ _ => 1) a (Finset.mem_range.1 ha)
    simpa [rowSum] using this
  · intro u hu
    have : g3.finishConstruction.part u = rest.getD u 0 := by
      unfold finishConstruction; rw [d4]; exact if_pos hu
    rw [this, hrest _ (by omega), htail, List.getD_eq_getElem?_getD, List.getElem?_append_left (by simpa using hu)]
    simp [hu]
  · unfold finishConstruction; rw [d4]; exact b5.trans hg0pc
  · unfold finishConstruction; rw [d4]; exact c5.trans hg0o
  · unfold finishConstruction; rw [d4]; exact (c3.trans hg0ps).trans hpos.symm
  · intro v hv
    have := d2 v
    rw [if_pos (by omega)] at this
    exact this
  · intro p hp
    have := d3 p hp
    rw [hpos]; exact this

end MGraph
end VieCut
