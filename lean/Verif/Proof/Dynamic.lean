import Verif.Proof.DynamicMerge
import Verif.Proof.NOI

/-! The invariant of `dynamic_mincut`: the reported value is the minimum cut, and the cached cactus graphs are sound after the
insertions recorded since. -/

namespace VieCut
open Finset

theorem totalWeight_mono {G H : Graph} (hG : G.WF) (hH : H.WF) (hn : H.n = G.n) (h : ∀ u v, u < G.n → H.wt u v ≤ G.wt u v) :
    H.totalWeight ≤ G.totalWeight := by
  have e : ∀ G : Graph, G.totalWeight = ∑ u ∈ range G.n, G.deg u := by
    intro G
    have := sum_filter_range G.n (fun _ => true) G.deg
    simpa [Graph.totalWeight] using this
  rw [e, e, hn]
  refine Finset.sum_le_sum fun u hu => ?_
  rw [hG.deg_eq, hH.deg_eq, hn]
  exact Finset.sum_le_sum fun v _ => h u v (mem_range.1 hu)

namespace Dyn
open MGraph

/-- The value of a cut of the graph. -/
abbrev gcut (g : MGraph) (S : Nat → Bool) : Nat := cutValue g.n g.toGraph.wt S

theorem Fresh.of_pframe {g g' : MGraph} (h : g.Fresh) (hp : g'.pframe = g.pframe) : g'.Fresh := by
  unfold pframe at hp
  simp only [Prod.mk.injEq] at hp
  obtain ⟨a, b, c, d, _⟩ := hp
  unfold MGraph.Fresh at *
  rw [a, b, c, d]
  exact h

theorem Input.wf {g : MGraph} (h : Input g) : g.toGraph.WF := (consistent_iff.1 h.consistent).wf

/-- Inserting an edge. -/
theorem add_spec {g : MGraph} (hg : Input g) {s t : Nat} (hs : s < g.n) (ht : t < g.n) (w : Nat)
    (hf : (g.newEdgeOrder s t w).toGraph.totalWeight < 2 ^ 63) :
    Input (g.newEdgeOrder s t w) ∧ (g.newEdgeOrder s t w).n = g.n ∧
    ∀ S, gcut (g.newEdgeOrder s t w) S = gcut g S + if S s = S t then 0 else w := by
  have hv := consistent_iff.1 hg.consistent
  -- the case of two different vertices, in order
  have key : ∀ a b, a < b → b < g.n → (g.newEdge a b w).pframe = g.pframe ∧
      ∀ S, gcut (g.newEdge a b w) S = gcut g S + if S a = S b then 0 else w := by
    intro a b hab hb
    obtain ⟨_, h2, _⟩ := newEdge_spec hv hab hb (w := w)
    have hn : (g.newEdge a b w).n = g.n := by
      unfold pframe at h2; simp only [Prod.mk.injEq] at h2; exact h2.1
    refine ⟨h2, fun S => ?_⟩
    unfold gcut
    rw [hn]
    exact cutValue_add (by omega) (by omega) hb (fun u v hu => C08_newEdge g hg.consistent a b w hab hb u v hu) S
  have hval := hv.newEdgeOrder w hs ht
  have hall : (g.newEdgeOrder s t w).pframe = g.pframe ∧
      ∀ S, gcut (g.newEdgeOrder s t w) S = gcut g S + if S s = S t then 0 else w := by
    unfold MGraph.newEdgeOrder
    split
    · exact key s t (by assumption) ht
    · split
      · obtain ⟨a, b⟩ := key t s (by assumption) hs
        refine ⟨a, fun S => ?_⟩
        rw [b S]
        congr 1
        by_cases h : S s = S t
        · rw [if_pos h, if_pos h.symm]
        · rw [if_neg h, if_neg (Ne.symm h)]
      · have : s = t := by omega
        subst this
        exact ⟨rfl, fun S => by simp⟩
  have hn : (g.newEdgeOrder s t w).n = g.n := by
    have h2 := hall.1
    unfold pframe at h2; simp only [Prod.mk.injEq] at h2; exact h2.1
  exact ⟨⟨consistent_iff.2 hval, Fresh.of_pframe hg.fresh hall.1, by rw [hn]; exact hg.two, hf⟩, hn, hall.2⟩

theorem edgeTo_spec {g : MGraph} {s t e : Nat} (h : edgeTo g s t = some e) : e < g.len s ∧ (g.edge s e).target = t := by
  unfold edgeTo at h
  exact ⟨List.mem_range.1 (List.mem_of_find?_eq_some h), by simpa using List.find?_some h⟩

/-- Deleting an edge. -/
theorem delete_spec {g : MGraph} (hg : Input g) {s t e : Nat} (hs : s < g.n) (he : edgeTo g s t = some e) :
    s ≠ t ∧ t < g.n ∧ Input (g.deleteEdge s e) ∧ (g.deleteEdge s e).n = g.n ∧
    ∀ S, gcut g S = gcut (g.deleteEdge s e) S + if S s = S t then 0 else (g.edge s e).weight := by
  obtain ⟨he1, he2⟩ := edgeTo_spec he
  have hv := consistent_iff.1 hg.consistent
  have hne := hg.consistent.noLoop s e hs he1
  have htl := hg.consistent.target s e hs he1
  rw [he2] at hne htl
  obtain ⟨h1, h2, _⟩ := deleteEdge_spec hv hs he1
  have hn : (g.deleteEdge s e).n = g.n := by
    unfold pframe at h2; simp only [Prod.mk.injEq] at h2; exact h2.1
  have hw := C08_deleteEdge g hg.consistent s e hs he1
  rw [he2] at hw
  refine ⟨Ne.symm hne, htl, ⟨consistent_iff.2 h1, Fresh.of_pframe hg.fresh h2, by rw [hn]; exact hg.two, ?_⟩, hn, ?_⟩
  · refine lt_of_le_of_lt (totalWeight_mono hg.wf h1.wf (by rw [toGraph_n, toGraph_n, hn]) ?_) hg.fits
    intro u v hu
    rw [toGraph_n] at hu
    have := hw u v hu
    omega
  · intro S
    unfold gcut
    rw [hn]
    exact cutValue_add (Ne.symm hne) hs htl (fun u v hu => (hw u v hu).symm) S

/-- A value that is in the cache. -/
def Cached (d : State) (m : Nat) : Prop := m < d.size ∧ d.caching m = true

/-- The cactus cached for `m`: its cuts of weight `m` that do not separate the ends of an insertion made since are cuts of weight at
most `m`. -/
structure Entry (d : State) (m : Nat) : Prop where
  pos : 0 < m
  shape : Shape (d.cactusAt m) d.orig.n
  sound : ∀ X, ProperCut (d.cactusAt m).n X → m ≤ gcut (d.cactusAt m) X ∧ (gcut (d.cactusAt m) X = m →
    ProperCut d.orig.n (inside (d.cactusAt m) X) ∧
    ((∀ m', m' ≤ m → Cached d m' → ∀ e ∈ d.inserts m', inside (d.cactusAt m) X e.1 = inside (d.cactusAt m) X e.2.1) →
      gcut d.orig (inside (d.cactusAt m) X) ≤ m))

/-- Invariant of the cache. -/
structure CacheInv (d : State) : Prop where
  cnt : d.numCached = ((List.range d.size).filter d.caching).length
  low0 : d.numCached = 0 → d.lowest = undefinedEdge
  low : d.numCached ≠ 0 → Cached d d.lowest ∧ ∀ m, Cached d m → d.lowest ≤ m
  ent : ∀ m, Cached d m → Entry d m
  args : ∀ m, Cached d m → ∀ e ∈ d.inserts m, e.1 < d.orig.n ∧ e.2.1 < d.orig.n

/-- Invariant of the object. -/
structure Inv (d : State) : Prop where
  input : Input d.orig
  min : IsMinCut d.orig.n d.orig.toGraph.wt d.cut
  shape : Shape d.cactus d.orig.n
  sound : Sound d.orig d.cactus d.cut
  cache : CacheInv d

theorem not_cached_of {d : State} (h : d.numCached = ((List.range d.size).filter d.caching).length) (h0 : d.numCached = 0) (m : Nat) :
    ¬ Cached d m := by
  rintro ⟨h1, h2⟩
  rw [h0] at h
  have := List.length_eq_zero_iff.1 h.symm
  have hm : m ∈ (List.range d.size).filter d.caching := List.mem_filter.2 ⟨List.mem_range.2 h1, h2⟩
  rw [this] at hm
  cases hm

theorem numCached_pos {d : State} (h : d.numCached = ((List.range d.size).filter d.caching).length) {m : Nat} (hm : Cached d m) :
    d.numCached ≠ 0 := fun h0 => not_cached_of h h0 m hm

/-- An empty cache. -/
theorem CacheInv.empty {d : State} (h0 : d.numCached = 0) (hl : d.lowest = undefinedEdge) (hn : ∀ m, ¬ Cached d m) : CacheInv d := by
  refine ⟨?_, fun _ => hl, fun h => absurd h0 h, fun m hm => absurd hm (hn m), fun m hm => absurd hm (hn m)⟩
  rw [h0]
  symm
  rw [List.length_eq_zero_iff, List.filter_eq_nil_iff]
  intro m hm hc
  exact hn m ⟨List.mem_range.1 hm, hc⟩

theorem Entry.mono {d d' : State} {m : Nat} (h : Entry d m) (hC : d'.cactusAt m = d.cactusAt m) (hn : d'.orig.n = d.orig.n)
    (hs : ∀ S : Nat → Bool, (∀ m', m' ≤ m → Cached d' m' → ∀ e ∈ d'.inserts m', S e.1 = S e.2.1) →
      (∀ m', m' ≤ m → Cached d m' → ∀ e ∈ d.inserts m', S e.1 = S e.2.1) ∧ gcut d'.orig S ≤ gcut d.orig S) : Entry d' m := by
  refine ⟨h.pos, by rw [hC, hn]; exact h.shape, ?_⟩
  intro X hX
  rw [hC] at hX ⊢
  obtain ⟨a, b⟩ := h.sound X hX
  refine ⟨a, fun e => ?_⟩
  obtain ⟨c1, c2⟩ := b e
  refine ⟨by rw [hn]; exact c1, fun hp => ?_⟩
  obtain ⟨k1, k2⟩ := hs _ hp
  exact le_trans k2 (c2 k1)

/-- Nothing changes for the cache if only cactus, value and number of calls change. -/
theorem CacheInv.of_eq {d d' : State} (h : CacheInv d) (h1 : d'.orig = d.orig) (h2 : d'.numCached = d.numCached) (h3 : d'.lowest = d.lowest)
    (h4 : d'.size = d.size) (h5 : d'.cactusAt = d.cactusAt) (h6 : d'.inserts = d.inserts) (h7 : d'.caching = d.caching) : CacheInv d' := by
  have hc : ∀ m, Cached d' m ↔ Cached d m := by intro m; unfold Cached; rw [h4, h7]
  refine ⟨by rw [h2, h4, h7]; exact h.cnt, by rw [h2, h3]; exact h.low0, ?_, ?_, ?_⟩
  · rw [h2, h3]
    intro hne
    obtain ⟨a, b⟩ := h.low hne
    exact ⟨(hc _).2 a, fun m hm => b m ((hc m).1 hm)⟩
  · intro m hm
    refine (h.ent m ((hc m).1 hm)).mono (by rw [h5]) (by rw [h1]) ?_
    intro S hS
    rw [h6] at hS
    exact ⟨fun m' hm' hc' => hS m' hm' ((hc m').2 hc'), by rw [h1]⟩
  · intro m hm
    rw [h6, h1]
    exact h.args m ((hc m).1 hm)

/-- The graph lost weight. -/
theorem CacheInv.shrink {d : State} (h : CacheInv d) {g : MGraph} (hn : g.n = d.orig.n) (hcut : ∀ S, gcut g S ≤ gcut d.orig S) :
    CacheInv { d with orig := g } := by
  refine ⟨h.cnt, h.low0, h.low, ?_, ?_⟩
  · intro m hm
    exact (h.ent m hm).mono rfl hn fun S hS => ⟨hS, hcut S⟩
  · intro m hm
    show ∀ e ∈ d.inserts m, e.1 < g.n ∧ e.2.1 < g.n
    rw [hn]
    exact h.args m hm

/-- `cacheEdge` after the insertion of an edge. -/
theorem cacheEdge_spec {d : State} (h : CacheInv d) {g : MGraph} (hn : g.n = d.orig.n) {s t w : Nat} (hs : s < d.orig.n) (ht : t < d.orig.n)
    (hcut : ∀ S, gcut g S = gcut d.orig S + if S s = S t then 0 else w) :
    ∃ d', cacheEdge { d with orig := g } s t w = some d' ∧ CacheInv d' ∧ d'.orig = g ∧ d'.cactus = d.cactus ∧ d'.cut = d.cut := by
  unfold cacheEdge
  dsimp only
  by_cases h0 : d.numCached = 0
  · rw [if_pos h0]
    exact ⟨_, rfl, CacheInv.empty h0 (h.low0 h0) (not_cached_of h.cnt h0), rfl, rfl, rfl⟩
  rw [if_neg h0]
  obtain ⟨hl1, hl2⟩ := h.low h0
  rw [if_neg (Nat.not_le.2 hl1.1)]
  by_cases hsz : (d.inserts d.lowest).length ≤ maxCache
  · rw [if_pos hsz]
    refine ⟨_, rfl, ⟨h.cnt, h.low0, h.low, ?_, ?_⟩, rfl, rfl, rfl⟩
    · intro m hm
      refine (h.ent m hm).mono rfl hn ?_
      intro S hS
      dsimp only at hS ⊢
      have hst : S s = S t := by
        have := hS d.lowest (hl2 m hm) hl1 (s, t, w) (by simp)
        exact this
      refine ⟨?_, by rw [hcut, if_pos hst]; omega⟩
      intro m' hm' hc' e he
      refine hS m' hm' hc' e ?_
      by_cases hml : m' = d.lowest
      · subst hml; simp [he]
      · rw [Function.update_of_ne hml]; exact he
    · intro m hm e he
      dsimp only at he ⊢
      rw [hn]
      by_cases hml : m = d.lowest
      · subst hml
        rw [Function.update_self, List.mem_append] at he
        rcases he with he | he
        · exact h.args _ hm e he
        · have : e = (s, t, w) := by simpa using he
          subst this
          exact ⟨hs, ht⟩
      · rw [Function.update_of_ne hml] at he
        exact h.args m hm e he
  · rw [if_neg hsz]
    by_cases h1 : d.numCached - 1 > 0
    · rw [if_pos h1]
      refine ⟨_, rfl, CacheInv.empty rfl rfl ?_, rfl, rfl, rfl⟩
      rintro m ⟨a, b⟩
      dsimp only at a b
      by_cases hml : m = d.lowest
      · subst hml; simp at b
      · rw [Function.update_of_ne hml] at b
        have := hl2 m ⟨lt_of_lt_of_le a hl1.1, b⟩
        omega
    · rw [if_neg h1]
      refine ⟨_, rfl, CacheInv.empty (show d.numCached - 1 = 0 by omega) rfl ?_, rfl, rfl, rfl⟩
      rintro m ⟨a, b⟩
      dsimp only at a b
      by_cases hml : m = d.lowest
      · subst hml; simp at b
      · rw [Function.update_of_ne hml] at b
        -- two cached values
        have h2 : 2 ≤ ((List.range d.size).filter d.caching).length := by
          have hsub : [m, d.lowest] ⊆ (List.range d.size).filter d.caching := by
            intro x hx
            simp only [List.mem_cons, List.not_mem_nil, or_false] at hx
            rcases hx with rfl | rfl
            · exact List.mem_filter.2 ⟨List.mem_range.2 a, b⟩
            · exact List.mem_filter.2 ⟨List.mem_range.2 hl1.1, hl1.2⟩
          simpa using (List.subperm_of_subset (by simpa using hml) hsub).length_le
        have := h.cnt
        omega

/-- `putIntoCache` of a cactus for a value that is not cached. -/
theorem putIntoCache_spec {d : State} (h : CacheInv d) {C : MGraph} {c : Nat} (hnc : ¬ Cached d c) (hc : 0 < c) (hcb : c < undefinedEdge)
    (hC : Shape C d.orig.n)
    (hs : ∀ X, ProperCut C.n X → c ≤ gcut C X ∧ (gcut C X = c → ProperCut d.orig.n (inside C X) ∧ gcut d.orig (inside C X) ≤ c)) :
    CacheInv (putIntoCache d C c) := by
  have hcm : ∀ m, Cached (putIntoCache d C c) m ↔ m = c ∨ Cached d m := by
    intro m
    unfold Cached putIntoCache
    dsimp only
    by_cases e : m = c
    · subst e; simp
    · rw [Function.update_of_ne e]
      simp only [Bool.and_eq_true, decide_eq_true_eq]
      constructor
      · rintro ⟨_, h2, h3⟩; exact Or.inr ⟨h2, h3⟩
      · rintro (h | ⟨h2, h3⟩)
        · exact absurd h e
        · exact ⟨by omega, h2, h3⟩
  have hins : ∀ m, Cached d m → (putIntoCache d C c).inserts m = d.inserts m := by
    intro m hm
    have e : m ≠ c := by rintro rfl; exact hnc hm
    unfold putIntoCache
    dsimp only
    rw [Function.update_of_ne e, if_pos hm.1]
  have hinc : (putIntoCache d C c).inserts c = [] := by
    unfold putIntoCache
    dsimp only
    rw [Function.update_self]
  have hlow : (putIntoCache d C c).lowest = if c < d.lowest then c else d.lowest := rfl
  refine ⟨?_, ?_, ?_, ?_, ?_⟩
  · show d.numCached + 1 = _
    have hp : ((List.range (putIntoCache d C c).size).filter (putIntoCache d C c).caching).Perm (c :: (List.range d.size).filter d.caching) := by
      refine (List.perm_ext_iff_of_nodup (List.nodup_range.filter _) ?_).2 ?_
      · refine List.nodup_cons.2 ⟨?_, List.nodup_range.filter _⟩
        intro hm
        exact hnc ⟨List.mem_range.1 (List.mem_filter.1 hm).1, (List.mem_filter.1 hm).2⟩
      · intro m
        rw [List.mem_filter, List.mem_range, List.mem_cons, List.mem_filter, List.mem_range]
        exact hcm m
    rw [hp.length_eq, List.length_cons, h.cnt]
  · intro h0
    exact absurd h0 (Nat.succ_ne_zero _)
  · intro _
    rw [hlow]
    by_cases h0 : d.numCached = 0
    · rw [h.low0 h0, if_pos hcb]
      refine ⟨(hcm c).2 (Or.inl rfl), fun m hm => ?_⟩
      rcases (hcm m).1 hm with rfl | hm
      · exact le_refl _
      · exact absurd hm (not_cached_of h.cnt h0 m)
    · obtain ⟨a, b⟩ := h.low h0
      by_cases hlt : c < d.lowest
      · rw [if_pos hlt]
        refine ⟨(hcm c).2 (Or.inl rfl), fun m hm => ?_⟩
        rcases (hcm m).1 hm with rfl | hm
        · exact le_refl _
        · have := b m hm; omega
      · rw [if_neg hlt]
        refine ⟨(hcm _).2 (Or.inr a), fun m hm => ?_⟩
        rcases (hcm m).1 hm with rfl | hm
        · omega
        · exact b m hm
  · intro m hm
    by_cases e : m = c
    · subst e
      have hat : (putIntoCache d C m).cactusAt m = C := by
        unfold putIntoCache; dsimp only; rw [Function.update_self]
      refine ⟨hc, by rw [hat]; exact hC, ?_⟩
      intro X hX
      rw [hat] at hX ⊢
      obtain ⟨a, b⟩ := hs X hX
      exact ⟨a, fun e => ⟨(b e).1, fun _ => (b e).2⟩⟩
    · have hm' := ((hcm m).1 hm).resolve_left e
      refine (h.ent m hm').mono ?_ rfl ?_
      · unfold putIntoCache; dsimp only; rw [Function.update_of_ne e]
      · intro S hS
        refine ⟨?_, le_refl _⟩
        intro m1 h1 h2 x hx
        exact hS m1 h1 ((hcm m1).2 (Or.inr h2)) x (by rw [hins m1 h2]; exact hx)
  · intro m hm x hx
    rcases (hcm m).1 hm with rfl | hm'
    · rw [hinc] at hx; cases hx
    · rw [hins m hm'] at hx
      exact h.args m hm' x hx

/-- The insertions are replayed: the ends of each are in the same vertex afterwards. -/
theorem replay_spec {E : Env} (hord : ∀ l, (E.ord l).Perm l) {n : Nat} (cut : Nat) : ∀ (L : List (Nat × Nat × Nat)) (C C' : MGraph), Shape C n →
    (∀ X, ProperCut C.n X → 0 < gcut C X) → (∀ e ∈ L, e.1 < n ∧ e.2.1 < n) → replay E cut C L = some C' →
    Shape C' n ∧ ∀ X, ProperCut C'.n X → ∃ Y, ProperCut C.n Y ∧ gcut C Y = gcut C' X ∧ (∀ v, v < n → inside C Y v = inside C' X v) ∧
      ∀ e ∈ L, inside C Y e.1 = inside C Y e.2.1
  | [], C, C', hC, hconn, _, h => by
    simp only [replay, Option.some.injEq] at h
    subst h
    exact ⟨hC, fun X hX => ⟨X, hX, rfl, fun _ _ => rfl, by simp⟩⟩
  | x :: xs, C, C', hC, hconn, ha, h => by
    unfold replay at h
    obtain ⟨hx1, hx2⟩ := ha x List.mem_cons_self
    have ha' : ∀ e ∈ xs, e.1 < n ∧ e.2.1 < n := fun e he => ha e (List.mem_cons_of_mem _ he)
    by_cases hp : C.pos x.1 ≠ C.pos x.2.1
    · rw [if_pos hp] at h
      dsimp only at h
      obtain ⟨p1, p2, p3, p4⟩ := findPath_spec hC.consistent (hC.pos_lt hx1) (hC.pos_lt hx2) hp cut hconn
      generalize hP : findPath C (C.pos x.1) (C.pos x.2.1) cut = P at *
      by_cases hl : P.length = C.n
      · rw [if_pos hl] at h; cases h
      rw [if_neg hl] at h
      have hperm := hord P
      have q1 := hperm.nodup_iff.2 p1
      have q2 : ∀ v ∈ E.ord P, v < C.n := fun v hv => p2 v (hperm.mem_iff.1 hv)
      obtain ⟨φ, hM⟩ := contractSet_merged hC.consistent hC.simple hC.located q1 q2
      have hC1 := hM.shape hC q1 q2 (by rw [hperm.length_eq]; exact hl)
      obtain ⟨i1, i2⟩ := replay_spec hord cut xs _ C' hC1 (fun X hX => by
        show 0 < cutValue _ _ _
        rw [hM.cut]; exact hconn _ (hM.proper hX)) ha' h
      refine ⟨i1, fun X hX => ?_⟩
      obtain ⟨Y, j1, j2, j3, j4⟩ := i2 X hX
      have hin : ∀ v, v < n → inside C (fun u => Y (φ u)) v = inside (contractSet C (E.ord P)) Y v := fun v hv =>
        (hM.inside Y (by rw [hC.size]; exact hv)).symm
      refine ⟨fun u => Y (φ u), hM.proper j1, ?_, ?_, ?_⟩
      · rw [← j2]
        exact (hM.cut Y).symm
      · intro v hv
        rw [hin v hv, j3 v hv]
      · intro e he
        rcases List.mem_cons.1 he with rfl | he
        · have : φ (C.pos e.1) = φ (C.pos e.2.1) :=
            (hM.ker _ _ (hC.pos_lt hx1) (hC.pos_lt hx2)).2 (Or.inr ⟨hperm.mem_iff.2 p3, hperm.mem_iff.2 p4⟩)
          show Y (φ (C.pos e.1)) = Y (φ (C.pos e.2.1))
          rw [this]
        · rw [hin _ (ha' e he).1, hin _ (ha' e he).2]
          exact j4 e he
    · rw [if_neg hp] at h
      obtain ⟨i1, i2⟩ := replay_spec hord cut xs C C' hC hconn ha' h
      refine ⟨i1, fun X hX => ?_⟩
      obtain ⟨Y, j1, j2, j3, j4⟩ := i2 X hX
      refine ⟨Y, j1, j2, j3, ?_⟩
      intro e he
      rcases List.mem_cons.1 he with rfl | he
      · unfold Dyn.inside; rw [not_not.1 hp]
      · exact j4 e he

/-- The smallest value is removed from the cache. -/
theorem dropFromCache_spec {d : State} (h : CacheInv d) (h0 : d.numCached ≠ 0) :
    ∃ d', dropFromCache d d.lowest = some d' ∧ CacheInv d' ∧ d'.orig = d.orig ∧ d'.cactus = d.cactus ∧ d'.cut = d.cut := by
  obtain ⟨hl1, hl2⟩ := h.low h0
  generalize hm : d.lowest = m at *
  unfold dropFromCache
  dsimp only
  -- the values still cached
  have hcm : ∀ i, (i < d.size ∧ Function.update d.caching m false i = true) ↔ i ≠ m ∧ Cached d i := by
    intro i
    unfold Cached
    by_cases e : i = m
    · subst e; simp
    · rw [Function.update_of_ne e]; tauto
  have hcnt : d.numCached - 1 = ((List.range d.size).filter (Function.update d.caching m false)).length := by
    have hp : ((List.range d.size).filter d.caching).Perm (m :: (List.range d.size).filter (Function.update d.caching m false)) := by
      refine (List.perm_ext_iff_of_nodup (List.nodup_range.filter _) ?_).2 ?_
      · refine List.nodup_cons.2 ⟨?_, List.nodup_range.filter _⟩
        intro hm
        simpa using (List.mem_filter.1 hm).2
      · intro i
        rw [List.mem_cons, List.mem_filter, List.mem_filter, List.mem_range, hcm i]
        constructor
        · intro hi
          by_cases e : i = m
          · exact Or.inl e
          · exact Or.inr ⟨e, hi⟩
        · rintro (rfl | hi)
          · exact hl1
          · exact hi.2
    rw [h.cnt, hp.length_eq, List.length_cons]
    omega
  by_cases h1 : d.numCached - 1 = 0
  · rw [if_pos h1]
    refine ⟨_, rfl, CacheInv.empty h1 rfl ?_, rfl, rfl, rfl⟩
    rintro i ⟨a, b⟩
    dsimp only at a b
    rw [h1] at hcnt
    have := List.length_eq_zero_iff.1 hcnt.symm
    have hi : i ∈ (List.range d.size).filter (Function.update d.caching m false) := List.mem_filter.2 ⟨List.mem_range.2 a, b⟩
    rw [this] at hi
    cases hi
  rw [if_neg h1]
  -- the next value
  obtain ⟨low, hlow, hlc, hlm, hlmin⟩ : ∃ low, nextCached { d with numCached := d.numCached - 1, caching := Function.update d.caching m false } m = some low ∧
      Cached d low ∧ m < low ∧ ∀ i, i ≠ m → Cached d i → low ≤ i := by
    unfold nextCached
    dsimp only
    cases hf : (List.range d.size).find? (fun i => decide (m < i) && Function.update d.caching m false i) with
    | none =>
      exfalso
      have hno := List.find?_eq_none.1 hf
      obtain ⟨i, hi⟩ := List.exists_mem_of_length_pos (l := (List.range d.size).filter (Function.update d.caching m false)) (by omega)
      have hi' := List.mem_filter.1 hi
      have hi1 := (hcm i).1 ⟨List.mem_range.1 hi'.1, hi'.2⟩
      have := hl2 i hi1.2
      refine hno i hi'.1 ?_
      simp only [Bool.and_eq_true, decide_eq_true_eq]
      exact ⟨by omega, hi'.2⟩
    | some low =>
      have hmem := List.mem_range.1 (List.mem_of_find?_eq_some hf)
      have hp := List.find?_some hf
      simp only [Bool.and_eq_true, decide_eq_true_eq] at hp
      refine ⟨low, rfl, ((hcm low).1 ⟨hmem, hp.2⟩).2, hp.1, ?_⟩
      intro i hi hci
      by_contra hlt
      have hil : i < low := by omega
      obtain ⟨_, as, bs, hab, hbefore⟩ := List.find?_eq_some_iff_append.1 hf
      have hia : i ∈ as := by
        have hsorted : (as ++ low :: bs).Pairwise (· < ·) := by rw [← hab]; exact List.pairwise_lt_range
        have him : i ∈ as ++ low :: bs := by rw [← hab]; exact List.mem_range.2 hci.1
        rcases List.mem_append.1 him with h | h
        · exact h
        · exfalso
          rcases List.mem_cons.1 h with rfl | h
          · omega
          · have := (List.pairwise_cons.1 (List.pairwise_append.1 hsorted).2.1).1 i h
            omega
      have := hbefore i hia
      have hmi := hl2 i hci
      simp only [Bool.not_eq_true', Bool.and_eq_false_iff, decide_eq_false_iff_not] at this
      rcases this with h | h
      · omega
      · have := ((hcm i).2 ⟨hi, hci⟩).2
        rw [h] at this; cases this
  rw [hlow]
  dsimp only [Option.getD_some]
  rw [if_neg (Nat.not_le.2 hlc.1)]
  by_cases h2 : (d.inserts m).length + (d.inserts low).length > maxCache
  · rw [if_pos h2]
    refine ⟨_, rfl, CacheInv.empty rfl rfl ?_, rfl, rfl, rfl⟩
    rintro i ⟨a, b⟩
    dsimp only at a b
    simp only [Bool.and_eq_true, decide_eq_true_eq] at b
    have := (hcm i).1 ⟨lt_of_lt_of_le a hl1.1, b.2⟩
    have := hl2 i this.2
    omega
  rw [if_neg h2, if_neg (by omega)]
  refine ⟨_, rfl, ⟨hcnt, fun h0 => absurd h0 h1, ?_, ?_, ?_⟩, rfl, rfl, rfl⟩
  · intro _
    exact ⟨(hcm low).2 ⟨by omega, hlc⟩, fun i hi => hlmin i ((hcm i).1 hi).1 ((hcm i).1 hi).2⟩
  · intro i hi
    have hi' := (hcm i).1 hi
    refine (h.ent i hi'.2).mono rfl rfl ?_
    intro S hS
    refine ⟨?_, le_refl _⟩
    intro j hj hjc e he
    dsimp only at hS
    by_cases ej : j = m
    · subst ej
      refine hS low (hlmin i hi'.1 hi'.2) ((hcm low).2 ⟨by omega, hlc⟩) e ?_
      rw [Function.update_self]
      exact List.mem_append_right _ he
    · refine hS j hj ((hcm j).2 ⟨ej, hjc⟩) e ?_
      by_cases ejl : j = low
      · subst ejl
        rw [Function.update_self]
        exact List.mem_append_left _ he
      · rw [Function.update_of_ne ejl]; exact he
  · intro i hi e he
    have hi' := (hcm i).1 hi
    dsimp only at he ⊢
    by_cases eil : i = low
    · subst eil
      rw [Function.update_self] at he
      rcases List.mem_append.1 he with he | he
      · exact h.args _ hi'.2 e he
      · exact h.args m hl1 e he
    · rw [Function.update_of_ne eil] at he
      exact h.args i hi'.2 e he

/-- A cut and its complement. -/
theorem gcut_compl {g : MGraph} (h : g.Consistent) (S : Nat → Bool) : gcut g (fun v => !S v) = gcut g S :=
  cutValue_compl ((consistent_iff.1 h).wf.wt_symm) S

theorem IsMinCut.lt_undefined {g : MGraph} (h : Input g) {c : Nat} (hc : IsMinCut g.n g.toGraph.wt c) : c < undefinedEdge := by
  obtain ⟨⟨S, _, e⟩, _⟩ := hc
  have := cutValue_le_total h.wf S
  rw [toGraph_n] at this
  have := h.fits
  unfold undefinedEdge
  omega

/-- Everything is computed anew. -/
theorem fresh_inv {E : Env} (hE : E.Spec) {d : State} (hi : Input d.orig) (hc : CacheInv d) {k : Nat}
    (hk : k = undefinedNode ∨ IsMinCut d.orig.n d.orig.toGraph.wt k) (j : Nat) :
    Inv { d with cactus := (E.findAll d.orig k).2, cut := (E.findAll d.orig k).1, calls := j } := by
  obtain ⟨h1, h2⟩ := hE.findAll d.orig k hi hk
  exact ⟨hi, h1, h2.shape, h2.sound, hc.of_eq rfl rfl rfl rfl rfl rfl rfl⟩

theorem recompute_spec {E : Env} (hE : E.Spec) {d : State} (hi : Input d.orig) (hc : CacheInv d) :
    ∃ d', recompute E d = some d' ∧ Inv d' ∧ d'.orig = d.orig := by
  unfold recompute
  dsimp only
  by_cases hl : d.lowest = undefinedEdge
  · rw [if_neg (show ¬ d.lowest ≠ undefinedEdge from not_not.2 hl), if_neg (by rw [hl]; simp [undefinedNode, undefinedEdge])]
    exact ⟨_, rfl, fresh_inv hE hi hc (Or.inl rfl) _, rfl⟩
  rw [if_pos hl]
  have hmin := hE.noi d.orig hi
  by_cases hm : E.noi d.orig = d.lowest ∧ 2 * d.size < (d.cactusAt (E.noi d.orig)).n
  · rw [if_pos hm]
    obtain ⟨hm, _⟩ := hm
    have h0 : d.numCached ≠ 0 := fun h0 => hl (hc.low0 h0)
    obtain ⟨hl1, hl2⟩ := hc.low h0
    obtain ⟨d', e1, e2, e3, e4, e5⟩ := dropFromCache_spec hc h0
    unfold buildFromCache
    rw [hm, e1, Option.map_some]
    rw [hm] at hmin
    refine ⟨_, rfl, ?_⟩
    have hent := hc.ent _ hl1
    cases hr : replay E d.cut (d.cactusAt d.lowest) (d.inserts d.lowest) with
    | none =>
      dsimp only
      rw [← e3]
      exact ⟨fresh_inv hE (by rw [e3]; exact hi) e2 (Or.inl rfl) _, rfl⟩
    | some C =>
      dsimp only
      obtain ⟨r1, r2⟩ := replay_spec hE.ord d.cut _ _ C hent.shape (fun X hX => lt_of_lt_of_le hent.pos (hent.sound X hX).1)
        (hc.args _ hl1) hr
      refine ⟨⟨by rw [e3]; exact hi, by rw [e3]; exact hmin, by rw [e3]; exact r1, ?_, e2.of_eq rfl rfl rfl rfl rfl rfl rfl⟩, e3⟩
      dsimp only
      rw [e3]
      intro X hX
      obtain ⟨Y, y1, y2, y3, y4⟩ := r2 X hX
      obtain ⟨z1, z2⟩ := hent.sound Y y1
      refine ⟨by show d.lowest ≤ gcut C X; rw [← y2]; exact z1, fun e => ?_⟩
      obtain ⟨z3, z4⟩ := z2 (by rw [y2]; exact e)
      have z5 := z4 (by
        intro m' hm' hc' x hx
        have : m' = d.lowest := le_antisymm hm' (hl2 m' hc')
        subst this
        exact y4 x hx)
      have hp : ProperCut d.orig.n (inside C X) := z3.congr y3
      have he : cutValue d.orig.n d.orig.toGraph.wt (inside C X) = gcut d.orig (inside (d.cactusAt d.lowest) Y) :=
        (cutValue_congr y3).symm
      refine ⟨hp, le_antisymm ?_ (hmin.2 _ hp)⟩
      rw [he]; exact z5
  · rw [if_neg hm]
    exact ⟨_, rfl, fresh_inv hE hi hc (Or.inr hmin) _, rfl⟩

/-- The cactus after an insertion between `s` and `t`, when the vertices containing them were merged. -/
theorem merged_inv {d d' : State} (h : Inv d) (hi : Input d'.orig) (hc : CacheInv d') (hcut : d'.cut = d.cut) (hn : d'.orig.n = d.orig.n)
    {s t w : Nat} (hs : s < d.orig.n) (ht : t < d.orig.n)
    (hadd : ∀ S, gcut d'.orig S = gcut d.orig S + if S s = S t then 0 else w)
    {P : List Nat} {φ : Nat → Nat} (hM : Merged d.cactus d'.cactus P φ) (hC : Shape d'.cactus d.orig.n)
    (hst : φ (d.cactus.pos s) = φ (d.cactus.pos t)) (hsep : Separating d'.cactus d'.cut) : Inv d' := by
  have hso : Sound d'.orig d'.cactus d'.cut := by
    intro X hX
    have hX' := hM.proper hX
    obtain ⟨a, b⟩ := h.sound _ hX'
    rw [← hM.cut, ← hcut] at a
    refine ⟨a, fun e => ?_⟩
    rw [hM.cut, hcut] at e
    obtain ⟨b1, b2⟩ := b e
    have hcong : ∀ v, v < d.orig.n → inside d.cactus (fun u => X (φ u)) v = inside d'.cactus X v := fun v hv =>
      (hM.inside X (by rw [h.shape.size]; exact hv)).symm
    have hp := b1.congr hcong
    refine ⟨by rw [hn]; exact hp, ?_⟩
    show gcut d'.orig _ = _
    have hin : inside d'.cactus X s = inside d'.cactus X t := by
      rw [← hcong s hs, ← hcong t ht]
      show X (φ (d.cactus.pos s)) = X (φ (d.cactus.pos t))
      rw [hst]
    rw [hadd, if_pos hin, hcut, ← b2, Nat.add_zero]
    exact (cutValue_congr hcong).symm
  refine ⟨hi, ⟨?_, ?_⟩, by rw [hn]; exact hC, hso, hc⟩
  · have h2 := hC.two
    obtain ⟨X, x1, x2, x3⟩ := hsep 0 1 (by omega) (by omega) (by omega)
    exact ⟨_, (hso X ⟨⟨0, by omega, x1⟩, ⟨1, by omega, x2⟩⟩).2 x3⟩
  · intro S hS
    have h1 := h.min.2 S (by rw [← hn]; exact hS)
    show d'.cut ≤ gcut d'.orig S
    rw [hadd, hcut]
    exact le_trans h1 (Nat.le_add_right _ _)

/-- `addEdge`. -/
theorem addEdge_spec {E : Env} (hE : E.Spec) {d : State} (h : Inv d) {s t : Nat} (hs : s < d.orig.n) (ht : t < d.orig.n) (w : Nat)
    (hf : (d.orig.newEdgeOrder s t w).toGraph.totalWeight < 2 ^ 63) :
    ∃ d', addEdge E d s t w = some d' ∧ d'.orig = d.orig.newEdgeOrder s t w ∧ (Separating d'.cactus d'.cut → Inv d') := by
  obtain ⟨a1, a2, a3⟩ := add_spec h.input hs ht w hf
  obtain ⟨d1, e1, e2, e3, e4, e5⟩ := cacheEdge_spec h.cache a2 hs ht a3
  unfold addEdge
  dsimp only
  rw [e1, Option.bind_some]
  have hx := h.shape.pos_lt hs
  have hy := h.shape.pos_lt ht
  have hadd : ∀ S, gcut d1.orig S = gcut d.orig S + if S s = S t then 0 else w := by rw [e3]; exact a3
  by_cases hp : d.cactus.pos s = d.cactus.pos t
  · rw [if_pos hp]
    refine ⟨d1, rfl, e3, fun hsep => ?_⟩
    refine merged_inv h (by rw [e3]; exact a1) e2 e5 (by rw [e3, a2]) hs ht hadd (P := []) (φ := id) ?_ (by rw [e4]; exact h.shape) hp hsep
    rw [e4]
    exact Merged.refl h.shape.consistent h.shape.simple h.shape.located (by simp)
  rw [if_neg hp]
  have hre : ∃ d', recompute E d1 = some d' ∧ d'.orig = d.orig.newEdgeOrder s t w ∧ (Separating d'.cactus d'.cut → Inv d') := by
    obtain ⟨d', r1, r2, r3⟩ := recompute_spec hE (d := d1) (by rw [e3]; exact a1) e2
    exact ⟨d', r1, r3.trans e3, fun _ => r2⟩
  by_cases h0 : d1.cut = 0
  · rw [if_pos h0]
    by_cases h2 : d1.cactus.n = 2
    · rw [if_pos h2]; exact hre
    rw [if_neg h2]
    have hperm := hE.ord [d.cactus.pos s, d.cactus.pos t]
    have q1 := hperm.nodup_iff.2 (by simpa using hp)
    have q2 : ∀ v ∈ E.ord [d.cactus.pos s, d.cactus.pos t], v < d.cactus.n := by
      intro v hv
      have := hperm.mem_iff.1 hv
      simp only [List.mem_cons, List.not_mem_nil, or_false] at this
      rcases this with rfl | rfl <;> assumption
    rw [e4] at h2 ⊢
    obtain ⟨φ, hM⟩ := Merged.of_op h.shape.consistent h.shape.simple h.shape.located
      (.contractVertexSet (E.ord [d.cactus.pos s, d.cactus.pos t])) q1 rfl
    refine ⟨_, rfl, e3, fun hsep => ?_⟩
    refine merged_inv h (by rw [e3]; exact a1) (e2.of_eq rfl rfl rfl rfl rfl rfl rfl) e5 (by dsimp only; rw [e3, a2]) hs ht hadd hM ?_ ?_ hsep
    · exact hM.shape h.shape q1 q2 (by rw [hperm.length_eq]; simpa using Ne.symm h2)
    · exact (hM.ker _ _ hx hy).2 (Or.inr ⟨hperm.mem_iff.2 (by simp), hperm.mem_iff.2 (by simp)⟩)
  · rw [if_neg h0]
    have hpos : 0 < d.cut := by rw [← e5]; omega
    obtain ⟨p1, p2, p3, p4⟩ := findPath_spec h.shape.consistent hx hy hp d.cut
      (fun X hX => lt_of_lt_of_le hpos (h.sound X hX).1)
    rw [e4, e5]
    generalize hP : findPath d.cactus (d.cactus.pos s) (d.cactus.pos t) d.cut = P at *
    by_cases h2 : P.length = d.cactus.n
    · rw [if_pos h2]; exact hre
    rw [if_neg h2]
    have hperm := hE.ord P
    have q1 := hperm.nodup_iff.2 p1
    have q2 : ∀ v ∈ E.ord P, v < d.cactus.n := fun v hv => p2 v (hperm.mem_iff.1 hv)
    obtain ⟨φ, hM⟩ := contractSet_merged h.shape.consistent h.shape.simple h.shape.located q1 q2
    refine ⟨_, rfl, e3, fun hsep => ?_⟩
    refine merged_inv h (by rw [e3]; exact a1) (e2.of_eq rfl rfl rfl rfl rfl rfl rfl) rfl (by dsimp only; rw [e3, a2])
      hs ht hadd hM ?_ ?_ hsep
    · exact hM.shape h.shape q1 q2 (by rw [hperm.length_eq]; exact h2)
    · exact (hM.ker _ _ hx hy).2 (Or.inr ⟨hperm.mem_iff.2 p3, hperm.mem_iff.2 p4⟩)

/-- A cut between the ends of a deleted edge that is smaller than the old minimum cut is the new minimum cut. -/
theorem new_minimum {g g' : MGraph} (hg' : g'.Consistent) {s t w c f : Nat} (hmin : ∀ S, ProperCut g.n S → c ≤ gcut g S)
    (hn : g'.n = g.n) (hs : s < g.n) (ht : t < g.n) (hdel : ∀ S, gcut g S = gcut g' S + if S s = S t then 0 else w) (hf : f < c)
    (hst : IsSTCut g' s t f) :
    IsMinCut g'.n g'.toGraph.wt f ∧ ∀ S, ProperCut g'.n S → cutValue g'.n g'.toGraph.wt S = f → S s ≠ S t := by
  obtain ⟨⟨S0, x1, x2, x3⟩, hall⟩ := hst
  have hno : ∀ S, ProperCut g'.n S → S s = S t → c ≤ gcut g' S := by
    intro S hS e
    have h1 := hmin S (by rw [← hn]; exact hS)
    rw [hdel S, if_pos e] at h1
    exact h1
  refine ⟨⟨⟨S0, ⟨⟨s, by omega, x1⟩, ⟨t, by omega, x2⟩⟩, x3⟩, ?_⟩, ?_⟩
  · intro S hS
    by_cases e : S s = S t
    · have := hno S hS e
      show f ≤ gcut g' S
      omega
    · cases h1 : S s with
      | true => exact hall S h1 (by rw [h1] at e; simpa using Ne.symm e)
      | false =>
        have h2 : S t = true := by rw [h1] at e; simpa using Ne.symm e
        have := hall (fun v => !S v) (by simp [h1]) (by simp [h2])
        have hc := gcut_compl hg' S
        show f ≤ gcut g' S
        rw [← hc]; exact this
  · intro S hS e es
    have := hno S hS es
    have e' : gcut g' S = f := e
    omega

/-- The minimum cut does not change if no cut between the ends becomes smaller. -/
theorem same_minimum {d : State} (h : Inv d) {g' : MGraph} (hi : Input g') {s t w : Nat} (hn : g'.n = d.orig.n)
    (hs : s < d.orig.n) (ht : t < d.orig.n)
    (hdel : ∀ S, gcut d.orig S = gcut g' S + if S s = S t then 0 else w) (hsep : Separating d.cactus d.cut)
    (hge : ∀ S, ProperCut d.orig.n S → S s ≠ S t → d.cut ≤ gcut g' S) :
    Inv { d with orig := g' } := by
  have hle : ∀ S, gcut g' S ≤ gcut d.orig S := fun S => by rw [hdel S]; exact Nat.le_add_right _ _
  have hlow : ∀ S, ProperCut d.orig.n S → d.cut ≤ gcut g' S := by
    intro S hS
    by_cases e : S s = S t
    · have := h.min.2 S hS
      have e2 := hdel S
      rw [if_pos e] at e2
      show d.cut ≤ gcut g' S
      rw [Nat.add_zero] at e2
      rw [← e2]; exact this
    · exact hge S hS e
  have hso : Sound g' d.cactus d.cut := by
    intro X hX
    obtain ⟨a, b⟩ := h.sound X hX
    refine ⟨a, fun e => ?_⟩
    obtain ⟨b1, b2⟩ := b e
    refine ⟨by rw [hn]; exact b1, le_antisymm (le_trans (hle _) (le_of_eq b2)) (hlow _ b1)⟩
  refine ⟨hi, ⟨?_, ?_⟩, by dsimp only; rw [hn]; exact h.shape, hso, h.cache.shrink hn hle⟩
  · have h2 := h.shape.two
    obtain ⟨X, x1, x2, x3⟩ := hsep 0 1 (by omega) (by omega) (by omega)
    exact ⟨_, (hso X ⟨⟨0, by omega, x1⟩, ⟨1, by omega, x2⟩⟩).2 x3⟩
  · intro S hS
    exact hlow S (by rw [← hn]; exact hS)

/-- `removeEdge`. -/
theorem removeEdge_spec {E : Env} (hE : E.Spec) {d : State} (h : Inv d) {s t : Nat} (hs : s < d.orig.n)
    (hsep : Separating d.cactus d.cut) (hre : ¬ Reputs E d (.remove s t)) :
    Inv (removeEdge E d s t) ∧
    (removeEdge E d s t).orig = (match edgeTo d.orig s t with | none => d.orig | some e => d.orig.deleteEdge s e) := by
  have hre : ¬ ((removeEdge E d s t).numCached ≠ d.numCached ∧ d.cut < d.size ∧ d.caching d.cut = true) := hre
  unfold removeEdge at hre ⊢
  cases he : edgeTo d.orig s t with
  | none => exact ⟨h, rfl⟩
  | some e =>
    rw [he] at hre
    obtain ⟨hst, ht, hi, hn, hdel⟩ := delete_spec h.input hs he
    dsimp only at hre ⊢
    have hle : ∀ S, gcut (d.orig.deleteEdge s e) S ≤ gcut d.orig S := fun S => by rw [hdel S]; exact Nat.le_add_right _ _
    by_cases hw : (d.orig.edge s e).weight = 0
    · rw [if_pos hw]
      refine ⟨same_minimum h hi hn hs ht hdel hsep ?_, rfl⟩
      intro S hS _
      have h1 : d.cut ≤ gcut d.orig S := h.min.2 S hS
      rw [hdel S, hw] at h1
      simpa using h1
    rw [if_neg hw] at hre ⊢
    by_cases h0 : d.cut = 0
    · rw [if_pos h0]
      exact ⟨same_minimum h hi hn hs ht hdel hsep (fun S _ _ => by rw [h0]; exact Nat.zero_le _), rfl⟩
    rw [if_neg h0] at hre ⊢
    have hpos : 0 < d.cut := Nat.pos_of_ne_zero h0
    have hflow := hE.flow (d.orig.deleteEdge s e) s t d.cut hi (by rw [hn]; exact hs) (by rw [hn]; exact ht) hst
    -- the cactus goes into the cache
    have hput : ¬ Cached d d.cut → CacheInv (putIntoCache { d with orig := d.orig.deleteEdge s e } d.cactus d.cut) := by
      intro hnc
      refine putIntoCache_spec (h.cache.shrink hn hle) hnc hpos (IsMinCut.lt_undefined h.input h.min) (by dsimp only; rw [hn]; exact h.shape) ?_
      intro X hX
      obtain ⟨a, b⟩ := h.sound X hX
      refine ⟨a, fun e => ?_⟩
      obtain ⟨b1, b2⟩ := b e
      exact ⟨by dsimp only; rw [hn]; exact b1, le_trans (hle _) (le_of_eq b2)⟩
    have hnew : E.flow (d.orig.deleteEdge s e) s t d.cut < d.cut → IsSTCut (d.orig.deleteEdge s e) s t (E.flow (d.orig.deleteEdge s e) s t d.cut) →
        ¬ Cached d d.cut → Inv { putIntoCache { d with orig := d.orig.deleteEdge s e } d.cactus d.cut with
          cut := E.flow (d.orig.deleteEdge s e) s t d.cut,
          cactus := E.rebuild (d.orig.deleteEdge s e) s t (E.flow (d.orig.deleteEdge s e) s t d.cut) } := by
      intro hlt hstc hnc
      obtain ⟨m1, m2⟩ := new_minimum hi.consistent h.min.2 hn hs ht hdel hlt hstc
      have hr := hE.rebuild _ s t _ hi (by rw [hn]; exact hs) (by rw [hn]; exact ht) m1 m2
      exact ⟨hi, m1, hr.shape, hr.sound, (hput hnc).of_eq rfl rfl rfl rfl rfl rfl rfl⟩
    by_cases hp : d.cactus.pos s ≠ d.cactus.pos t
    · rw [if_pos hp] at hre ⊢
      obtain ⟨X, x1, x2, x3⟩ := hsep _ _ (h.shape.pos_lt hs) (h.shape.pos_lt ht) hp
      have hX : ProperCut d.cactus.n X := ⟨⟨_, h.shape.pos_lt hs, x1⟩, ⟨_, h.shape.pos_lt ht, x2⟩⟩
      obtain ⟨b1, b2⟩ := (h.sound X hX).2 x3
      have hS : gcut (d.orig.deleteEdge s e) (inside d.cactus X) < d.cut := by
        have e1 := hdel (inside d.cactus X)
        rw [if_neg (by unfold inside; rw [x1, x2]; simp)] at e1
        have e2 : gcut d.orig (inside d.cactus X) = d.cut := b2
        omega
      have hstc : IsSTCut (d.orig.deleteEdge s e) s t (E.flow (d.orig.deleteEdge s e) s t d.cut) := by
        rcases hflow with hf | ⟨_, hf⟩
        · exact hf
        · have := hf (inside d.cactus X) x1 x2
          exact absurd this (Nat.not_le.2 hS)
      have hlt : E.flow (d.orig.deleteEdge s e) s t d.cut < d.cut := lt_of_le_of_lt (hstc.2 _ x1 x2) hS
      refine ⟨hnew hlt hstc ?_, rfl⟩
      rintro ⟨c1, c2⟩
      exact hre ⟨Nat.succ_ne_self _, c1, c2⟩
    · rw [if_neg hp] at hre ⊢
      have hp := not_not.1 hp
      by_cases hlt : E.flow (d.orig.deleteEdge s e) s t d.cut < d.cut
      · rw [if_pos hlt] at hre ⊢
        have hstc : IsSTCut (d.orig.deleteEdge s e) s t (E.flow (d.orig.deleteEdge s e) s t d.cut) := by
          rcases hflow with hf | ⟨hf, _⟩
          · exact hf
          · omega
        refine ⟨hnew hlt hstc ?_, rfl⟩
        rintro ⟨c1, c2⟩
        exact hre ⟨Nat.succ_ne_self _, c1, c2⟩
      · rw [if_neg hlt]
        refine ⟨same_minimum h hi hn hs ht hdel hsep ?_, rfl⟩
        intro S hS hne
        have hall : ∀ S : Nat → Bool, S s = true → S t = false → d.cut ≤ gcut (d.orig.deleteEdge s e) S := by
          intro S a b
          rcases hflow with hf | ⟨_, hf⟩
          · exact le_trans (Nat.not_lt.1 hlt) (hf.2 S a b)
          · exact hf S a b
        cases h1 : S s with
        | true => exact hall S h1 (by rw [h1] at hne; simpa using Ne.symm hne)
        | false =>
          have h2 : S t = true := by rw [h1] at hne; simpa using Ne.symm hne
          rw [← gcut_compl hi.consistent S]
          exact hall _ (by simp [h1]) (by simp [h2])

theorem init_inv {E : Env} (hE : E.Spec) {g : MGraph} (hg : Input g) : Inv (init E g) ∧ Separating (init E g).cactus (init E g).cut := by
  obtain ⟨h1, h2⟩ := hE.findAll g undefinedNode hg (Or.inl rfl)
  exact ⟨⟨hg, h1, h2.shape, h2.sound, CacheInv.empty rfl rfl fun m hm => absurd hm.1 (Nat.not_lt_zero _)⟩, h2.separating⟩

end Dyn
end VieCut
