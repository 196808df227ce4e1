import Verif.Model.Tools
import Verif.Spec.Walk
import Verif.Proof.Cut

namespace VieCut
open Function

/-- Facts that hold at every point of the search, also after the early return. -/
structure BCore (G : Graph) (start : Nat) (s : BFS) : Prop where
  sound : ∀ v, s.disc v = true → Walk G start v (s.dist v)
  exact : ∀ v, s.disc v = true → ∀ k, Walk G start v k → s.dist v ≤ k
  par : ∀ v, s.disc v = true → v ≠ start →
    ∃ p, s.parent v = some p ∧ s.disc p = true ∧ v ∈ (G.edges p).map (·.1) ∧ s.dist v = s.dist p + 1
  undisc : ∀ v, s.disc v = false → s.parent v = none ∧ s.dist v = 0
  st : s.disc start = true ∧ s.parent start = none ∧ s.dist start = 0
  lt : ∀ v, s.disc v = true → v < G.n
  count : s.vtcs = ((List.range G.n).filter s.disc).length

/-- State inside the loop over the edges of `top`, before an early return. -/
structure BInner (G : Graph) (start top : Nat) (s : BFS) : Prop where
  core : BCore G start s
  topd : s.disc top = true
  topq : top ∉ s.queue
  near : ∀ v k, Walk G start v k → k ≤ s.dist top → s.disc v = true
  qdisc : ∀ v, v ∈ s.queue → s.disc v = true
  nodup : s.queue.Nodup
  sorted : s.queue.Pairwise (fun a b => s.dist a ≤ s.dist b)
  hi : ∀ v, s.disc v = true → s.dist v ≤ s.dist top + 1
  lo : ∀ v, v ∈ s.queue → s.dist top ≤ s.dist v
  proc : ∀ v, s.disc v = true → v ∉ s.queue → s.dist v ≤ s.dist top ∧
    (v ≠ top → ∀ t, t ∈ (G.edges v).map (·.1) → s.disc t = true ∧ s.dist t ≤ s.dist v + 1)
  last : s.last = top

/-- State at the head of the while loop, before an early return. -/
structure BOuter (G : Graph) (start : Nat) (s : BFS) : Prop where
  core : BCore G start s
  qdisc : ∀ v, v ∈ s.queue → s.disc v = true
  nodup : s.queue.Nodup
  sorted : s.queue.Pairwise (fun a b => s.dist a ≤ s.dist b)
  hi : ∀ v q, s.disc v = true → s.queue.head? = some q → s.dist v ≤ s.dist q + 1
  lo : ∀ v q, s.disc v = true → v ∉ s.queue → s.queue.head? = some q → s.dist v ≤ s.dist q
  proc : ∀ v, s.disc v = true → v ∉ s.queue → ∀ t, t ∈ (G.edges v).map (·.1) →
    s.disc t = true ∧ s.dist t ≤ s.dist v + 1
  last : s.queue = [] → s.disc s.last = true ∧ ∀ v, s.disc v = true → s.dist v ≤ s.dist s.last

theorem filter_update_length (n : Nat) (p : Nat → Bool) (t : Nat) (ht : t < n) (hp : p t = false) :
    ((List.range n).filter (update p t true)).length = ((List.range n).filter p).length + 1 := by
  induction n with
  | zero => omega
  | succ n ih =>
    rw [List.range_succ, List.filter_append, List.filter_append, List.length_append, List.length_append]
    rcases Nat.lt_succ_iff_lt_or_eq.1 ht with h | h
    · rw [ih h]
      have : [n].filter (update p t true) = [n].filter p := by
        refine List.filter_congr fun x hx => ?_
        have : x = n := by simpa using hx
        rw [update_of_ne (by omega)]
      rw [this]; omega
    · subst h
      have h1 : (List.range t).filter (update p t true) = (List.range t).filter p := by
        refine List.filter_congr fun x hx => ?_
        have : x < t := by simpa using hx
        rw [update_of_ne (by omega)]
      rw [h1]
      simp [hp]

theorem filter_full (n : Nat) (p : Nat → Bool) (h : ((List.range n).filter p).length = n) (v : Nat) (hv : v < n) :
    p v = true := by
  have h1 : (List.range n).filter p = List.range n :=
    List.Sublist.eq_of_length List.filter_sublist (by rw [h, List.length_range])
  have h2 : v ∈ (List.range n).filter p := by rw [h1]; simpa using hv
  exact (List.mem_filter.1 h2).2

/-- Discovering one vertex. -/
theorem BCore.discover {G : Graph} {start top t : Nat} {s s' : BFS} (hG : G.WF) (h : BCore G start s)
    (hd : s.disc top = true) (near : ∀ v k, Walk G start v k → k ≤ s.dist top → s.disc v = true)
    (ht : t ∈ (G.edges top).map (·.1)) (hu : s.disc t = false)
    (e1 : s'.disc = update s.disc t true) (e2 : s'.parent = update s.parent t (some top))
    (e3 : s'.dist = update s.dist t (s.dist top + 1)) (e4 : s'.vtcs = s.vtcs + 1) : BCore G start s' := by
  have hlt : t < G.n := by
    obtain ⟨e, he, rfl⟩ := List.mem_map.1 ht
    exact hG.tgt_lt top e he
  have hne : ∀ v, s.disc v = true → v ≠ t := fun v hv h => by rw [h, hu] at hv; simp at hv
  have hdisc : ∀ v, s.disc v = true → s'.disc v = true := fun v hv => by rw [e1, update_of_ne (hne v hv)]; exact hv
  have hdist : ∀ v, s.disc v = true → s'.dist v = s.dist v := fun v hv => by rw [e3, update_of_ne (hne v hv)]
  have hpar : ∀ v, s.disc v = true → s'.parent v = s.parent v := fun v hv => by rw [e2, update_of_ne (hne v hv)]
  have hdt : s'.dist t = s.dist top + 1 := by rw [e3, update_self]
  have hcases : ∀ v, s'.disc v = true → v = t ∨ s.disc v = true := by
    intro v hv
    by_cases hvt : v = t
    · exact Or.inl hvt
    · rw [e1, update_of_ne hvt] at hv; exact Or.inr hv
  refine ⟨?_, ?_, ?_, ?_, ?_, ?_, ?_⟩
  · intro v hv
    rcases hcases v hv with rfl | hv
    · rw [hdt]; exact Walk.snoc (h.sound top hd) ht
    · rw [hdist v hv]; exact h.sound v hv
  · intro v hv k hk
    rcases hcases v hv with rfl | hv
    · rw [hdt]
      by_contra hcon
      have := near v k hk (by omega)
      rw [hu] at this; simp at this
    · rw [hdist v hv]; exact h.exact v hv k hk
  · intro v hv hs
    rcases hcases v hv with rfl | hv
    · exact ⟨top, by rw [e2, update_self], hdisc top hd, ht, by rw [hdt, hdist top hd]⟩
    · obtain ⟨p, h1, h2, h3, h4⟩ := h.par v hv hs
      exact ⟨p, by rw [hpar v hv]; exact h1, hdisc p h2, h3, by rw [hdist v hv, hdist p h2]; exact h4⟩
  · intro v hv
    have hvt : v ≠ t := fun h => by rw [h, e1, update_self] at hv; simp at hv
    rw [e1, update_of_ne hvt] at hv
    rw [e2, e3, update_of_ne hvt, update_of_ne hvt]
    exact h.undisc v hv
  · obtain ⟨a, b, c⟩ := h.st
    exact ⟨hdisc start a, by rw [hpar start a]; exact b, by rw [hdist start a]; exact c⟩
  · intro v hv
    rcases hcases v hv with rfl | hv
    · exact hlt
    · exact h.lt v hv
  · rw [e4, h.count, e1, filter_update_length _ _ _ hlt hu]

/-- What is known once the search has returned early. -/
structure BDone (G : Graph) (start : Nat) (s : BFS) : Prop where
  core : BCore G start s
  all : ∀ v, v < G.n → s.disc v = true
  last : s.disc s.last = true ∧ ∀ v, s.disc v = true → s.dist v ≤ s.dist s.last

theorem bfsEdge_done {n top : Nat} {s : BFS} (h : s.done = true) (t : Nat) : bfsEdge n top s t = s := by
  unfold bfsEdge; rw [if_pos (Or.inl h)]

theorem bfsFold_done {n top : Nat} {s : BFS} (h : s.done = true) (l : List Nat) : l.foldl (bfsEdge n top) s = s := by
  induction l with
  | nil => rfl
  | cons t l ih => rw [List.foldl_cons, bfsEdge_done h]; exact ih

theorem BInner.edge {G : Graph} {start top t : Nat} {s : BFS} (hG : G.WF) (h : BInner G start top s)
    (hnd : s.done = false) (ht : t ∈ (G.edges top).map (·.1)) :
    ((bfsEdge G.n top s t).done = true ∧ BDone G start (bfsEdge G.n top s t)) ∨
    ((bfsEdge G.n top s t).done = false ∧ BInner G start top (bfsEdge G.n top s t) ∧
      (bfsEdge G.n top s t).disc t = true ∧ (∀ v, s.disc v = true → (bfsEdge G.n top s t).disc v = true) ∧
      (bfsEdge G.n top s t).queue.length + (G.n - (bfsEdge G.n top s t).vtcs) = s.queue.length + (G.n - s.vtcs)) := by
  unfold bfsEdge
  by_cases hdt : s.disc t = true
  · rw [if_pos (Or.inr hdt)]
    exact Or.inr ⟨hnd, h, hdt, fun _ h => h, rfl⟩
  · have hu : s.disc t = false := by simpa using hdt
    have hne : ∀ v, s.disc v = true → v ≠ t := fun v hv h => by rw [h, hu] at hv; simp at hv
    rw [if_neg (by simp [hnd, hu])]
    have hcore : ∀ s' : BFS, s'.disc = update s.disc t true → s'.parent = update s.parent t (some top) →
        s'.dist = update s.dist t (s.dist top + 1) → s'.vtcs = s.vtcs + 1 → BCore G start s' :=
      fun s' a b c d => h.core.discover hG h.topd h.near ht hu a b c d
    have hdist : ∀ v, s.disc v = true → update s.dist t (s.dist top + 1) v = s.dist v :=
      fun v hv => update_of_ne (hne v hv) _ _
    have htop := hdist top h.topd
    have hcases : ∀ v, update s.disc t true v = true → v = t ∨ s.disc v = true := by
      intro v hv
      by_cases hvt : v = t
      · exact Or.inl hvt
      · rw [update_of_ne hvt] at hv; exact Or.inr hv
    have hhi : ∀ v, update s.disc t true v = true → update s.dist t (s.dist top + 1) v ≤ s.dist top + 1 := by
      intro v hv
      rcases hcases v hv with rfl | hv
      · rw [update_self]
      · rw [hdist v hv]; exact h.hi v hv
    by_cases hn : s.vtcs + 1 = G.n
    · simp only [hn, if_true]
      refine Or.inl ⟨trivial, ?_⟩
      refine ⟨hcore _ rfl rfl rfl (by simp only; omega), ?_, ?_, ?_⟩
      · intro v hv
        refine filter_full G.n _ ?_ v hv
        have := (hcore { s with disc := update s.disc t true, parent := update s.parent t (some top),
                                dist := update s.dist t (s.dist top + 1), vtcs := s.vtcs + 1 } rfl rfl rfl rfl).count
        simp only at this ⊢
        omega
      · simp
      · intro v hv
        simp only [update_self]
        exact hhi v hv
    · simp only [hn, if_false]
      refine Or.inr ⟨hnd, ?_, by simp, ?_, ?_⟩
      · have htq : t ∉ s.queue := fun hcon => by have := h.qdisc t hcon; rw [hu] at this; simp at this
        refine ⟨hcore _ rfl rfl rfl rfl, ?_, ?_, ?_, ?_, ?_, ?_, ?_, ?_, ?_, h.last⟩
        · show update s.disc t true top = true
          rw [update_of_ne (hne top h.topd)]; exact h.topd
        · simp only [List.mem_append, List.mem_singleton, not_or]
          exact ⟨h.topq, hne top h.topd⟩
        · intro v k hk hle
          simp only [htop] at hle
          show update s.disc t true v = true
          have := h.near v k hk hle
          rw [update_of_ne (hne v this)]; exact this
        · intro v hv
          simp only [List.mem_append, List.mem_singleton] at hv
          show update s.disc t true v = true
          rcases hv with hv | rfl
          · have := h.qdisc v hv
            rw [update_of_ne (hne v this)]; exact this
          · rw [update_self]
        · rw [List.nodup_append]
          refine ⟨h.nodup, by simp, ?_⟩
          intro a ha b hb hab
          have hb' : b = t := by simpa using hb
          rw [hab, hb'] at ha
          exact htq ha
        · rw [List.pairwise_append]
          refine ⟨?_, by simp, ?_⟩
          · refine List.Pairwise.imp_of_mem ?_ h.sorted
            intro a b ha hb hab
            simp only [hdist a (h.qdisc a ha), hdist b (h.qdisc b hb)]; exact hab
          · intro a ha b hb
            have hb' : b = t := by simpa using hb
            simp only [hb', hdist a (h.qdisc a ha), update_self]
            exact h.hi a (h.qdisc a ha)
        · intro v hv
          simp only [htop]
          exact hhi v hv
        · intro v hv
          simp only [List.mem_append, List.mem_singleton] at hv
          simp only [htop]
          rcases hv with hv | rfl
          · rw [hdist v (h.qdisc v hv)]; exact h.lo v hv
          · rw [update_self]; omega
        · intro v hv hq
          simp only [List.mem_append, List.mem_singleton, not_or] at hq
          rcases hcases v hv with rfl | hv
          · exact absurd rfl hq.2
          · simp only [htop, hdist v hv]
            obtain ⟨a, b⟩ := h.proc v hv hq.1
            refine ⟨a, fun hvt t' ht' => ?_⟩
            obtain ⟨c, d⟩ := b hvt t' ht'
            exact ⟨by rw [update_of_ne (hne t' c)]; exact c, by rw [hdist t' c]; exact d⟩
      · intro v hv
        show update s.disc t true v = true
        rw [update_of_ne (hne v hv)]; exact hv
      · have hlt : t < G.n := by
          obtain ⟨e, he, rfl⟩ := List.mem_map.1 ht
          exact hG.tgt_lt top e he
        have h1 := filter_update_length G.n s.disc t hlt hu
        have h2 : ((List.range G.n).filter (update s.disc t true)).length ≤ G.n := by
          have := List.length_filter_le (update s.disc t true) (List.range G.n)
          simpa using this
        have := h.core.count
        simp only [List.length_append, List.length_singleton]
        omega

theorem BInner.fold {G : Graph} {start top : Nat} (hG : G.WF) (l : List Nat) :
    ∀ {s : BFS}, BInner G start top s → s.done = false → (∀ t ∈ l, t ∈ (G.edges top).map (·.1)) →
    ((l.foldl (bfsEdge G.n top) s).done = true ∧ BDone G start (l.foldl (bfsEdge G.n top) s)) ∨
    ((l.foldl (bfsEdge G.n top) s).done = false ∧ BInner G start top (l.foldl (bfsEdge G.n top) s) ∧
      (∀ t ∈ l, (l.foldl (bfsEdge G.n top) s).disc t = true) ∧
      (∀ v, s.disc v = true → (l.foldl (bfsEdge G.n top) s).disc v = true) ∧
      (l.foldl (bfsEdge G.n top) s).queue.length + (G.n - (l.foldl (bfsEdge G.n top) s).vtcs) =
        s.queue.length + (G.n - s.vtcs)) := by
  induction l with
  | nil => intro s h hnd _; exact Or.inr ⟨hnd, h, by simp, fun _ h => h, rfl⟩
  | cons t l ih =>
    intro s h hnd hl
    rw [List.foldl_cons]
    rcases h.edge hG hnd (hl t (by simp)) with ⟨a, b⟩ | ⟨a, b, c, d, e⟩
    · rw [bfsFold_done a]; exact Or.inl ⟨a, b⟩
    · rcases ih b a (fun t ht => hl t (by simp [ht])) with h1 | ⟨h1, h2, h3, h4, h5⟩
      · exact Or.inl h1
      · refine Or.inr ⟨h1, h2, ?_, fun v hv => h4 v (d v hv), h5.trans e⟩
        intro t' ht'
        rcases List.mem_cons.1 ht' with rfl | ht'
        · exact h4 _ c
        · exact h3 t' ht'

theorem BOuter.near {G : Graph} {start : Nat} {s : BFS} (h : BOuter G start s) {q : Nat}
    (hq : s.queue.head? = some q) : ∀ v k, Walk G start v k → k ≤ s.dist q → s.disc v = true := by
  intro v k hw
  induction hw with
  | nil => intro _; exact h.core.st.1
  | @snoc u v k hw hv ih =>
    intro hk
    have hu := ih (by omega)
    have hle := h.core.exact u hu k hw
    have huq : u ∉ s.queue := by
      intro hcon
      cases hqq : s.queue with
      | nil => rw [hqq] at hcon; simp at hcon
      | cons x l =>
        rw [hqq] at hq hcon
        have hxq : x = q := by simpa using hq
        have hs := h.sorted
        rw [hqq] at hs
        rcases List.mem_cons.1 hcon with h1 | h1
        · rw [h1, hxq] at hle; omega
        · have := (List.pairwise_cons.1 hs).1 u h1
          rw [hxq] at this; omega
    exact (h.proc u hu huq v hv).1

theorem BOuter.step {G : Graph} {start : Nat} {s : BFS} (hG : G.WF) (h : BOuter G start s) (hnd : s.done = false) :
    ((bfsStep G s).done = true ∧ BDone G start (bfsStep G s)) ∨
    ((bfsStep G s).done = false ∧ BOuter G start (bfsStep G s) ∧
      (s.queue = [] → bfsStep G s = s) ∧
      (s.queue ≠ [] → (bfsStep G s).queue.length + (G.n - (bfsStep G s).vtcs) + 1 = s.queue.length + (G.n - s.vtcs))) := by
  unfold bfsStep
  rw [if_neg (by simp [hnd])]
  cases hq : s.queue with
  | nil => exact Or.inr ⟨hnd, h, fun _ => rfl, fun hc => absurd rfl hc⟩
  | cons top q =>
    simp only
    have hnear := h.near (q := top) (by rw [hq]; rfl)
    have htd : s.disc top = true := h.qdisc top (by rw [hq]; simp)
    have hnod := h.nodup
    have hsort := h.sorted
    rw [hq] at hnod hsort
    rw [List.nodup_cons] at hnod
    rw [List.pairwise_cons] at hsort
    have hi : BInner G start top { s with queue := q, last := top } := by
      refine ⟨⟨h.core.sound, h.core.exact, h.core.par, h.core.undisc, h.core.st, h.core.lt, h.core.count⟩, htd,
        hnod.1, hnear, ?_, hnod.2, hsort.2, ?_, hsort.1, ?_, rfl⟩
      · intro v hv; exact h.qdisc v (by rw [hq]; simp [hv])
      · intro v hv; exact h.hi v top hv (by rw [hq]; rfl)
      · intro v hv hvq
        by_cases hvt : v = top
        · exact ⟨by rw [hvt], fun hc => absurd hvt hc⟩
        · have hvq' : v ∉ s.queue := by rw [hq]; simp only [List.mem_cons, not_or]; exact ⟨hvt, hvq⟩
          exact ⟨h.lo v top hv hvq' (by rw [hq]; rfl), fun _ => h.proc v hv hvq'⟩
    rcases BInner.fold hG ((G.edges top).map (·.1)) hi hnd (fun t ht => ht) with h1 | ⟨h1, h2, h3, h4, h5⟩
    · exact Or.inl h1
    · refine Or.inr ⟨h1, ?_, fun hc => by simp at hc, fun _ => ?_⟩
      · generalize hr : ((G.edges top).map (·.1)).foldl (bfsEdge G.n top) { s with queue := q, last := top } = r at *
        have hlo : ∀ v, r.disc v = true → v ∉ r.queue → r.dist v ≤ r.dist top := fun v hv hvq => (h2.proc v hv hvq).1
        refine ⟨h2.core, h2.qdisc, h2.nodup, h2.sorted, ?_, ?_, ?_, ?_⟩
        · intro v x hv hx
          have hxq : x ∈ r.queue := List.mem_of_mem_head? hx
          have := h2.hi v hv
          have := h2.lo x hxq
          omega
        · intro v x hv hvq hx
          have hxq : x ∈ r.queue := List.mem_of_mem_head? hx
          have := hlo v hv hvq
          have := h2.lo x hxq
          omega
        · intro v hv hvq t ht
          by_cases hvt : v = top
          · subst hvt
            have := h3 t ht
            exact ⟨this, h2.hi t this⟩
          · exact (h2.proc v hv hvq).2 hvt t ht
        · intro hnil
          rw [h2.last]
          exact ⟨h2.topd, fun v hv => hlo v hv (by rw [hnil]; simp)⟩
      · simp only at h5
        rw [h5, List.length_cons]; omega

theorem BOuter.init {G : Graph} {start : Nat} (hs : start < G.n) : BOuter G start (bfsInit start) := by
  have hd : ∀ v, (bfsInit start).disc v = true → v = start := fun v hv => by simpa [bfsInit] using hv
  have hst : (bfsInit start).disc start = true := by simp [bfsInit]
  refine ⟨⟨?_, ?_, ?_, ?_, ⟨hst, rfl, rfl⟩, ?_, ?_⟩, ?_, by simp [bfsInit], by simp [bfsInit], ?_, ?_, ?_, ?_⟩
  · intro v hv; rw [hd v hv]; exact Walk.nil
  · intro v hv k _; show 0 ≤ k; omega
  · intro v hv h; exact absurd (hd v hv) h
  · intro v hv; exact ⟨rfl, rfl⟩
  · intro v hv; rw [hd v hv]; exact hs
  · have h1 := filter_update_length G.n (fun _ => false) start hs rfl
    have h2 : (bfsInit start).disc = update (fun _ => false) start true := by
      funext v
      by_cases hv : v = start
      · rw [hv, update_self]; exact hst
      · rw [update_of_ne hv]; simp [bfsInit, hv]
    rw [h2, h1]; simp [bfsInit]
  · intro v hv
    have : v = start := by simpa [bfsInit] using hv
    rw [this]; exact hst
  · intro v q _ _; show 0 ≤ _; omega
  · intro v q _ _ _; show 0 ≤ _; omega
  · intro v hv hvq; exact absurd (by rw [hd v hv]; simp [bfsInit]) hvq
  · intro hc; simp [bfsInit] at hc

theorem bfsStep_done {G : Graph} {s : BFS} (h : s.done = true) : bfsStep G s = s := by unfold bfsStep; rw [if_pos h]

theorem bfs_iter {G : Graph} (hG : G.WF) {start : Nat} (hs : start < G.n) (i : Nat) :
    (((bfsStep G)^[i] (bfsInit start)).done = true ∧ BDone G start ((bfsStep G)^[i] (bfsInit start))) ∨
    (((bfsStep G)^[i] (bfsInit start)).done = false ∧ BOuter G start ((bfsStep G)^[i] (bfsInit start)) ∧
      (((bfsStep G)^[i] (bfsInit start)).queue ≠ [] →
        ((bfsStep G)^[i] (bfsInit start)).queue.length + (G.n - ((bfsStep G)^[i] (bfsInit start)).vtcs) + i = G.n)) := by
  induction i with
  | zero =>
    refine Or.inr ⟨rfl, BOuter.init hs, fun _ => ?_⟩
    show 1 + (G.n - 1) + 0 = G.n
    omega
  | succ i ih =>
    rw [iterate_succ_apply']
    rcases ih with ⟨h1, h2⟩ | ⟨h1, h2, h3⟩
    · rw [bfsStep_done h1]; exact Or.inl ⟨h1, h2⟩
    · rcases h2.step hG h1 with h4 | ⟨h4, h5, h6, h7⟩
      · exact Or.inl h4
      · refine Or.inr ⟨h4, h5, fun hq => ?_⟩
        have hne : ((bfsStep G)^[i] (bfsInit start)).queue ≠ [] := by
          intro hc
          rw [h6 hc] at hq
          exact hq hc
        have := h7 hne
        have := h3 hne
        omega

/-- Result of the search. -/
theorem bfs_spec {G : Graph} (hG : G.WF) {start : Nat} (hs : start < G.n) :
    ((bfsDistances G start).done = true ∨ (bfsDistances G start).queue = []) ∧
    BCore G start (bfsDistances G start) ∧
    (∀ v k, Walk G start v k → (bfsDistances G start).disc v = true) ∧
    (bfsDistances G start).disc (bfsDistances G start).last = true ∧
    (∀ v, (bfsDistances G start).disc v = true →
      (bfsDistances G start).dist v ≤ (bfsDistances G start).dist (bfsDistances G start).last) := by
  have hw : ∀ v k, Walk G start v k → v < G.n := by
    intro v k h
    induction h with
    | nil => exact hs
    | snoc _ hv _ =>
      obtain ⟨e, he, rfl⟩ := List.mem_map.1 hv
      exact hG.tgt_lt _ e he
  unfold bfsDistances
  rcases bfs_iter hG hs G.n with ⟨h1, h2⟩ | ⟨h1, h2, h3⟩
  · exact ⟨Or.inl h1, h2.core, fun v k hk => h2.all v (hw v k hk), h2.last⟩
  · have hq : ((bfsStep G)^[G.n] (bfsInit start)).queue = [] := by
      by_contra hc
      have := h3 hc
      have : ((bfsStep G)^[G.n] (bfsInit start)).queue.length ≠ 0 := fun h => hc (List.eq_nil_of_length_eq_zero h)
      omega
    refine ⟨Or.inr hq, h2.core, ?_, h2.last hq⟩
    intro v k hk
    induction hk with
    | nil => exact h2.core.st.1
    | snoc _ hv ih => exact (h2.proc _ ih (by rw [hq]; simp) _ hv).1

end VieCut
