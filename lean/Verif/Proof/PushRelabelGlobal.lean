import Verif.Proof.PushRelabelDischarge

namespace VieCut
open Finset Function

namespace PushRelabel

/-- A loop that makes progress is finished after enough rounds. -/
theorem iterate_done {α : Type} {f : α → α} {I done : α → Prop} {pot : α → Nat} (hI : ∀ a, I a → I (f a))
    (hdec : ∀ a, I a → ¬ done a → pot (f a) + 1 ≤ pot a) (hfix : ∀ a, done a → f a = a) :
    ∀ k a, I a → pot a ≤ k → I (f^[k] a) ∧ done (f^[k] a) := by
  intro k
  induction k with
  | zero =>
    intro a ha hp
    refine ⟨ha, ?_⟩
    by_contra hc
    have := hdec a ha hc
    omega
  | succ k ih =>
    intro a ha hp
    rw [Function.iterate_succ_apply]
    by_cases hd : done a
    · rw [hfix a hd]
      have : ∀ m, f^[m] a = a := fun m => Function.iterate_fixed (hfix a hd) m
      rw [this]
      exact ⟨ha, hd⟩
    · have := hdec a ha hd
      exact ih (f a) (hI a ha) (by omega)

/-- Number of vertices not yet touched. -/
def untouched (n : Nat) (p : Nat → Bool) : Nat := ((range n).filter fun v => p v = false).card

theorem untouched_update {n : Nat} {p : Nat → Bool} {t : Nat} (ht : t < n) (hp : p t = false) :
    untouched n (update p t true) + 1 = untouched n p := by
  unfold untouched
  have h1 : ((range n).filter fun v => p v = false) = insert t ((range n).filter fun v => update p t true v = false) := by
    ext v
    simp only [Finset.mem_filter, Finset.mem_range, Finset.mem_insert]
    by_cases e : v = t
    · subst e; simp [ht, hp]
    · simp [e]
  rw [h1, Finset.card_insert_of_notMem]
  simp

theorem untouched_le (n : Nat) (p : Nat → Bool) : untouched n p ≤ n := by
  unfold untouched
  exact (Finset.card_filter_le _ _).trans (by simp)

variable {c : Cfg}

/-- `ok` allows the edge from `t` to `v`. -/
def Allowed (g : MGraph) (ok : Nat → Nat → Bool) (t v : Nat) : Prop :=
  t < g.n ∧ ∃ r, r < g.len t ∧ (g.edge t r).target = v ∧ ok t r = true

/-- Invariant of the breadth-first search; vertex `x` is being processed. -/
structure BInv (c : Cfg) (cut : Bool) (ok : Nat → Nat → Bool) (base : Nat → Nat) (x : Nat) (b : Search) : Prop where
  qok : ∀ v ∈ b.queue, b.touched v = true ∧ v ≠ c.src
  tlt : ∀ v, b.touched v = true → v < c.g.n
  fresh : ∀ v, b.touched v = false → b.dist v = base v
  srcT : b.touched c.src = true
  srcD : b.dist c.src = c.g.n
  low : ∀ v, b.touched v = true → v ≠ c.src → (b.dist v = 0 ∧ v ∈ c.ts) ∨
    ∃ p, b.touched p = true ∧ p ≠ c.src ∧ Allowed c.g ok v p ∧ b.dist v = b.dist p + 1
  closed : ∀ v, b.touched v = true → v ≠ c.src → v ∉ b.queue → v ≠ x → (cut = true ∧ c.depth ≤ b.dist v) ∨
    ∀ t, Allowed c.g ok t v → b.touched t = true ∧ (t = c.src ∨ b.dist t ≤ b.dist v + 1)
  sorted : b.queue.Pairwise fun p q => b.dist p ≤ b.dist q
  front : ∀ q ∈ b.queue, ∀ v, b.touched v = true → v ≠ c.src → b.dist v ≤ b.dist q + 1
  cutB : cut = true → ∀ v, b.touched v = true → v ≠ c.src → b.dist v ≤ c.depth
  qcut : cut = true → ∀ q ∈ b.queue, b.dist q < c.depth
  cnt : CountOk c b.dist b.count
  sinks : ∀ t ∈ c.ts, t ≠ c.src → b.touched t = true ∧ b.dist t = 0

/-- While the edges of `v` are handled. -/
structure BMid (c : Cfg) (cut : Bool) (ok : Nat → Nat → Bool) (base : Nat → Nat) (v k : Nat) (b : Search) : Prop where
  inv : BInv c cut ok base v b
  vt : b.touched v = true
  vs : v ≠ c.src
  vcut : cut = true → b.dist v < c.depth
  near : ∀ w, b.touched w = true → w ≠ c.src → b.dist w ≤ b.dist v + 1
  far : ∀ q ∈ b.queue, b.dist v ≤ b.dist q
  done : ∀ e, e < k → ok (c.g.edge v e).target (c.g.edge v e).rev = true → b.touched (c.g.edge v e).target = true

theorem relEdge_ok (hc : CfgOk c) {cut : Bool} {ok : Nat → Nat → Bool} {base : Nat → Nat} {v k : Nat} {b : Search}
    (h : BMid c cut ok base v k b) (hk : k < c.g.len v) :
    BMid c cut ok base v (k + 1) (relEdge c cut ok v b k) ∧
      (relEdge c cut ok v b k).queue.length + untouched c.g.n (relEdge c cut ok v b k).touched ≤
        b.queue.length + untouched c.g.n b.touched := by
  have hv := h.inv.tlt v h.vt
  have htn := hc.cons.target v k hv hk
  unfold relEdge
  dsimp only
  by_cases h1 : b.touched (c.g.edge v k).target = true
  · rw [if_pos h1]
    refine ⟨⟨h.inv, h.vt, h.vs, h.vcut, h.near, h.far, fun e he hok => ?_⟩, le_refl _⟩
    rcases Nat.lt_succ_iff_lt_or_eq.1 he with h2 | h2
    · exact h.done e h2 hok
    · subst h2; exact h1
  rw [if_neg h1]
  by_cases h2 : ok (c.g.edge v k).target (c.g.edge v k).rev = true
  swap
  · rw [if_neg h2]
    refine ⟨⟨h.inv, h.vt, h.vs, h.vcut, h.near, h.far, fun e he hok => ?_⟩, le_refl _⟩
    rcases Nat.lt_succ_iff_lt_or_eq.1 he with h3 | h3
    · exact h.done e h3 hok
    · subst h3; exact absurd hok h2
  rw [if_pos h2]
  have h1f : b.touched (c.g.edge v k).target = false := by simpa using h1
  have hal : Allowed c.g ok (c.g.edge v k).target v :=
    ⟨htn, (c.g.edge v k).rev, hc.cons.partner v k hv hk, (hc.cons.back v k hv hk).1, h2⟩
  generalize hteq : (c.g.edge v k).target = t at *
  have hne : ∀ w, b.touched w = true → w ≠ t := fun w hw e => by rw [e, h1f] at hw; exact absurd hw (by simp)
  have hts : t ≠ c.src := (hne _ h.inv.srcT).symm
  have hD : ∀ w, b.touched w = true → update b.dist t (b.dist v + 1) w = b.dist w := fun w hw => update_of_ne (hne w hw) _ _
  have hT : ∀ w, update b.touched t true w = true ↔ w = t ∨ b.touched w = true := by
    intro w
    by_cases e : w = t
    · subst e; simp
    · simp [e]
  have hQ : ∀ w, w ∈ (if (cut && !decide (b.dist v + 1 < c.depth)) = true then b.queue else b.queue ++ [t]) →
      w ∈ b.queue ∨ (w = t ∧ (cut = true → b.dist v + 1 < c.depth)) := by
    intro w hw
    split at hw
    · exact Or.inl hw
    · rename_i hif
      rcases List.mem_append.1 hw with h3 | h3
      · exact Or.inl h3
      · refine Or.inr ⟨by simpa using h3, fun hcut => ?_⟩
        rw [hcut] at hif
        simpa using hif
  have hQ2 : ∀ w, w ∈ b.queue → w ∈ (if (cut && !decide (b.dist v + 1 < c.depth)) = true then b.queue else b.queue ++ [t]) := by
    intro w hw
    split
    · exact hw
    · exact List.mem_append_left _ hw
  have hQ3 : t ∉ (if (cut && !decide (b.dist v + 1 < c.depth)) = true then b.queue else b.queue ++ [t]) →
      cut = true ∧ c.depth ≤ b.dist v + 1 := by
    intro hw
    split at hw
    · rename_i hif
      simpa using hif
    · exact absurd (List.mem_append_right _ (List.mem_singleton.2 rfl)) hw
  refine ⟨⟨⟨?_, ?_, ?_, ?_, ?_, ?_, ?_, ?_, ?_, ?_, ?_, ?_, ?_⟩, ?_, h.vs, ?_, ?_, ?_, ?_⟩, ?_⟩
  · intro w hw
    rcases hQ w hw with h3 | ⟨rfl, -⟩
    · exact ⟨(hT w).2 (Or.inr (h.inv.qok w h3).1), (h.inv.qok w h3).2⟩
    · exact ⟨(hT w).2 (Or.inl rfl), hts⟩
  · intro w hw
    rcases (hT w).1 hw with rfl | h3
    · exact htn
    · exact h.inv.tlt w h3
  · intro w hw
    dsimp only at hw ⊢
    have e : w ≠ t := fun e => by rw [e, update_self] at hw; exact absurd hw (by simp)
    rw [update_of_ne e] at hw ⊢
    exact h.inv.fresh w hw
  · exact (hT _).2 (Or.inr h.inv.srcT)
  · dsimp only; rw [hD _ h.inv.srcT]; exact h.inv.srcD
  · intro w hw hws
    dsimp only
    rcases (hT w).1 hw with rfl | h3
    · right
      refine ⟨v, (hT _).2 (Or.inr h.vt), h.vs, hal, ?_⟩
      rw [update_self, hD v h.vt]
    · rw [hD w h3]
      rcases h.inv.low w h3 hws with h4 | ⟨p, p1, p2, p3, p4⟩
      · exact Or.inl h4
      · exact Or.inr ⟨p, (hT _).2 (Or.inr p1), p2, p3, by rw [hD p p1]; exact p4⟩
  · intro w hw hws hwq hwv
    dsimp only at hwq ⊢
    rcases (hT w).1 hw with rfl | h3
    · rw [update_self]; exact Or.inl (hQ3 hwq)
    · rw [hD w h3]
      rcases h.inv.closed w h3 hws (fun hm => hwq (hQ2 w hm)) hwv with h4 | h4
      · exact Or.inl h4
      · refine Or.inr fun t' ht' => ?_
        obtain ⟨p1, p2⟩ := h4 t' ht'
        exact ⟨(hT _).2 (Or.inr p1), by rw [hD t' p1]; exact p2⟩
  · dsimp only
    have hs : b.queue.Pairwise fun p q => update b.dist t (b.dist v + 1) p ≤ update b.dist t (b.dist v + 1) q := by
      refine h.inv.sorted.imp_of_mem fun {p q} hp hq hpq => ?_
      rw [hD p (h.inv.qok p hp).1, hD q (h.inv.qok q hq).1]
      exact hpq
    split
    · exact hs
    · rw [List.pairwise_append]
      refine ⟨hs, by simp, fun p hp q hq => ?_⟩
      rw [List.mem_singleton] at hq
      subst hq
      rw [update_self, hD p (h.inv.qok p hp).1]
      exact h.near p (h.inv.qok p hp).1 (h.inv.qok p hp).2
  · intro q hq w hw hws
    dsimp only
    have hw' : update b.dist t (b.dist v + 1) w ≤ b.dist v + 1 := by
      rcases (hT w).1 hw with rfl | h3
      · rw [update_self]
      · rw [hD w h3]; exact h.near w h3 hws
    rcases hQ q hq with h3 | ⟨rfl, -⟩
    · have := h.far q h3
      rw [hD q (h.inv.qok q h3).1]; omega
    · rw [update_self]; omega
  · intro hcut w hw hws
    dsimp only
    rcases (hT w).1 hw with rfl | h3
    · rw [update_self]; exact h.vcut hcut
    · rw [hD w h3]; exact h.inv.cutB hcut w h3 hws
  · intro hcut q hq
    dsimp only
    rcases hQ q hq with h3 | ⟨rfl, h4⟩
    · rw [hD q (h.inv.qok q h3).1]; exact h.inv.qcut hcut q h3
    · rw [update_self]; exact h4 hcut
  · exact h.inv.cnt.move htn hts _
  · intro t' ht' hts'
    obtain ⟨p1, p2⟩ := h.inv.sinks t' ht' hts'
    exact ⟨(hT _).2 (Or.inr p1), by dsimp only; rw [hD t' p1]; exact p2⟩
  · exact (hT _).2 (Or.inr h.vt)
  · intro hcut; dsimp only; rw [hD v h.vt]; exact h.vcut hcut
  · intro w hw hws
    dsimp only
    rw [hD v h.vt]
    rcases (hT w).1 hw with rfl | h3
    · rw [update_self]
    · rw [hD w h3]; exact h.near w h3 hws
  · intro q hq
    dsimp only
    rw [hD v h.vt]
    rcases hQ q hq with h3 | ⟨rfl, -⟩
    · rw [hD q (h.inv.qok q h3).1]; exact h.far q h3
    · rw [update_self]; omega
  · intro e he hok
    rcases Nat.lt_succ_iff_lt_or_eq.1 he with h3 | h3
    · exact (hT _).2 (Or.inr (h.done e h3 hok))
    · subst h3; exact (hT _).2 (Or.inl hteq)
  · dsimp only
    have := untouched_update htn h1f
    split
    · omega
    · rw [List.length_append, List.length_singleton]; omega

/-- The measure of the breadth-first search. -/
def bpot (c : Cfg) (b : Search) : Nat := b.queue.length + untouched c.g.n b.touched

theorem relStep_ok (hc : CfgOk c) {cut : Bool} {ok : Nat → Nat → Bool} {base : Nat → Nat} {b : Search}
    (h : BInv c cut ok base c.g.n b) :
    BInv c cut ok base c.g.n (relStep c cut ok b) ∧ (b.queue ≠ [] → bpot c (relStep c cut ok b) + 1 ≤ bpot c b) := by
  unfold relStep
  cases hq : b.queue with
  | nil => exact ⟨h, fun h => absurd rfl h⟩
  | cons v q =>
    dsimp only
    have hvq : v ∈ b.queue := by rw [hq]; exact List.mem_cons_self
    have hsub : ∀ w, w ∈ q → w ∈ b.queue := fun w hw => by rw [hq]; exact List.mem_cons_of_mem _ hw
    have hsort := h.sorted
    rw [hq, List.pairwise_cons] at hsort
    have hv := h.tlt v (h.qok v hvq).1
    have h0 : BMid c cut ok base v 0 { b with queue := q } := by
      refine ⟨⟨?_, h.tlt, h.fresh, h.srcT, h.srcD, h.low, ?_, hsort.2, ?_, h.cutB, ?_, h.cnt, h.sinks⟩, (h.qok v hvq).1,
        (h.qok v hvq).2, fun hcut => h.qcut hcut v hvq, h.front v hvq, hsort.1, fun e he => by omega⟩
      · exact fun w hw => h.qok w (hsub w hw)
      · intro w hw hws hwq hwv
        refine h.closed w hw hws ?_ (fun e => by have := h.tlt w hw; omega)
        rw [hq, List.mem_cons]
        rintro (h1 | h1)
        · exact hwv h1
        · exact hwq h1
      · exact fun w hw => h.front w (hsub w hw)
      · exact fun hcut w hw => h.qcut hcut w (hsub w hw)
    have key : ∀ k, k ≤ c.g.len v → BMid c cut ok base v k ((List.range k).foldl (relEdge c cut ok v) { b with queue := q }) ∧
        bpot c ((List.range k).foldl (relEdge c cut ok v) { b with queue := q }) ≤ q.length + untouched c.g.n b.touched := by
      intro k
      induction k with
      | zero => intro _; exact ⟨h0, le_refl _⟩
      | succ k ih =>
        intro hk
        obtain ⟨i1, i2⟩ := ih (by omega)
        rw [List.range_succ, List.foldl_append]
        simp only [List.foldl_cons, List.foldl_nil]
        obtain ⟨j1, j2⟩ := relEdge_ok hc i1 (by omega)
        exact ⟨j1, j2.trans i2⟩
    obtain ⟨k1, k2⟩ := key _ (le_refl _)
    generalize (List.range (c.g.len v)).foldl (relEdge c cut ok v) { b with queue := q } = b' at k1 k2
    refine ⟨⟨k1.inv.qok, k1.inv.tlt, k1.inv.fresh, k1.inv.srcT, k1.inv.srcD, k1.inv.low, ?_, k1.inv.sorted, k1.inv.front,
      k1.inv.cutB, k1.inv.qcut, k1.inv.cnt, k1.inv.sinks⟩, fun _ => ?_⟩
    · intro w hw hws hwq _
      by_cases e : w = v
      · subst e
        refine Or.inr fun t ht => ?_
        obtain ⟨htn, r, hr, hrt, hok⟩ := ht
        subst hrt
        have b1 := hc.cons.back t r htn hr
        have b2 := k1.done (c.g.edge t r).rev (hc.cons.partner t r htn hr)
        rw [b1.1, b1.2] at b2
        have b3 := b2 hok
        refine ⟨b3, ?_⟩
        by_cases e : t = c.src
        · exact Or.inl e
        · exact Or.inr (k1.near t b3 e)
      · exact k1.inv.closed w hw hws hwq e
    · unfold bpot at k2 ⊢
      rw [hq, List.length_cons]
      omega

theorem search_ok (hc : CfgOk c) {cut : Bool} {ok : Nat → Nat → Bool} {base : Nat → Nat} {b : Search}
    (h : BInv c cut ok base c.g.n b) {k : Nat} (hk : bpot c b ≤ k) :
    BInv c cut ok base c.g.n ((relStep c cut ok)^[k] b) ∧ ((relStep c cut ok)^[k] b).queue = [] := by
  refine iterate_done (I := BInv c cut ok base c.g.n) (done := fun b => b.queue = []) (pot := bpot c)
    (fun a ha => (relStep_ok hc ha).1) (fun a ha hd => (relStep_ok hc ha).2 hd) ?_ k b h hk
  intro a ha
  unfold relStep
  rw [ha]

/-- Labels of touched vertices are smaller than `n`. -/
theorem touched_lt {cut : Bool} {ok : Nat → Nat → Bool} {base : Nat → Nat} {x : Nat} {b : Search}
    (h : BInv c cut ok base x b) {v : Nat} (hv : b.touched v = true) (hs : v ≠ c.src) : b.dist v + 1 ≤ c.g.n := by
  have key : ∀ d v, b.touched v = true → v ≠ c.src → b.dist v = d → ∀ j, j ≤ d → ∃ w, w < c.g.n ∧ b.dist w = j := by
    intro d
    induction d with
    | zero => intro v hv hs hd j hj; exact ⟨v, h.tlt v hv, by omega⟩
    | succ d ih =>
      intro v hv hs hd j hj
      by_cases e : j = d + 1
      · exact ⟨v, h.tlt v hv, by omega⟩
      · rcases h.low v hv hs with ⟨h1, -⟩ | ⟨p, p1, p2, -, p4⟩
        · omega
        · exact ih p p1 p2 (by omega) j (by omega)
  have hsurj : Set.SurjOn b.dist (range c.g.n) (Finset.Icc 0 (b.dist v)) := by
    intro l hl
    rw [Finset.mem_coe, Finset.mem_Icc] at hl
    obtain ⟨w, hw, hdw⟩ := key _ v hv hs rfl l hl.2
    exact ⟨w, by simpa using hw, hdw⟩
  have := Finset.card_le_card_of_surjOn b.dist hsurj
  rw [Nat.card_Icc, Finset.card_range] at this
  omega

/-- The labels found by the search are valid. -/
theorem labels_of_search (hc : CfgOk c) {cut : Bool} {ok : Nat → Nat → Bool} {base : Nat → Nat} {b : Search}
    {f : Nat → Nat → Int} (h : BInv c cut ok base c.g.n b) (hq : b.queue = [])
    (hok : ∀ u v, REdge c.g f u v → Allowed c.g ok u v)
    (hsrc : ∀ v, REdge c.g f c.src v → b.touched v = true → v ≠ c.src → False)
    (hsrc2 : ∀ v, REdge c.g f c.src v → b.touched v = false → c.g.n ≤ base v + 1)
    (hb : ∀ u v, REdge c.g f u v → b.touched u = false → b.touched v = false → base u ≤ base v + 1)
    (hbs : ∀ u, REdge c.g f u c.src → b.touched u = false → base u ≤ c.g.n + 1)
    (hlow : cut = false → ∀ v, v < c.g.n → b.touched v = false → c.g.n ≤ base v)
    (hcutb : cut = true → ∀ v, v < c.g.n → b.touched v = false → base v = c.depth + 1)
    (hcutn : cut = true → c.depth ≤ c.g.n)
    (hle : ∀ v, v < c.g.n → b.touched v = false → base v + 1 ≤ 2 * c.g.n) : Labels c f b.dist b.count := by
  have hsn := hc.lt _ hc.src
  refine ⟨?_, h.srcD, fun t ht hts => (h.sinks t ht hts).2, ?_, ?_, h.cnt⟩
  · intro u v huv
    have hu := huv.1
    have hv := rreach_lt hc.cons hu (Relation.ReflTransGen.single huv)
    have hne : u ≠ v := by
      obtain ⟨_, e, he, rfl, -⟩ := huv
      exact (hc.cons.noLoop u e hu he).symm
    by_cases e1 : u = c.src
    · subst e1
      rw [h.srcD]
      cases ht : b.touched v with
      | true => exact (hsrc v huv ht (Ne.symm hne)).elim
      | false => rw [h.fresh v ht]; exact hsrc2 v huv ht
    by_cases e2 : v = c.src
    · subst e2
      rw [h.srcD]
      cases ht : b.touched u with
      | true => have := touched_lt h ht e1; omega
      | false => rw [h.fresh u ht]; exact hbs u huv ht
    cases htv : b.touched v with
    | true =>
      rcases h.closed v htv e2 (by rw [hq]; simp) (by omega) with ⟨hcut, hd⟩ | hcl
      · cases htu : b.touched u with
        | true => have := h.cutB hcut u htu e1; omega
        | false => rw [h.fresh u htu, hcutb hcut u hu htu]; omega
      · exact (hcl u (hok u v huv)).2.resolve_left e1
    | false =>
      rw [h.fresh v htv]
      cases htu : b.touched u with
      | false => rw [h.fresh u htu]; exact hb u v huv htu htv
      | true =>
        have h1 := touched_lt h htu e1
        cases hcut : cut with
        | false => have := hlow hcut v hv htv; omega
        | true =>
          have h2 := h.cutB hcut u htu e1
          rw [hcutb hcut v hv htv]; omega
  · intro v hv hvt
    cases ht : b.touched v with
    | true =>
      rcases h.low v ht (fun e => hvt (e ▸ hc.src)) with ⟨-, h1⟩ | ⟨p, -, -, -, h1⟩
      · exact absurd h1 hvt
      · omega
    | false =>
      rw [h.fresh v ht]
      cases hcut : cut with
      | false => have := hlow hcut v hv ht; omega
      | true => rw [hcutb hcut v hv ht]; omega
  · intro v hv
    cases ht : b.touched v with
    | true =>
      by_cases e : v = c.src
      · rw [e, h.srcD]; omega
      · have := touched_lt h ht e; omega
    | false => rw [h.fresh v ht]; exact hle v hv ht

/-! ### The start of the search -/

theorem countOk_src {d : Nat → Nat} {count : Nat → Int} (h : CountOk c d count) (y : Nat) :
    CountOk c (update d c.src y) count := by
  intro l h1 h2
  have : level c (update d c.src y) l = level c d l := by
    unfold level
    congr 1
    refine Finset.filter_congr fun v _ => ?_
    by_cases e : v = c.src
    · simp [e]
    · simp [e]
  rw [this]
  exact h l h1 h2

theorem relSinks_ok (l : List Nat) : ∀ (b : Search), (∀ t ∈ l, t < c.g.n) → CountOk c b.dist b.count →
    ∀ b', l.foldl (relSink c) b = b' →
    (∀ v, b'.dist v = if v ∈ l then (if v = c.src then c.g.n else 0) else b.dist v) ∧
    (∀ v, b'.touched v = (b.touched v || (decide (v ∈ l) && !decide (v = c.src)))) ∧
    b'.queue = b.queue ++ l.filter (fun t => t ≠ c.src) ∧ CountOk c b'.dist b'.count := by
  induction l with
  | nil =>
    rintro b - hb b' rfl
    exact ⟨fun v => by simp, fun v => by simp, by simp, hb⟩
  | cons t l ih =>
    intro b hl hb b' hb'
    rw [List.foldl_cons] at hb'
    have htn := hl t List.mem_cons_self
    have hl' : ∀ x ∈ l, x < c.g.n := fun x hx => hl x (List.mem_cons_of_mem _ hx)
    by_cases e : t = c.src
    · have e0 : relSink c b t = { b with dist := update b.dist t c.g.n } := by unfold relSink; rw [if_pos e]
      rw [e0] at hb'
      obtain ⟨i1, i2, i3, i4⟩ := ih _ hl' (by dsimp only; rw [e]; exact countOk_src hb _) b' hb'
      refine ⟨fun v => ?_, fun v => ?_, ?_, i4⟩
      · rw [i1]
        dsimp only
        by_cases h1 : v ∈ l
        · rw [if_pos h1, if_pos (List.mem_cons_of_mem _ h1)]
        · rw [if_neg h1]
          by_cases h2 : v = t
          · subst h2; rw [update_self, if_pos List.mem_cons_self, if_pos e]
          · rw [update_of_ne h2, if_neg (by simp [h1, h2])]
      · rw [i2]
        dsimp only
        by_cases h2 : v = t
        · subst h2; simp [e]
        · simp [h2]
      · rw [i3, List.filter_cons, if_neg (by simp [e])]
    · have e0 : relSink c b t = { dist := update b.dist t 0, count := update (update b.count (b.dist t) (b.count (b.dist t) - 1)) 0 (update b.count (b.dist t) (b.count (b.dist t) - 1) 0 + 1), touched := update b.touched t true, queue := b.queue ++ [t] } := by unfold relSink; rw [if_neg e]
      rw [e0] at hb'
      obtain ⟨i1, i2, i3, i4⟩ := ih _ hl' (hb.move htn e 0) b' hb'
      refine ⟨fun v => ?_, fun v => ?_, ?_, i4⟩
      · rw [i1]
        dsimp only
        by_cases h1 : v ∈ l
        · rw [if_pos h1, if_pos (List.mem_cons_of_mem _ h1)]
        · rw [if_neg h1]
          by_cases h2 : v = t
          · subst h2; rw [update_self, if_pos List.mem_cons_self, if_neg e]
          · rw [update_of_ne h2, if_neg (by simp [h1, h2])]
      · rw [i2]
        dsimp only
        by_cases h2 : v = t
        · subst h2; simp [e]
        · simp [h2]
      · rw [i3, List.filter_cons, if_pos (by simp [e])]
        simp

theorem start_ok (hc : CfgOk c) {cut : Bool} (ok : Nat → Nat → Bool) {b0 : Search} (h0 : ∀ v, b0.touched v = false) (hq : b0.queue = [])
    (hcnt : CountOk c b0.dist b0.count) (hcut : cut = true → 0 < c.depth) :
    BInv c cut ok b0.dist c.g.n
      { c.ts.foldl (relSink c) b0 with touched := update (c.ts.foldl (relSink c) b0).touched c.src true } ∧
    bpot c { c.ts.foldl (relSink c) b0 with touched := update (c.ts.foldl (relSink c) b0).touched c.src true } ≤
      c.g.n + c.ts.length := by
  obtain ⟨i1, i2, i3, i4⟩ := relSinks_ok (c := c) c.ts b0 hc.lt hcnt _ rfl
  generalize c.ts.foldl (relSink c) b0 = b at i1 i2 i3 i4
  have hT : ∀ v, update b.touched c.src true v = true ↔ v ∈ c.ts := by
    intro v
    by_cases e : v = c.src
    · subst e; simp [hc.src]
    · rw [update_of_ne e, i2, h0]; simp [e]
  have hQ : ∀ v, v ∈ b.queue ↔ v ∈ c.ts ∧ v ≠ c.src := by
    intro v; rw [i3, hq]; simp
  have hD : ∀ v, v ∈ c.ts → v ≠ c.src → b.dist v = 0 := by
    intro v hv hs; rw [i1, if_pos hv, if_neg hs]
  refine ⟨⟨?_, ?_, ?_, ?_, ?_, ?_, ?_, ?_, ?_, ?_, ?_, i4, ?_⟩, ?_⟩
  · exact fun v hv => ⟨(hT v).2 ((hQ v).1 hv).1, ((hQ v).1 hv).2⟩
  · exact fun v hv => hc.lt v ((hT v).1 hv)
  · intro v hv
    have : v ∉ c.ts := fun hm => by
      have h1 := (hT v).2 hm
      dsimp only at hv
      rw [h1] at hv; exact absurd hv (by simp)
    dsimp only
    rw [i1, if_neg this]
  · exact (hT _).2 hc.src
  · dsimp only; rw [i1, if_pos hc.src, if_pos rfl]
  · intro v hv hs
    exact Or.inl ⟨hD v ((hT v).1 hv) hs, (hT v).1 hv⟩
  · intro v hv hs hnq _
    exact absurd ((hQ v).2 ⟨(hT v).1 hv, hs⟩) hnq
  · refine List.Pairwise.imp_of_mem (R := fun _ _ => True) (fun {p q} hp hq _ => ?_) (by simp [List.pairwise_iff_getElem])
    dsimp only
    rw [hD p ((hQ p).1 hp).1 ((hQ p).1 hp).2]
    omega
  · intro q _ v hv hs
    dsimp only
    rw [hD v ((hT v).1 hv) hs]
    omega
  · intro _ v hv hs
    dsimp only
    rw [hD v ((hT v).1 hv) hs]
    omega
  · intro hcut' q hq'
    dsimp only
    rw [hD q ((hQ q).1 hq').1 ((hQ q).1 hq').2]
    exact hcut hcut'
  · exact fun t ht hs => ⟨(hT t).2 ht, hD t ht hs⟩
  · unfold bpot
    dsimp only
    have h1 := untouched_le c.g.n (update b.touched c.src true)
    have h2 : b.queue.length ≤ c.ts.length := by
      rw [i3, hq, List.nil_append]; exact List.length_filter_le _ _
    omega

variable {P : PQ} {K : Nat}

/-- A global relabelling in the main loop. -/
theorem globalRelabel_ok (hc : CfgOk c) {hL : P.Lawful c.g.n K} {y : Nat} {s : PR P.σ} (h : Inv hL y s) :
    Inv hL y (globalRelabel P c false s) ∧ ∀ v, v < c.g.n → s.dist v ≤ (globalRelabel P c false s).dist v := by
  have hstart : relStart P c false s =
      { dist := fun v => if v < c.g.n then max (s.dist v) c.g.n else s.dist v, count := s.count,
        touched := fun _ => false, queue := [] } := by
    unfold relStart
    rw [Bool.and_false, if_neg (by simp)]
  have hcnt : CountOk c (fun v => if v < c.g.n then max (s.dist v) c.g.n else s.dist v) s.count := by
    intro l h1 h2
    have h3 := h.lab.cnt l h1 h2
    have h4 : level c (fun v => if v < c.g.n then max (s.dist v) c.g.n else s.dist v) l = 0 := by
      unfold level
      rw [Finset.card_eq_zero, Finset.filter_eq_empty_iff]
      rintro v hv ⟨-, he⟩
      dsimp only at he
      rw [if_pos (Finset.mem_range.1 hv)] at he
      omega
    rw [h4]
    omega
  obtain ⟨j1, j2⟩ := start_ok (cut := false) hc (fun t r => false || decide (res P c s t r > 0)) (b0 := relStart P c false s)
    (by rw [hstart]; exact fun _ => rfl) (by rw [hstart]) (by rw [hstart]; exact hcnt) (fun h => by simp at h)
  obtain ⟨k1, k2⟩ := search_ok hc j1 j2
  unfold globalRelabel
  dsimp only
  rw [Bool.and_false, Bool.false_and, if_neg (by simp)]
  generalize (relStep c false _)^[c.g.n + c.ts.length] _ = b at k1 k2
  have hbase : ∀ v, v < c.g.n → (relStart P c false s).dist v = max (s.dist v) c.g.n := by
    intro v hv; rw [hstart]; dsimp only; rw [if_pos hv]
  have hE : ∀ u v, Allowed c.g (fun t r => false || decide (res P c s t r > 0)) u v ↔ REdge c.g s.flow u v := by
    intro u v
    unfold Allowed REdge res
    refine and_congr_right fun _ => exists_congr fun e => and_congr_right fun _ => and_congr_right fun _ => ?_
    simp
  have hmono : ∀ d v, b.touched v = true → v ≠ c.src → b.dist v = d → s.dist v ≤ d := by
    intro d
    induction d with
    | zero =>
      intro v hv hs hd
      rcases k1.low v hv hs with ⟨-, h1⟩ | ⟨p, -, -, -, h1⟩
      · rw [h.lab.sinks v h1 hs]
      · omega
    | succ d ih =>
      intro v hv hs hd
      rcases k1.low v hv hs with ⟨h1, -⟩ | ⟨p, p1, p2, p3, p4⟩
      · omega
      · have h1 := h.lab.val v p ((hE v p).1 p3)
        have h2 := ih p p1 p2 (by omega)
        omega
  have hno : ∀ d v, b.touched v = true → v ≠ c.src → b.dist v = d → ¬ RReach c.g s.flow c.src v := by
    intro d
    induction d with
    | zero =>
      intro v hv hs hd hr
      rcases k1.low v hv hs with ⟨-, h1⟩ | ⟨p, -, -, -, h1⟩
      · have h2 := climb hc.cons h.lab.val (hc.lt _ hc.src) hr
        rw [h.lab.src, h.lab.sinks v h1 hs] at h2
        omega
      · omega
    | succ d ih =>
      intro v hv hs hd hr
      rcases k1.low v hv hs with ⟨h1, -⟩ | ⟨p, p1, p2, p3, p4⟩
      · omega
      · exact ih p p1 p2 (by omega) (hr.tail ((hE v p).1 p3))
  have hlt : ∀ u v, REdge c.g s.flow u v → v < c.g.n := fun u v huv =>
    rreach_lt hc.cons huv.1 (Relation.ReflTransGen.single huv)
  have hlab := labels_of_search (f := s.flow) hc k1 k2 (fun u v huv => (hE u v).2 huv)
    (fun v hv ht hs => hno _ v ht hs rfl (Relation.ReflTransGen.single hv))
    (fun v hv _ => by rw [hbase v (hlt _ _ hv)]; omega)
    (fun u v huv _ _ => by
      have := h.lab.val u v huv
      rw [hbase u huv.1, hbase v (hlt _ _ huv)]; omega)
    (fun u hu _ => by
      have := h.lab.val u _ hu
      rw [h.lab.src] at this
      rw [hbase u hu.1]; omega)
    (fun _ v hv _ => by rw [hbase v hv]; omega) (fun h => by simp at h) (fun h => by simp at h)
    (fun v hv _ => by
      have := h.lab.le v hv
      rw [hbase v hv]; omega)
  refine ⟨⟨h.pre, hlab, ⟨h.queue.rel, h.queue.term, h.queue.full⟩, h.reach⟩, fun v hv => ?_⟩
  cases ht : b.touched v with
  | true =>
    by_cases e : v = c.src
    · rw [e, h.lab.src, k1.srcD]
    · exact hmono _ v ht e rfl
  | false => rw [k1.fresh v ht, hbase v hv]; omega

/-- The first global relabelling. -/
theorem globalRelabel_initial (hc : CfgOk c) {s : PR P.σ} (hsat : ∀ v, ¬ REdge c.g s.flow c.src v)
    (hd : ∀ v, v ≠ c.src → s.dist v = 0) (hds : s.dist c.src = c.g.n) (hct : ∀ l, 0 < l → l < c.g.n → 0 ≤ s.count l) :
    Labels c s.flow (globalRelabel P c true s).dist (globalRelabel P c true s).count := by
  have hsn := hc.lt _ hc.src
  have hlt : ∀ u v, REdge c.g s.flow u v → v < c.g.n := fun u v huv =>
    rreach_lt hc.cons huv.1 (Relation.ReflTransGen.single huv)
  have hE : ∀ u v, REdge c.g s.flow u v → Allowed c.g (fun t r => true || decide (res P c s t r > 0)) u v :=
    fun u v ⟨hu, e, he, ht, _⟩ => ⟨hu, e, he, ht, by simp⟩
  by_cases hlim : c.limited = true
  · -- partial relabelling
    have hstart : relStart P c true s =
        { dist := fun _ => c.depth + 1, count := update (update s.count 0 0) (c.depth + 1) (c.g.n - 1),
          touched := fun _ => false, queue := [] } := by
      unfold relStart
      rw [if_pos (by simp [hlim])]
    have hcnt : CountOk c (fun _ => c.depth + 1) (update (update s.count 0 0) (c.depth + 1) (c.g.n - 1)) := by
      intro l h1 h2
      by_cases e : l = c.depth + 1
      · subst e
        rw [update_self]
        have h3 : level c (fun _ => c.depth + 1) (c.depth + 1) ≤ c.g.n - 1 := by
          unfold level
          have : ((range c.g.n).filter fun v => v ≠ c.src ∧ c.depth + 1 = c.depth + 1) ⊆ (range c.g.n).erase c.src := by
            intro v hv
            rw [Finset.mem_filter] at hv
            exact Finset.mem_erase.2 ⟨hv.2.1, hv.1⟩
          have := Finset.card_le_card this
          rwa [Finset.card_erase_of_mem (Finset.mem_range.2 hsn), Finset.card_range] at this
        omega
      · rw [update_of_ne e, update_of_ne (by omega)]
        have h4 : level c (fun _ => c.depth + 1) l = 0 := by
          unfold level
          rw [Finset.card_eq_zero, Finset.filter_eq_empty_iff]
          rintro v hv ⟨-, he⟩
          dsimp only at he
          omega
        rw [h4]
        have := hct l h1 h2
        omega
    obtain ⟨hs1, hs2⟩ := hc.sink hlim
    have hsk := hc.lt _ hs1
    have hn2 : 2 ≤ c.g.n := by omega
    have hdep := hc.depth hlim
    have fin : ∀ b, BInv c true (fun t r => true || decide (res P c s t r > 0)) (relStart P c true s).dist c.g.n b → b.queue = [] →
        Labels c s.flow b.dist b.count := by
      intro b k1 k2
      have hbase : ∀ v, (relStart P c true s).dist v = c.depth + 1 := by intro v; rw [hstart]
      refine labels_of_search hc k1 k2 hE (fun v hv _ _ => hsat v hv) (fun v hv _ => (hsat v hv).elim)
        (fun u v _ _ _ => by rw [hbase, hbase]; omega) (fun u _ _ => by rw [hbase]; omega) (fun h => by simp at h)
        (fun _ v _ _ => hbase v) (fun _ => hdep) (fun v _ _ => by rw [hbase]; omega)
    unfold globalRelabel
    dsimp only
    by_cases hd0 : c.depth + 1 ≤ 1
    · rw [if_pos (by simp [hlim, hd0])]
      -- only the terminals get labels
      obtain ⟨j1, -⟩ := start_ok (cut := false) hc (fun t r => true || decide (res P c s t r > 0)) (b0 := relStart P c true s)
        (by rw [hstart]; exact fun _ => rfl) (by rw [hstart]) (by rw [hstart]; exact hcnt) (fun h => by simp at h)
      obtain ⟨i1, i2, -, -⟩ := relSinks_ok (c := c) c.ts (relStart P c true s) hc.lt (by rw [hstart]; exact hcnt) _ rfl
      generalize c.ts.foldl (relSink c) (relStart P c true s) = b at j1 i1 i2
      have := fin { b with touched := update b.touched c.src true, queue := [] }
        ⟨fun v hv => by simp at hv, j1.tlt, j1.fresh, j1.srcT, j1.srcD, j1.low,
          fun v hv hs _ _ => Or.inl ⟨rfl, by omega⟩, List.Pairwise.nil, fun q hq => by simp at hq, ?_, fun _ q hq => by simp at hq,
          j1.cnt, j1.sinks⟩ rfl
      · exact this
      · intro _ v hv hs
        dsimp only at hv ⊢
        rw [update_of_ne hs, i2, hstart] at hv
        have hm : v ∈ c.ts := by simpa [hs] using hv
        rw [i1, if_pos hm, if_neg hs]
        omega
    · rw [if_neg (by simp [hd0])]
      obtain ⟨j1, j2⟩ := start_ok (cut := true) hc (fun t r => true || decide (res P c s t r > 0)) (b0 := relStart P c true s)
        (by rw [hstart]; exact fun _ => rfl) (by rw [hstart]) (by rw [hstart]; exact hcnt) (fun h => by omega)
      obtain ⟨k1, k2⟩ := search_ok hc j1 j2
      have hb : (c.limited && true) = true := by simp [hlim]
      rw [hb]
      exact fin _ k1 k2
  · have hstart : relStart P c true s =
        { dist := fun v => if v < c.g.n then max (s.dist v) c.g.n else s.dist v, count := s.count,
          touched := fun _ => false, queue := [] } := by
      unfold relStart
      rw [if_neg (by simp [hlim])]
    have hbase : ∀ v, v < c.g.n → (relStart P c true s).dist v = c.g.n := by
      intro v hv; rw [hstart]; dsimp only; rw [if_pos hv]
      by_cases e : v = c.src
      · rw [e, hds, max_self]
      · rw [hd v e]; omega
    have hcnt : CountOk c (relStart P c true s).dist s.count := by
      intro l h1 h2
      have h4 : level c (relStart P c true s).dist l = 0 := by
        unfold level
        rw [Finset.card_eq_zero, Finset.filter_eq_empty_iff]
        rintro v hv ⟨-, he⟩
        rw [hbase v (Finset.mem_range.1 hv)] at he
        omega
      rw [h4]
      exact hct l h1 h2
    obtain ⟨j1, j2⟩ := start_ok (cut := false) hc (fun t r => true || decide (res P c s t r > 0)) (b0 := relStart P c true s)
      (by rw [hstart]; exact fun _ => rfl) (by rw [hstart]) (by rw [hstart]; rw [hstart] at hcnt; exact hcnt) (fun h => by simp at h)
    obtain ⟨k1, k2⟩ := search_ok hc j1 j2
    unfold globalRelabel
    dsimp only
    have hb : (c.limited && true) = false := by simp [hlim]
    rw [hb, Bool.false_and, if_neg (by simp)]
    refine labels_of_search hc k1 k2 hE (fun v hv _ _ => hsat v hv) (fun v hv _ => (hsat v hv).elim)
      (fun u v huv _ _ => by rw [hbase u huv.1, hbase v (hlt _ _ huv)]; omega) (fun u hu _ => by rw [hbase u hu.1]; omega)
      (fun _ v hv _ => by rw [hbase v hv]) (fun h => by simp at h) (fun h => by simp at h)
      (fun v hv _ => by rw [hbase v hv]; omega)

end PushRelabel
end VieCut
