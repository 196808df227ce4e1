import Verif.Proof.PushRelabelStep

namespace VieCut
open Finset Function

namespace PushRelabel

variable {P : PQ} {c : Cfg} {K : Nat}

/-- The invariant of the main loop; vertex `x` may have excess without being active. -/
structure Inv (hL : P.Lawful c.g.n K) (x : Nat) (s : PR P.σ) : Prop where
  pre : Preflow c.g c.src s.flow s.excess
  lab : Labels c s.flow s.dist s.count
  queue : Queue hL x s
  reach : s.reached = true → c.limited = true ∧ c.limit ≤ s.excess c.sink

theorem redge_sent {g : MGraph} (hg : g.Consistent) {f : Nat → Nat → Int} {u e : Nat} {a : Int} (hu : u < g.n) (he : e < g.len u)
    (ha : 0 ≤ a) {x y : Nat} (h : REdge g (sent g f u e a) x y) : REdge g f x y ∨ (x = (g.edge u e).target ∧ y = u) := by
  obtain ⟨hx, i, hi, rfl, hlt⟩ := h
  by_cases h1 : x = u
  · subst h1
    rw [sent_self hg hu he] at hlt
    by_cases h2 : i = e
    · subst h2
      rw [update_self] at hlt
      exact Or.inl ⟨hx, i, hi, rfl, by omega⟩
    · rw [update_of_ne h2] at hlt
      exact Or.inl ⟨hx, i, hi, rfl, hlt⟩
  · by_cases h2 : x = (g.edge u e).target
    · subst h2
      rw [sent_target hg hu he] at hlt
      by_cases h3 : i = (g.edge u e).rev
      · subst h3
        exact Or.inr ⟨rfl, (hg.back u e hu he).1⟩
      · rw [update_of_ne h3] at hlt
        exact Or.inl ⟨hx, i, hi, rfl, hlt⟩
    · rw [sent_other h1 h2] at hlt
      exact Or.inl ⟨hx, i, hi, rfl, hlt⟩

/-- What the loop of `discharge` over the first `k` edges gives. -/
structure PushedUpTo (hL : P.Lawful c.g.n K) (u k : Nat) (s s' : PR P.σ) : Prop where
  inv : Inv hL u s'
  dist : s'.dist = s.dist
  active : ∀ v, s'.active v = true → s.active v = true ∨ s.dist v < s.dist u
  done : 0 < s'.excess u → ∀ e, e < k → s'.flow u e < (c.g.edge u e).weight → s.dist u ≤ s.dist (c.g.edge u e).target

theorem pushAll_ok (hc : CfgOk c) {hL : P.Lawful c.g.n K} (hK : ∀ d, d ≤ 2 * c.g.n → qkey c.limited d ≤ K)
    {s : PR P.σ} {u : Nat} (h : Inv hL u s) (hu : u < c.g.n) (hut : u ∉ c.ts) :
    PushedUpTo hL u (c.g.len u) s (pushAll P c s u) := by
  have key : ∀ k, k ≤ c.g.len u → PushedUpTo hL u k s
      ((List.range k).foldl (fun s' e => if s'.excess u = 0 then s' else push P c s' u e (s.dist u)) s) := by
    intro k
    induction k with
    | zero => intro _; exact ⟨h, rfl, fun v hv => Or.inl hv, fun _ e he => by omega⟩
    | succ k ih =>
      intro hk
      have ih := ih (by omega)
      rw [List.range_succ, List.foldl_append]
      generalize (List.range k).foldl (fun s' e => if s'.excess u = 0 then s' else push P c s' u e (s.dist u)) s = s1 at ih
      simp only [List.foldl_cons, List.foldl_nil]
      by_cases h0 : s1.excess u = 0
      · rw [if_pos h0]
        exact ⟨ih.inv, ih.dist, ih.active, fun hp => by omega⟩
      rw [if_neg h0]
      have hpos : 0 < s1.excess u := by have := ih.inv.pre.nonneg u; omega
      have hcap := ih.inv.pre.cap u k hu (by omega)
      by_cases hd : s.dist u ≤ s1.dist (c.g.edge u k).target
      · rw [push_skip (Or.inl hd)]
        refine ⟨ih.inv, ih.dist, ih.active, fun hp e he hlt => ?_⟩
        rcases Nat.lt_succ_iff_lt_or_eq.1 he with h1 | h1
        · exact ih.done hp e h1 hlt
        · subst h1; rw [ih.dist] at hd; exact hd
      obtain ⟨a, ha⟩ : ∃ a, min (res P c s1 u k) (s1.excess u) = a := ⟨_, rfl⟩
      have hres : res P c s1 u k = ((c.g.edge u k).weight : Int) - s1.flow u k := rfl
      by_cases ha0 : a = 0
      · rw [push_skip (Or.inr (ha.trans ha0))]
        refine ⟨ih.inv, ih.dist, ih.active, fun hp e he hlt => ?_⟩
        rcases Nat.lt_succ_iff_lt_or_eq.1 he with h1 | h1
        · exact ih.done hp e h1 hlt
        · subst h1; omega
      have hap : 0 < a := by omega
      have hle := h.lab.le u hu
      have hP := push_spec hc hK (hL := hL) (x := u) hu (by omega : k < c.g.len u) (by omega : s.dist u ≤ 2 * c.g.n) hd ha hap
      generalize push P c s1 u k (s.dist u) = s2 at hP
      have hk' : k < c.g.len u := by omega
      have hne := hc.cons.noLoop u k hu hk'
      have hus : u ≠ c.src := fun e => hut (e ▸ hc.src)
      have hx : s2.excess u = s1.excess u - a := by rw [hP.excess, excessSent_self hc.cons hu hk']
      refine ⟨⟨?_, ⟨?_, ?_, ?_, ?_, ?_, ?_⟩, hP.queue ih.inv.queue, ?_⟩, hP.dist.trans ih.dist, ?_, ?_⟩
      · rw [hP.flow, hP.excess]
        exact ih.inv.pre.send hc.cons hu hk' hap.le (by omega) (by omega)
      · intro x y hxy
        rw [hP.flow] at hxy
        rw [hP.dist]
        rcases redge_sent hc.cons hu hk' hap.le hxy with h1 | ⟨rfl, rfl⟩
        · exact ih.inv.lab.val x y h1
        · rw [ih.dist] at hd ⊢; omega
      · rw [hP.dist]; exact ih.inv.lab.src
      · rw [hP.dist]; exact ih.inv.lab.sinks
      · rw [hP.dist]; exact ih.inv.lab.pos
      · rw [hP.dist]; exact ih.inv.lab.le
      · rw [hP.dist, hP.count]; exact ih.inv.lab.cnt
      · intro hr
        by_cases hsk : u = c.sink
        · by_cases hlim : c.limited = true
          · exact absurd (hsk ▸ (hc.sink hlim).1) hut
          · -- without a limit nothing is ever reached
            exfalso
            have h3 : s1.reached = true → False := fun h => hlim (ih.inv.reach h).1
            have := hP.unlimited hlim hr
            exact h3 this
        · exact hP.reach hsk ih.inv.reach hr
      · intro v hv
        rcases hP.active v hv with h1 | rfl
        · exact ih.active v h1
        · right; rw [ih.dist] at hd; omega
      · intro hp e he hlt
        rw [hx] at hp
        rw [hP.flow, sent_self hc.cons hu hk'] at hlt
        rcases Nat.lt_succ_iff_lt_or_eq.1 he with h1 | h1
        · rw [update_of_ne (by omega)] at hlt
          exact ih.done hpos e h1 hlt
        · subst h1; rw [update_self] at hlt; omega
  exact key _ (le_refl _)

/-! ### Relabelling one vertex -/

theorem newLabel_spec (s : PR P.σ) (u : Nat) :
    newLabel P c s u ≤ 2 * c.g.n ∧
    (∀ e, e < c.g.len u → s.flow u e < (c.g.edge u e).weight → newLabel P c s u ≤ s.dist (c.g.edge u e).target + 1) ∧
    (newLabel P c s u = 2 * c.g.n ∨
      ∃ e, e < c.g.len u ∧ s.flow u e < (c.g.edge u e).weight ∧ newLabel P c s u = s.dist (c.g.edge u e).target + 1) := by
  unfold newLabel
  generalize c.g.len u = k
  induction k with
  | zero => exact ⟨le_refl _, fun e he => by omega, Or.inl rfl⟩
  | succ k ih =>
    rw [List.range_succ, List.foldl_append]
    generalize (List.range k).foldl (fun d e => if res P c s u e > 0 then min d (s.dist (c.g.edge u e).target + 1) else d)
      (2 * c.g.n) = d at ih
    simp only [List.foldl_cons, List.foldl_nil]
    obtain ⟨h1, h2, h3⟩ := ih
    have hr : res P c s u k = ((c.g.edge u k).weight : Int) - s.flow u k := rfl
    by_cases h0 : res P c s u k > 0
    · rw [if_pos h0]
      refine ⟨by omega, ?_, ?_⟩
      · intro e he hlt
        rcases Nat.lt_succ_iff_lt_or_eq.1 he with h | h
        · have := h2 e h hlt; omega
        · subst h; omega
      · by_cases h4 : d ≤ s.dist (c.g.edge u k).target + 1
        · rw [min_eq_left h4]
          rcases h3 with h3 | ⟨e, he, h5⟩
          · exact Or.inl h3
          · exact Or.inr ⟨e, by omega, h5⟩
        · exact Or.inr ⟨k, by omega, by omega, min_eq_right (by omega)⟩
    · rw [if_neg h0]
      refine ⟨h1, ?_, ?_⟩
      · intro e he hlt
        rcases Nat.lt_succ_iff_lt_or_eq.1 he with h | h
        · exact h2 e h hlt
        · subst h; omega
      · rcases h3 with h3 | ⟨e, he, h5⟩
        · exact Or.inl h3
        · exact Or.inr ⟨e, by omega, h5⟩

theorem relabel_ok (hc : CfgOk c) {hL : P.Lawful c.g.n K} (hK : ∀ d, d ≤ 2 * c.g.n → qkey c.limited d ≤ K)
    {s : PR P.σ} {u : Nat} (h : Inv hL u s) (hu : u < c.g.n) (hut : u ∉ c.ts) (hx : 0 < s.excess u)
    (hdone : ∀ e, e < c.g.len u → s.flow u e < (c.g.edge u e).weight → s.dist u ≤ s.dist (c.g.edge u e).target) (y : Nat) :
    Inv hL y (relabel P c s u) ∧ (∀ v, v < c.g.n → s.dist v ≤ (relabel P c s u).dist v) ∧
      s.dist u < (relabel P c s u).dist u := by
  obtain ⟨n1, n2, n3⟩ := newLabel_spec (c := c) s u
  have hus : u ≠ c.src := fun e => hut (e ▸ hc.src)
  have hle := h.lab.le u hu
  have hgt : s.dist u < newLabel P c s u := by
    rcases n3 with h3 | ⟨e, he, hlt, h3⟩
    · omega
    · have := hdone e he hlt; omega
  have hval : ValidLabels c.g s.flow (update s.dist u (newLabel P c s u)) := by
    intro a b hab
    have hv := h.lab.val a b hab
    obtain ⟨ha, e, he, rfl, hlt⟩ := hab
    have hne := hc.cons.noLoop a e ha he
    by_cases e1 : a = u
    · subst e1
      rw [update_self, update_of_ne hne]
      exact n2 e he hlt
    · rw [update_of_ne e1]
      by_cases e2 : (c.g.edge a e).target = u
      · rw [e2, update_self]; rw [e2] at hv; omega
      · rw [update_of_ne e2]; exact hv
  have hbound : newLabel P c s u + 1 ≤ 2 * c.g.n := by
    have h1 := climb hc.cons hval hu (excess_reach hc.cons h.pre hu hx)
    rw [update_self, update_of_ne (Ne.symm hus), h.lab.src] at h1
    omega
  unfold relabel
  dsimp only
  refine ⟨⟨?_, ⟨?_, ?_, ?_, ?_, ?_, ?_⟩, ?_, ?_⟩, ?_, ?_⟩
  · rw [enqueue_flow, enqueue_excess]; exact h.pre
  · rw [enqueue_flow, enqueue_dist]; exact hval
  · rw [enqueue_dist]; dsimp only; rw [update_of_ne (Ne.symm hus)]; exact h.lab.src
  · intro t ht hts
    rw [enqueue_dist]; dsimp only
    rw [update_of_ne (fun e => hut (by rw [← e]; exact ht))]
    exact h.lab.sinks t ht hts
  · intro v hv hvt
    rw [enqueue_dist]; dsimp only
    by_cases e : v = u
    · subst e; rw [update_self]; omega
    · rw [update_of_ne e]; exact h.lab.pos v hv hvt
  · intro v hv
    rw [enqueue_dist]; dsimp only
    by_cases e : v = u
    · subst e; rw [update_self]; omega
    · rw [update_of_ne e]; exact h.lab.le v hv
  · rw [enqueue_dist, enqueue_count]
    exact h.lab.cnt.move hu hus _
  · refine Queue.clear (x := u) (Queue.enqueue hK ?_ hu ?_) ?_ y
    · exact ⟨h.queue.rel, h.queue.term, h.queue.full⟩
    · dsimp only; rw [update_self]; omega
    · intro _
      exact (enqueue_active _ _ _).2 (Or.inr ⟨rfl, hx⟩)
  · rw [enqueue_reached, enqueue_excess]; exact h.reach
  · intro v _
    rw [enqueue_dist]; dsimp only
    by_cases e : v = u
    · subst e; rw [update_self]; omega
    · rw [update_of_ne e]
  · rw [enqueue_dist]; dsimp only; rw [update_self]; exact hgt

/-! ### The gap heuristic -/

/-- Labels after the gap heuristic treated the first `i` vertices. -/
def gapped (n l : Nat) (d : Nat → Nat) (i : Nat) : Nat → Nat := fun v => if v < i ∧ l ≤ d v then max (d v) n else d v

theorem gap_ok (hc : CfgOk c) {hL : P.Lawful c.g.n K} (hK : ∀ d, d ≤ 2 * c.g.n → qkey c.limited d ≤ K)
    {s : PR P.σ} {u : Nat} (h : Inv hL u s) (hu : u < c.g.n) (hut : u ∉ c.ts) (hx : 0 < s.excess u)
    (hdone : ∀ e, e < c.g.len u → s.flow u e < (c.g.edge u e).weight → s.dist u ≤ s.dist (c.g.edge u e).target)
    (hone : s.count (s.dist u) = 1) (hlt : s.dist u < c.g.n) (y : Nat) :
    Inv hL y (gap P c s (s.dist u)) ∧ (∀ v, v < c.g.n → s.dist v ≤ (gap P c s (s.dist u)).dist v) ∧
      s.dist u < (gap P c s (s.dist u)).dist u := by
  have hpos := h.lab.pos u hu hut
  have hus : u ≠ c.src := fun e => hut (e ▸ hc.src)
  obtain ⟨l, hl⟩ : ∃ l, s.dist u = l := ⟨_, rfl⟩
  rw [hl] at hone hlt hpos ⊢
  have key : ∀ i, i ≤ c.g.n → ∀ s', (List.range i).foldl (fun s v =>
      if s.dist v < l then s
      else
        let c1 := update s.count (s.dist v) (s.count (s.dist v) - 1)
        let d' := max (s.dist v) c.g.n
        enqueue P c { s with count := update c1 d' (c1 d' + 1), dist := update s.dist v d' } v) s = s' →
      s'.flow = s.flow ∧ s'.excess = s.excess ∧ s'.reached = s.reached ∧ s'.dist = gapped c.g.n l s.dist i ∧
      CountOk c s'.dist s'.count ∧ Queue hL u s' ∧ (u < i → s'.active u = true) := by
    intro i
    induction i with
    | zero =>
      rintro - s' rfl
      refine ⟨rfl, rfl, rfl, ?_, h.lab.cnt, h.queue, fun h => by omega⟩
      funext v
      simp [gapped]
    | succ i ih =>
      intro hi s' hs'
      obtain ⟨e1, e2, e3, e4, e5, e6, e7⟩ := ih (by omega) _ rfl
      rw [List.range_succ, List.foldl_append] at hs'
      generalize (List.range i).foldl _ s = s1 at hs' e1 e2 e3 e4 e5 e6 e7
      simp only [List.foldl_cons, List.foldl_nil] at hs'
      have hdi : s1.dist i = s.dist i := by rw [e4]; simp [gapped]
      by_cases h1 : s1.dist i < l
      · rw [if_pos h1] at hs'
        subst hs'
        refine ⟨e1, e2, e3, ?_, e5, e6, ?_⟩
        · rw [e4]
          funext v
          unfold gapped
          by_cases ev : v = i
          · subst ev; rw [hdi] at h1
            rw [if_neg (by omega), if_neg (by omega)]
          · have : v < i + 1 ↔ v < i := by omega
            simp only [this]
        · intro hui
          rcases Nat.lt_succ_iff_lt_or_eq.1 hui with h2 | h2
          · exact e7 h2
          · subst h2; omega
      · rw [if_neg h1] at hs'
        have hlei := h.lab.le i (by omega)
        subst hs'
        refine ⟨by rw [enqueue_flow]; exact e1, by rw [enqueue_excess]; exact e2, by rw [enqueue_reached]; exact e3, ?_, ?_, ?_, ?_⟩
        · rw [enqueue_dist]
          dsimp only
          rw [e4]
          funext v
          unfold gapped
          by_cases ev : v = i
          · subst ev
            rw [update_self, if_neg (by omega : ¬ (v < v ∧ _)), if_pos ⟨by omega, by omega⟩]
          · have : v < i + 1 ↔ v < i := by omega
            rw [update_of_ne ev]
            simp only [this]
        · rw [enqueue_dist, enqueue_count]
          dsimp only
          by_cases his : i = c.src
          · subst his
            have hsn : s1.dist c.src = c.g.n := by rw [hdi]; exact h.lab.src
            rw [hsn, max_self]
            intro l' h2 h3
            have e8 : update s1.dist c.src c.g.n = s1.dist := by rw [← hsn, update_eq_self]
            rw [e8, update_of_ne (by omega), update_of_ne (by omega)]
            exact e5 l' h2 h3
          · exact e5.move (by omega) his _
        · refine Queue.enqueue hK ?_ (by omega : i < c.g.n) ?_
          · exact ⟨e6.rel, e6.term, e6.full⟩
          · dsimp only
            rw [update_self]
            omega
        · intro hui
          rw [enqueue_active]
          rcases Nat.lt_succ_iff_lt_or_eq.1 hui with h2 | h2
          · exact Or.inl (e7 h2)
          · right; exact ⟨h2, by dsimp only; rw [e2, ← h2]; exact hx⟩
  obtain ⟨e1, e2, e3, e4, e5, e6, e7⟩ := key c.g.n (le_refl _) _ rfl
  change Inv hL y (gap P c s l) ∧ (∀ v, v < c.g.n → s.dist v ≤ (gap P c s l).dist v) ∧ l < (gap P c s l).dist u
  have hgap : gap P c s l = (List.range c.g.n).foldl (fun s v =>
      if s.dist v < l then s
      else
        let c1 := update s.count (s.dist v) (s.count (s.dist v) - 1)
        let d' := max (s.dist v) c.g.n
        enqueue P c { s with count := update c1 d' (c1 d' + 1), dist := update s.dist v d' } v) s := rfl
  rw [← hgap] at e1 e2 e3 e4 e5 e6 e7
  clear hgap key
  generalize gap P c s l = s' at *
  have hd' : ∀ v, v < c.g.n → s'.dist v = if l ≤ s.dist v then max (s.dist v) c.g.n else s.dist v := by
    intro v hv; rw [e4]; simp [gapped, hv]
  have huniq : ∀ v, v < c.g.n → v ≠ c.src → s.dist v = l → v = u := by
    intro v hv hvs hvl
    have h1 := h.lab.cnt l (by omega) hlt
    rw [hone] at h1
    have h2 : level c s.dist l ≤ 1 := by omega
    unfold level at h2
    exact Finset.card_le_one.1 h2 v (Finset.mem_filter.2 ⟨Finset.mem_range.2 hv, hvs, hvl⟩) u
      (Finset.mem_filter.2 ⟨Finset.mem_range.2 hu, hus, hl⟩)
  have hsrcn := hc.lt _ hc.src
  refine ⟨⟨?_, ⟨?_, ?_, ?_, ?_, ?_, e5⟩, e6.clear (fun _ => e7 hu) y, ?_⟩, ?_, ?_⟩
  · rw [e1, e2]; exact h.pre
  · intro a b hab
    rw [e1] at hab
    have hv := h.lab.val a b hab
    have hb := rreach_lt hc.cons hab.1 (Relation.ReflTransGen.single hab)
    obtain ⟨ha, e, he, rfl, hf⟩ := hab
    rw [hd' _ ha, hd' _ hb]
    by_cases q1 : l ≤ s.dist a
    · rw [if_pos q1]
      by_cases q2 : l ≤ s.dist (c.g.edge a e).target
      · rw [if_pos q2]; omega
      · exfalso
        have q3 : s.dist a = l := by omega
        have q4 : a ≠ c.src := fun ea => by rw [ea, h.lab.src] at q3; omega
        have q5 := huniq a ha q4 q3
        subst q5
        have := hdone e he hf
        omega
    · rw [if_neg q1]
      split <;> omega
  · rw [hd' _ hsrcn, h.lab.src, max_self, ite_self]
  · intro t ht hts
    rw [hd' _ (hc.lt t ht), h.lab.sinks t ht hts, if_neg (by omega)]
  · intro v hv hvt
    have := h.lab.pos v hv hvt
    rw [hd' _ hv]; split <;> omega
  · intro v hv
    have := h.lab.le v hv
    rw [hd' _ hv]; split <;> omega
  · rw [e3, e2]; exact h.reach
  · intro v hv
    rw [hd' _ hv]; split <;> omega
  · rw [hd' _ hu, hl, if_pos (le_refl _)]; omega

/-- One discharge of vertex `u`: progress in the labels, or in the set of active vertices. -/
theorem discharge_ok (hc : CfgOk c) {hL : P.Lawful c.g.n K} (hK : ∀ d, d ≤ 2 * c.g.n → qkey c.limited d ≤ K)
    {s : PR P.σ} {u : Nat} (h : Inv hL u s) (hu : u < c.g.n) (hut : u ∉ c.ts) (y : Nat) :
    Inv hL y (discharge P c s u) ∧ (∀ v, v < c.g.n → s.dist v ≤ (discharge P c s u).dist v) ∧
      (s.dist u < (discharge P c s u).dist u ∨ ((discharge P c s u).dist = s.dist ∧
        ∀ v, (discharge P c s u).active v = true → s.active v = true ∨ s.dist v < s.dist u)) := by
  have hp := pushAll_ok hc hK h hu hut
  unfold discharge
  dsimp only
  generalize pushAll P c s u = s1 at hp
  obtain ⟨h1, h2, h3, h4⟩ := hp
  by_cases hx : s1.excess u > 0
  · rw [if_pos hx]
    have hdone : ∀ e, e < c.g.len u → s1.flow u e < (c.g.edge u e).weight → s1.dist u ≤ s1.dist (c.g.edge u e).target := by
      rw [h2]; exact h4 hx
    split
    · rename_i hif
      obtain ⟨r1, r2, r3⟩ := gap_ok hc hK h1 hu hut hx hdone hif.1 hif.2 y
      refine ⟨r1, ?_, Or.inl ?_⟩
      · rw [← h2]; exact r2
      · rw [← h2]; exact r3
    · obtain ⟨r1, r2, r3⟩ := relabel_ok hc hK h1 hu hut hx hdone y
      refine ⟨r1, ?_, Or.inl ?_⟩
      · rw [← h2]; exact r2
      · rw [← h2]; exact r3
  · rw [if_neg hx]
    exact ⟨⟨h1.pre, h1.lab, h1.queue.clear (fun h => absurd h hx) y, h1.reach⟩, fun v _ => by rw [h2], Or.inr ⟨h2, h3⟩⟩

end PushRelabel
end VieCut
