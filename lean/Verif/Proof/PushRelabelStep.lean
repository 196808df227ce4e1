import Verif.Proof.PushRelabel

namespace VieCut
open Finset Function

namespace PushRelabel

/-- What the caller has to provide. -/
structure CfgOk (c : Cfg) : Prop where
  cons : c.g.Consistent
  nodup : c.ts.Nodup
  src : c.src ∈ c.ts
  lt : ∀ t ∈ c.ts, t < c.g.n
  sink : c.limited = true → c.sink ∈ c.ts ∧ c.sink ≠ c.src
  depth : c.limited = true → c.depth ≤ c.g.n
  fresh : ∀ u e, c.flow0 u e = 0

/-- Number of vertices other than the source with label `l`. -/
def level (c : Cfg) (d : Nat → Nat) (l : Nat) : Nat := ((range c.g.n).filter fun v => v ≠ c.src ∧ d v = l).card

/-- The counters are never too small. -/
def CountOk (c : Cfg) (d : Nat → Nat) (count : Nat → Int) : Prop :=
  ∀ l, 0 < l → l < c.g.n → (level c d l : Int) ≤ count l

/-- Labels and counters. -/
structure Labels (c : Cfg) (f : Nat → Nat → Int) (d : Nat → Nat) (count : Nat → Int) : Prop where
  val : ValidLabels c.g f d
  src : d c.src = c.g.n
  sinks : ∀ t ∈ c.ts, t ≠ c.src → d t = 0
  pos : ∀ v, v < c.g.n → v ∉ c.ts → 1 ≤ d v
  le : ∀ v, v < c.g.n → d v + 1 ≤ 2 * c.g.n
  cnt : CountOk c d count

theorem level_move {c : Cfg} {d : Nat → Nat} {v : Nat} (hv : v < c.g.n) (hs : v ≠ c.src) (y l : Nat) :
    (level c (update d v y) l : Int) = level c d l - (if d v = l then 1 else 0) + if y = l then 1 else 0 := by
  have key : ∀ d' : Nat → Nat, (level c d' l : Int) = ((if d' v = l then 1 else 0 : Int) +
      ∑ w ∈ (range c.g.n).erase v, if w ≠ c.src ∧ d' w = l then 1 else 0) := by
    intro d'
    unfold level
    rw [Finset.card_filter, ← Finset.add_sum_erase _ _ (Finset.mem_range.2 hv)]
    push_cast
    simp only [hs, ne_eq, not_false_eq_true, true_and]
  rw [key, key, update_self]
  have : ∑ w ∈ (range c.g.n).erase v, (if w ≠ c.src ∧ update d v y w = l then 1 else 0 : Int) =
      ∑ w ∈ (range c.g.n).erase v, if w ≠ c.src ∧ d w = l then 1 else 0 :=
    Finset.sum_congr rfl fun w hw => by rw [update_of_ne (Finset.ne_of_mem_erase hw)]
  rw [this]
  omega

theorem CountOk.move {c : Cfg} {d : Nat → Nat} {count : Nat → Int} (h : CountOk c d count) {v : Nat} (hv : v < c.g.n)
    (hs : v ≠ c.src) (y : Nat) :
    CountOk c (update d v y)
      (update (update count (d v) (count (d v) - 1)) y (update count (d v) (count (d v) - 1) y + 1)) := by
  intro l h1 h2
  rw [level_move hv hs]
  have h3 := h l h1 h2
  by_cases c1 : y = l
  · subst c1
    rw [if_pos rfl, update_self]
    by_cases c2 : d v = y
    · rw [if_pos c2, c2, update_self]; omega
    · rw [if_neg c2, update_of_ne (Ne.symm c2)]; omega
  · rw [if_neg c1, update_of_ne (Ne.symm c1)]
    by_cases c2 : d v = l
    · subst c2; rw [if_pos rfl, update_self]; omega
    · rw [if_neg c2, update_of_ne (Ne.symm c2)]; omega

variable {P : PQ} {c : Cfg} {K : Nat}

/-- The queue holds the active vertices, and every vertex with excess (except possibly `x`) is active. -/
structure Queue (hL : P.Lawful c.g.n K) (x : Nat) (s : PR P.σ) : Prop where
  rel : ∃ m, hL.Rel s.q m ∧ ∀ v, m v ≠ none ↔ v < c.g.n ∧ s.active v = true ∧ v ∉ c.ts
  term : ∀ t ∈ c.ts, s.active t = true
  full : ∀ v, v < c.g.n → v ∉ c.ts → v ≠ x → 0 < s.excess v → s.active v = true

@[simp] theorem enqueue_flow (s : PR P.σ) (v : Nat) : (enqueue P c s v).flow = s.flow := by
  unfold enqueue; split <;> [rfl; (split <;> rfl)]
@[simp] theorem enqueue_excess (s : PR P.σ) (v : Nat) : (enqueue P c s v).excess = s.excess := by
  unfold enqueue; split <;> [rfl; (split <;> rfl)]
@[simp] theorem enqueue_dist (s : PR P.σ) (v : Nat) : (enqueue P c s v).dist = s.dist := by
  unfold enqueue; split <;> [rfl; (split <;> rfl)]
@[simp] theorem enqueue_count (s : PR P.σ) (v : Nat) : (enqueue P c s v).count = s.count := by
  unfold enqueue; split <;> [rfl; (split <;> rfl)]
@[simp] theorem enqueue_reached (s : PR P.σ) (v : Nat) : (enqueue P c s v).reached = s.reached := by
  unfold enqueue; split <;> [rfl; (split <;> rfl)]

theorem enqueue_active (s : PR P.σ) (v w : Nat) :
    (enqueue P c s v).active w = true ↔ s.active w = true ∨ (w = v ∧ 0 < s.excess v) := by
  unfold enqueue
  split
  · rename_i h
    exact ⟨Or.inl, fun h' => h'.elim id fun h'' => h''.1 ▸ h⟩
  · split
    · rename_i h1 h2
      by_cases e : w = v
      · subst e; simp [h2]
      · simp [e]
    · rename_i h1 h2
      exact ⟨Or.inl, fun h' => h'.elim id fun h'' => absurd h''.2 h2⟩

theorem enqueue_rel {hL : P.Lawful c.g.n K} (hK : ∀ d, d ≤ 2 * c.g.n → qkey c.limited d ≤ K) {s : PR P.σ}
    (hrel : ∃ m, hL.Rel s.q m ∧ ∀ v, m v ≠ none ↔ v < c.g.n ∧ s.active v = true ∧ v ∉ c.ts)
    (hterm : ∀ t ∈ c.ts, s.active t = true) {v : Nat} (hv : v < c.g.n) (hd : s.dist v ≤ 2 * c.g.n) :
    ∃ m, hL.Rel (enqueue P c s v).q m ∧
      ∀ w, m w ≠ none ↔ w < c.g.n ∧ (enqueue P c s v).active w = true ∧ w ∉ c.ts := by
  by_cases h1 : s.active v = true
  · have : enqueue P c s v = s := by unfold enqueue; rw [if_pos h1]
    rw [this]; exact hrel
  · by_cases h2 : s.excess v > 0
    · have : enqueue P c s v =
          { s with active := update s.active v true, q := P.insert s.q v (qkey c.limited (s.dist v)) } := by
        unfold enqueue; rw [if_neg h1, if_pos h2]
      rw [this]
      obtain ⟨m, hm, hmv⟩ := hrel
      have h3 : m v = none := by
        by_contra hc
        exact h1 ((hmv v).1 hc).2.1
      have h4 : v ∉ c.ts := fun hc => h1 (hterm v hc)
      refine ⟨_, hL.insert _ _ _ _ hm hv (hK _ hd) h3, fun w => ?_⟩
      dsimp only
      by_cases e : w = v
      · subst e; simp [hv, h4]
      · rw [update_of_ne e, update_of_ne e]; exact hmv w
    · have : enqueue P c s v = s := by unfold enqueue; rw [if_neg h1, if_neg h2]
      rw [this]; exact hrel

theorem Queue.enqueue {hL : P.Lawful c.g.n K} (hK : ∀ d, d ≤ 2 * c.g.n → qkey c.limited d ≤ K) {x : Nat} {s : PR P.σ}
    (h : Queue hL x s) {v : Nat} (hv : v < c.g.n) (hd : s.dist v ≤ 2 * c.g.n) : Queue hL x (enqueue P c s v) := by
  refine ⟨enqueue_rel hK h.rel h.term hv hd, fun t ht => (enqueue_active s v t).2 (Or.inl (h.term t ht)), ?_⟩
  intro w hw h1 h2 h3
  rw [enqueue_excess] at h3
  exact (enqueue_active s v w).2 (Or.inl (h.full w hw h1 h2 h3))

theorem Queue.clear {hL : P.Lawful c.g.n K} {x : Nat} {s : PR P.σ} (h : Queue hL x s) (hx : 0 < s.excess x → s.active x = true)
    (y : Nat) : Queue hL y s := by
  refine ⟨h.rel, h.term, fun v hv h1 _ h3 => ?_⟩
  by_cases e : v = x
  · subst e; exact hx h3
  · exact h.full v hv h1 e h3

/-- Excesses after a push. -/
def excessSent (c : Cfg) (x : Nat → Int) (u e : Nat) (a : Int) : Nat → Int :=
  update (update x u (x u - a)) (c.g.edge u e).target (update x u (x u - a) (c.g.edge u e).target + a)

theorem push_skip {s : PR P.σ} {u e d : Nat}
    (h : d ≤ s.dist (c.g.edge u e).target ∨ min (res P c s u e) (s.excess u) = 0) : push P c s u e d = s := by
  unfold push
  dsimp only
  by_cases h1 : d ≤ s.dist (c.g.edge u e).target
  · rw [if_pos h1]
  · rw [if_neg h1, if_pos (h.resolve_left h1)]

theorem push_do {s : PR P.σ} {u e d : Nat} {a : Int} (h1 : ¬ d ≤ s.dist (c.g.edge u e).target)
    (ha : min (res P c s u e) (s.excess u) = a) (h2 : a ≠ 0) :
    push P c s u e d =
      (if c.limited ∧ (c.g.edge u e).target = c.sink ∧ excessSent c s.excess u e a (c.g.edge u e).target ≥ c.limit then
        { s with flow := sent c.g s.flow u e a, excess := excessSent c s.excess u e a, reached := true }
      else enqueue P c { s with flow := sent c.g s.flow u e a, excess := excessSent c s.excess u e a }
        (c.g.edge u e).target) := by
  subst ha
  unfold push
  dsimp only
  rw [if_neg h1, if_neg h2]
  rfl

/-- Everything about one push of `a` units. -/
structure Pushed (hL : P.Lawful c.g.n K) (x : Nat) (s s' : PR P.σ) (u e : Nat) (a : Int) : Prop where
  flow : s'.flow = sent c.g s.flow u e a
  excess : s'.excess = excessSent c s.excess u e a
  dist : s'.dist = s.dist
  count : s'.count = s.count
  queue : Queue hL x s → Queue hL x s'
  mono : ∀ v, s.active v = true → s'.active v = true
  active : ∀ v, s'.active v = true → s.active v = true ∨ v = (c.g.edge u e).target
  reach : u ≠ c.sink → (s.reached = true → c.limited = true ∧ c.limit ≤ s.excess c.sink) →
    s'.reached = true → c.limited = true ∧ c.limit ≤ s'.excess c.sink
  unlimited : c.limited ≠ true → s'.reached = true → s.reached = true

theorem excessSent_other {x : Nat → Int} {u e : Nat} {a : Int} {v : Nat} (h1 : v ≠ u) (h2 : v ≠ (c.g.edge u e).target) :
    excessSent c x u e a v = x v := by
  unfold excessSent; rw [update_of_ne h2, update_of_ne h1]

theorem excessSent_self (hg : c.g.Consistent) {x : Nat → Int} {u e : Nat} {a : Int} (hu : u < c.g.n) (he : e < c.g.len u) :
    excessSent c x u e a u = x u - a := by
  unfold excessSent; rw [update_of_ne (Ne.symm (hg.noLoop u e hu he)), update_self]

theorem excessSent_target (hg : c.g.Consistent) {x : Nat → Int} {u e : Nat} {a : Int} (hu : u < c.g.n) (he : e < c.g.len u) :
    excessSent c x u e a (c.g.edge u e).target = x (c.g.edge u e).target + a := by
  unfold excessSent; rw [update_self, update_of_ne (hg.noLoop u e hu he)]

theorem push_spec (hc : CfgOk c) {hL : P.Lawful c.g.n K} (hK : ∀ d, d ≤ 2 * c.g.n → qkey c.limited d ≤ K) {x : Nat}
    {s : PR P.σ} {u e d : Nat} {a : Int} (hu : u < c.g.n) (he : e < c.g.len u) (hdn : d ≤ 2 * c.g.n)
    (h1 : ¬ d ≤ s.dist (c.g.edge u e).target)
    (ha : min (res P c s u e) (s.excess u) = a) (h2 : 0 < a) : Pushed hL x s (push P c s u e d) u e a := by
  have hv := hc.cons.target u e hu he
  have hne := hc.cons.noLoop u e hu he
  have hT := excessSent_target hc.cons (x := s.excess) (a := a) hu he
  have hS := excessSent_self hc.cons (x := s.excess) (a := a) hu he
  have hqbase : Queue hL x s → ∀ v, v < c.g.n → v ∉ c.ts → v ≠ x → v ≠ (c.g.edge u e).target →
      0 < excessSent c s.excess u e a v → s.active v = true := by
    intro hq v hv' hvt hvx hvT hpos
    by_cases e1 : v = u
    · subst e1
      rw [hS] at hpos
      exact hq.full v hv' hvt hvx (by omega)
    · rw [excessSent_other e1 hvT] at hpos
      exact hq.full v hv' hvt hvx hpos
  have hreach : u ≠ c.sink → (s.reached = true → c.limited = true ∧ c.limit ≤ s.excess c.sink) →
      s.reached = true → c.limited = true ∧ c.limit ≤ excessSent c s.excess u e a c.sink := by
    intro hus hr h
    obtain ⟨r1, r2⟩ := hr h
    refine ⟨r1, ?_⟩
    by_cases e1 : c.sink = (c.g.edge u e).target
    · rw [e1, hT]; rw [e1] at r2; omega
    · rw [excessSent_other (Ne.symm hus) e1]; exact r2
  rw [push_do h1 ha (by omega)]
  split
  · rename_i hif
    refine ⟨rfl, rfl, rfl, rfl, ?_, fun _ h => h, fun _ h => Or.inl h, ?_, fun h => absurd hif.1 h⟩
    · intro hq
      refine ⟨hq.rel, hq.term, ?_⟩
      intro v hv' hvt hvx hpos
      exact hqbase hq v hv' hvt hvx (fun e1 => hvt (by rw [e1, hif.2.1]; exact (hc.sink hif.1).1)) hpos
    · intro _ _ _
      exact ⟨hif.1, by have := hif.2.2; rw [hif.2.1] at this; exact this⟩
  · refine ⟨by rw [enqueue_flow], by rw [enqueue_excess], by rw [enqueue_dist], by rw [enqueue_count], ?_,
      fun v h => (enqueue_active _ _ _).2 (Or.inl h), fun v h => ((enqueue_active _ _ _).1 h).imp id And.left, ?_,
      fun _ h => by rw [enqueue_reached] at h; exact h⟩
    · intro hq
      refine ⟨?_, fun t ht => (enqueue_active _ _ t).2 (Or.inl (hq.term t ht)), ?_⟩
      · refine enqueue_rel hK ?_ ?_ hv ?_
        · exact hq.rel
        · exact hq.term
        · dsimp only; omega
      intro v hv' hvt hvx hpos
      rw [enqueue_excess] at hpos
      rw [enqueue_active]
      by_cases e1 : v = (c.g.edge u e).target
      · exact Or.inr ⟨e1, by rw [← e1]; exact hpos⟩
      · exact Or.inl (hqbase hq v hv' hvt hvx e1 hpos)
    · intro hus hr h
      rw [enqueue_reached] at h
      rw [enqueue_excess]
      exact hreach hus hr h

end PushRelabel
end VieCut
