import Verif.Proof.RecSplit
import Verif.Proof.Glue

/-!
# The graph of a component
-/

namespace VieCut
open Finset MGraph Function STCactus

namespace RecCactus

/-- A cut of a quotient as a sum over half edges. -/
theorem cv_halves {g : MGraph} (hg : Valid g) (ν : Nat → Nat) (X : Nat → Bool) :
    ∑ n ∈ range g.n, rowSum g (fun t w => if ν n < ν t then (if X (ν n) = X (ν t) then 0 else w) else 0) n = g.cv (fun u => X (ν u)) := by
  have hv := (valid_iff.1 hg).1
  have hB : g.cv (fun u => X (ν u)) = ∑ n ∈ range g.n, rowSum g (fun t w => if X (ν n) = true ∧ X (ν t) = false then w else 0) n := by
    rw [cv_W]
    unfold cutValue
    refine Finset.sum_congr rfl fun n hn => ?_
    unfold W rowSum
    have hn := mem_range.1 hn
    have e1 : ∀ v, (if X (ν n) = true ∧ X (ν v) = false then
          ∑ e ∈ range (g.len n), (if (g.edge n e).target = v then (g.edge n e).weight else 0) else 0)
        = ∑ e ∈ range (g.len n), (if (g.edge n e).target = v then
            (if X (ν n) = true ∧ X (ν (g.edge n e).target) = false then (g.edge n e).weight else 0) else 0) := by
      intro v
      split
      · rename_i hc
        refine Finset.sum_congr rfl fun e _ => ?_
        by_cases hev : (g.edge n e).target = v
        · rw [if_pos hev, if_pos hev, hev, if_pos hc]
        · rw [if_neg hev, if_neg hev]
      · rename_i hc
        symm
        refine Finset.sum_eq_zero fun e _ => ?_
        by_cases hev : (g.edge n e).target = v
        · rw [if_pos hev, hev, if_neg hc]
        · rw [if_neg hev]
    rw [Finset.sum_congr rfl fun v _ => e1 v, Finset.sum_comm]
    refine Finset.sum_congr rfl fun e he => ?_
    rw [Finset.sum_ite_eq, if_pos (mem_range.2 (hv n e hn (mem_range.1 he)).1)]
  rw [hB]
  have hsplit : ∀ n, n < g.n → rowSum g (fun t w => if ν n < ν t then (if X (ν n) = X (ν t) then 0 else w) else 0) n
      = rowSum g (fun t w => if ν n < ν t ∧ X (ν n) = true ∧ X (ν t) = false then w else 0) n
      + rowSum g (fun t w => if ν n < ν t ∧ X (ν t) = true ∧ X (ν n) = false then w else 0) n := by
    intro n _
    unfold rowSum
    rw [← Finset.sum_add_distrib]
    refine Finset.sum_congr rfl fun e _ => ?_
    dsimp only
    cases X (ν n) <;> cases X (ν (g.edge n e).target) <;> simp
  rw [Finset.sum_congr rfl fun n hn => hsplit n (mem_range.1 hn), Finset.sum_add_distrib,
    half_swap hg (fun n t w => if ν n < ν t ∧ X (ν t) = true ∧ X (ν n) = false then w else 0), ← Finset.sum_add_distrib]
  refine Finset.sum_congr rfl fun n hn => ?_
  have hn := mem_range.1 hn
  unfold rowSum
  rw [← Finset.sum_add_distrib]
  refine Finset.sum_congr rfl fun e he => ?_
  dsimp only
  obtain ⟨t1, _, _, _, _, t6⟩ := hv n e hn (mem_range.1 he)
  rcases Nat.lt_trichotomy (ν n) (ν (g.edge n e).target) with hlt | heq | hgt
  · simp [hlt, show ¬ ν (g.edge n e).target < ν n by omega]
  · rw [heq]; cases X (ν (g.edge n e).target) <;> simp
  · simp [hgt, show ¬ ν n < ν (g.edge n e).target by omega]

/-- New edges between different pairs of vertices. -/
theorem newEdges_simple {h : MGraph} (hh : Valid h) (h0 : ∀ u, h.len u = 0) {L : List (Nat × Nat × Nat)} (hlt : ∀ x ∈ L, x.2.1 < h.n)
    (hL : (L.map fun x => (x.1, x.2.1)).Nodup) : Simple (L.foldl (fun g x => g.newEdge x.1 x.2.1 x.2.2) h) [] := by
  have a3 := (newEdges_all hh (fun _ => True) L hlt).2.2.1
  intro u v h1 h2 h3 h4
  clear h1 h2 h3 h4
  have hz : rowSum h (fun a _ => if a = v then 1 else 0) u = 0 := by unfold rowSum; rw [h0]; simp
  have hcnt : cnt (L.foldl (fun g x => g.newEdge x.1 x.2.1 x.2.2) h) u v ≤ (L.map fun x => (x.1, x.2.1)).count (min u v, max u v) := by
    unfold cnt
    rw [a3, hz, Nat.zero_add]
    clear a3 hz hL hlt
    induction L with
    | nil => simp
    | cons x L ih =>
      rw [List.map_cons, List.sum_cons, List.map_cons, List.count_cons]
      refine (Nat.add_comm _ _).le.trans (Nat.add_le_add ih ?_)
      by_cases hx : x.1 < x.2.1
      · rw [if_pos hx]
        by_cases h1 : u = x.1 ∧ x.2.1 = v
        · rw [if_pos h1.1, if_pos h1.2, if_neg (by omega)]
          have : ((x.1, x.2.1) == (min u v, max u v)) = true := by
            rw [beq_iff_eq, Prod.mk.injEq]; omega
          rw [this]; simp
        · by_cases h2 : u = x.2.1 ∧ x.1 = v
          · have h3 : ((x.1, x.2.1) == (min u v, max u v)) = true := by
              rw [beq_iff_eq, Prod.mk.injEq]; omega
            rw [h3, if_pos h2.1, if_pos h2.2, if_neg (by omega)]; simp
          · have e1 : (if u = x.1 then (if x.2.1 = v then 1 else 0) else 0) = 0 := by
              split
              · rw [if_neg]; rename_i hh; exact fun hc => h1 ⟨hh, hc⟩
              · rfl
            have e2 : (if u = x.2.1 then (if x.1 = v then 1 else 0) else 0) = 0 := by
              split
              · rw [if_neg]; rename_i hh; exact fun hc => h2 ⟨hh, hc⟩
              · rfl
            rw [e1, e2]; omega
      · rw [if_neg hx]; omega
  exact hcnt.trans (List.nodup_iff_count_le_one.1 hL _)

/-- The list of a vertex is filled. -/
theorem addMembers (p : Nat) : ∀ (L : List Nat) (h : MGraph), L.foldl (fun h c => addMember h p c) h
    = { h with cont := update h.cont p (h.cont p ++ L), pos := fun v => if v ∈ L then p else h.pos v } := by
  intro L
  induction L with
  | nil => intro h; simp
  | cons a L ih =>
    intro h
    rw [List.foldl_cons, ih]
    unfold addMember
    simp only [MGraph.mk.injEq, true_and, and_true]
    refine ⟨?_, ?_⟩
    · funext v
      by_cases h1 : v ∈ L
      · simp [h1]
      · by_cases h2 : v = a
        · subst h2; simp
        · simp [h1, h2]
    · funext q
      by_cases hq : q = p
      · subst hq; simp
      · simp [hq]

/-! ### Numbers of the vertices of a class -/

/-- Number of vertices of the class below `n`. -/
def rank (lab : Nat → Nat) (c n : Nat) : Nat := ((List.range n).filter fun m => lab m = c).length

theorem rank_succ (lab : Nat → Nat) (c n : Nat) : rank lab c (n + 1) = rank lab c n + if lab n = c then 1 else 0 := by
  unfold rank
  rw [List.range_succ, List.filter_append, List.length_append]
  by_cases h : lab n = c <;> simp [h]

theorem rank_mono (lab : Nat → Nat) (c : Nat) {a b : Nat} (h : a ≤ b) : rank lab c a ≤ rank lab c b := by
  induction b with
  | zero => rw [Nat.le_zero.1 h]
  | succ b ih =>
    rcases Nat.lt_or_ge a (b + 1) with h1 | h1
    · have := ih (by omega)
      rw [rank_succ]; omega
    · rw [show a = b + 1 by omega]

theorem rank_lt {lab : Nat → Nat} {c a b : Nat} (ha : lab a = c) (h : a < b) : rank lab c a < rank lab c b := by
  have := rank_mono lab c (show a + 1 ≤ b by omega)
  rw [rank_succ, if_pos ha] at this
  omega

theorem rank_inj {lab : Nat → Nat} {c a b : Nat} (ha : lab a = c) (hb : lab b = c) (h : rank lab c a = rank lab c b) : a = b := by
  rcases Nat.lt_trichotomy a b with h1 | h1 | h1
  · have := rank_lt ha h1; omega
  · exact h1
  · have := rank_lt hb h1; omega

theorem rank_surj (lab : Nat → Nat) (c : Nat) : ∀ n p, p < rank lab c n → ∃ m, m < n ∧ lab m = c ∧ rank lab c m = p := by
  intro n
  induction n with
  | zero => intro p hp; simp [rank] at hp
  | succ n ih =>
    intro p hp
    rw [rank_succ] at hp
    by_cases h1 : p < rank lab c n
    · obtain ⟨m, hm, h2⟩ := ih p h1
      exact ⟨m, by omega, h2⟩
    · by_cases h2 : lab n = c
      · rw [if_pos h2] at hp
        exact ⟨n, by omega, h2, by omega⟩
      · rw [if_neg h2] at hp; omega

theorem rank_card (lab : Nat → Nat) (c n : Nat) : rank lab c n = ((range n).filter fun v => lab v = c).card := by
  induction n with
  | zero => simp [rank]
  | succ n ih =>
    rw [rank_succ, ih, Finset.range_add_one, Finset.filter_insert]
    by_cases h : lab n = c
    · rw [if_pos h, if_pos h, Finset.card_insert_of_notMem (by simp)]
    · rw [if_neg h, if_neg h]; rfl

/-! ### The graph of a small component -/

variable {E : Nat → Prop} {G : MGraph} {c : Nat} {lab : Nat → Nat} {i size : Nat}

/-- The number of a vertex in the graph of the component. -/
def num (lab : Nat → Nat) (i size n : Nat) : Nat := if lab n = i then rank lab i n else size

/-- Weight between `n` and the vertices outside of the class. -/
def outside (G : MGraph) (lab : Nat → Nat) (i n : Nat) : Nat := rowSum G (fun t w => if lab t = i then 0 else w) n

/-- The edges inserted for `n`. -/
def smallList (G : MGraph) (lab : Nat → Nat) (i size n : Nat) : List (Nat × Nat × Nat) :=
  if lab n = i then
    (((List.range (G.len n)).filter fun e => lab (G.edge n e).target = i ∧ num lab i size n < num lab i size (G.edge n e).target).map fun e =>
      (num lab i size n, num lab i size (G.edge n e).target, (G.edge n e).weight)) ++
    if outside G lab i n > 0 then [(num lab i size n, size, outside G lab i n)] else []
  else []

theorem num_lt (hsize : size = rank lab i G.n) {n : Nat} (hn : n < G.n) (hl : lab n = i) : num lab i size n < size := by
  unfold num; rw [if_pos hl, hsize]; exact rank_lt hl hn

theorem num_eq_size (hsize : size = rank lab i G.n) {n : Nat} (hn : n < G.n) : num lab i size n = size ↔ lab n ≠ i := by
  constructor
  · intro h hl
    have := num_lt (G := G) hsize hn hl
    omega
  · intro h; unfold num; rw [if_neg h]

theorem num_le (hsize : size = rank lab i G.n) {n : Nat} (hn : n < G.n) : num lab i size n ≤ size := by
  by_cases h : lab n = i
  · exact (num_lt hsize hn h).le
  · rw [(num_eq_size hsize hn).2 h]

theorem smallEdges_eq (hG : Valid G) (hsize : size = rank lab i G.n) (h : MGraph) {n : Nat} (hn : n < G.n) :
    smallEdges G (num lab i size) size h n = (smallList G lab i size n).foldl (fun g x => g.newEdge x.1 x.2.1 x.2.2) h := by
  have hv := (valid_iff.1 hG).1
  unfold smallEdges smallList
  by_cases hl : lab n = i
  · rw [if_pos ((num_lt hsize hn hl).ne), if_pos hl]
    have key : ∀ j, j ≤ G.len n → (List.range j).foldl (fun (s : MGraph × Nat) e =>
        let t := (G.edge n e).target
        let w := (G.edge n e).weight
        if num lab i size t = size then (s.1, s.2 + w)
        else if num lab i size n < num lab i size t then (s.1.newEdge (num lab i size n) (num lab i size t) w, s.2) else s) (h, 0)
        = ((((List.range j).filter fun e => lab (G.edge n e).target = i ∧ num lab i size n < num lab i size (G.edge n e).target).map fun e =>
            (num lab i size n, num lab i size (G.edge n e).target, (G.edge n e).weight)).foldl (fun g x => g.newEdge x.1 x.2.1 x.2.2) h,
          ∑ e ∈ range j, if lab (G.edge n e).target = i then 0 else (G.edge n e).weight) := by
      intro j
      induction j with
      | zero => intro _; simp
      | succ j ih =>
        intro hj
        have ht := (hv n j hn (by omega)).1
        rw [List.range_succ, List.foldl_append, ih (by omega), List.foldl_cons, List.foldl_nil, List.filter_append, List.map_append,
          List.foldl_append, Finset.sum_range_succ]
        dsimp only
        by_cases h1 : lab (G.edge n j).target = i
        · rw [if_neg (fun hh => (num_eq_size hsize ht).1 hh h1), if_pos h1]
          by_cases h2 : num lab i size n < num lab i size (G.edge n j).target
          · rw [if_pos h2, List.filter_cons_of_pos (by simp [h1, h2])]
            simp
          · rw [if_neg h2, List.filter_cons_of_neg (by simp [h2])]
            simp
        · rw [if_pos ((num_eq_size hsize ht).2 h1), if_neg h1, List.filter_cons_of_neg (by simp [h1])]
          simp
    dsimp only
    rw [key (G.len n) le_rfl, List.foldl_append]
    show (if outside G lab i n > 0 then _ else _) = _
    by_cases h1 : outside G lab i n > 0
    · rw [if_pos h1, if_pos h1]; rfl
    · rw [if_neg h1, if_neg h1]; rfl
  · rw [if_neg (by rw [not_not]; exact (num_eq_size hsize hn).2 hl), if_neg hl]; rfl

theorem smallMembers (hp : Piece E G c) {num : Nat → Nat} {size : Nat} {h0 : MGraph} (hcont : ∀ p, p ≤ size → h0.cont p = []) :
    ∀ j, j ≤ G.n → ∃ cont pos, (List.range j).foldl (smallVertex G num) h0 = { h0 with cont := cont, pos := pos } ∧
      (∀ p e, p ≤ size → (e ∈ cont p ↔ ∃ n, n < j ∧ num n = p ∧ e ∈ G.cont n)) ∧ (∀ p, p ≤ size → (cont p).Nodup) ∧
      ∀ e, E e → G.pos e < j → pos e = num (G.pos e) := by
  intro j
  induction j with
  | zero =>
    intro _
    refine ⟨h0.cont, h0.pos, rfl, fun p e hp => ?_, fun p hp => ?_, fun e _ h => absurd h (by omega)⟩
    · rw [hcont p hp]; simp
    · rw [hcont p hp]; simp
  | succ j ih =>
    intro hj
    obtain ⟨cont, pos, h1, h2, h3, h4⟩ := ih (by omega)
    rw [List.range_succ, List.foldl_append, h1, List.foldl_cons, List.foldl_nil]
    unfold smallVertex
    rw [addMembers]
    refine ⟨_, _, rfl, fun p e hps => ?_, fun p hps => ?_, fun e he hlt => ?_⟩
    · dsimp only
      by_cases hpj : p = num j
      · subst hpj
        rw [update_self, List.mem_append, h2 _ e hps]
        constructor
        · rintro (⟨n, hn, h5⟩ | h5)
          · exact ⟨n, by omega, h5⟩
          · exact ⟨j, by omega, rfl, h5⟩
        · rintro ⟨n, hn, h5, h6⟩
          by_cases hnj : n = j
          · subst hnj; exact .inr h6
          · exact .inl ⟨n, by omega, h5, h6⟩
      · rw [update_of_ne hpj, h2 p e hps]
        constructor
        · rintro ⟨n, hn, h5⟩
          exact ⟨n, by omega, h5⟩
        · rintro ⟨n, hn, h5, h6⟩
          refine ⟨n, ?_, h5, h6⟩
          have : n ≠ j := fun hh => hpj (by rw [← h5, hh])
          omega
    · dsimp only
      by_cases hpj : p = num j
      · subst hpj
        rw [update_self]
        refine List.nodup_append.2 ⟨h3 _ hps, hp.held.nodup j (by omega), ?_⟩
        intro a ha b hb hab
        subst hab
        obtain ⟨n, hn, _, h6⟩ := (h2 _ a hps).1 ha
        have e1 := ((hp.held.mem n a (by omega)).1 h6).2
        have e2 := ((hp.held.mem j a (by omega)).1 hb).2
        omega
      · rw [update_of_ne hpj]; exact h3 p hps
    · dsimp only
      by_cases hej : G.pos e = j
      · rw [if_pos ((hp.held.mem j e (by omega)).2 ⟨he, hej⟩), hej]
      · rw [if_neg (fun hh => hej ((hp.held.mem j e (by omega)).1 hh).2)]
        exact h4 e he (by omega)

theorem smallList_mem (hG : Valid G) (hpos : AllW (fun w => 0 < w) G) (hsize : size = rank lab i G.n) {n : Nat} (hn : n < G.n) {x : Nat × Nat × Nat}
    (hx : x ∈ smallList G lab i size n) : lab n = i ∧ x.1 = num lab i size n ∧ x.1 < x.2.1 ∧ x.2.1 ≤ size ∧ 0 < x.2.2 := by
  unfold smallList at hx
  by_cases hl : lab n = i
  · rw [if_pos hl, List.mem_append] at hx
    rcases hx with hx | hx
    · obtain ⟨e, he, rfl⟩ := List.mem_map.1 hx
      obtain ⟨e1, e2⟩ := List.mem_filter.1 he
      have e1 := List.mem_range.1 e1
      have e2 := of_decide_eq_true e2
      exact ⟨hl, rfl, e2.2, num_le hsize ((valid_iff.1 hG).1 n e hn e1).1, hpos n e hn e1⟩
    · split at hx
      · rename_i ho
        rw [List.mem_singleton] at hx
        subst hx
        exact ⟨hl, rfl, num_lt hsize hn hl, le_rfl, ho⟩
      · simp at hx
  · rw [if_neg hl] at hx; simp at hx

theorem smallList_nodup (hG : Valid G) (hs : G.NoParallel) (hsize : size = rank lab i G.n) {n : Nat} (hn : n < G.n) :
    ((smallList G lab i size n).map fun x => (x.1, x.2.1)).Nodup := by
  have hv := (valid_iff.1 hG).1
  unfold smallList
  by_cases hl : lab n = i
  · rw [if_pos hl, List.map_append, List.map_map]
    refine List.nodup_append.2 ⟨?_, ?_, ?_⟩
    · refine List.Nodup.map_on ?_ (List.nodup_range.filter _)
      intro a ha b hb hab
      obtain ⟨a1, a2⟩ := List.mem_filter.1 ha
      obtain ⟨b1, b2⟩ := List.mem_filter.1 hb
      have a1 := List.mem_range.1 a1
      have b1 := List.mem_range.1 b1
      have a2 := of_decide_eq_true a2
      have b2 := of_decide_eq_true b2
      simp only [Function.comp, Prod.mk.injEq, true_and] at hab
      unfold num at hab
      rw [if_pos a2.1, if_pos b2.1] at hab
      exact hs n hn a a1 b b1 (rank_inj a2.1 b2.1 hab)
    · split <;> simp
    · intro a ha b hb hab
      obtain ⟨e, he, rfl⟩ := List.mem_map.1 ha
      obtain ⟨e1, e2⟩ := List.mem_filter.1 he
      have e1 := List.mem_range.1 e1
      have e2 := of_decide_eq_true e2
      split at hb
      · simp only [List.map_cons, List.map_nil, List.mem_singleton] at hb
        subst hb
        simp only [Function.comp, Prod.mk.injEq, true_and] at hab
        have := num_lt hsize (hv n e hn e1).1 e2.1
        omega
      · simp at hb
  · rw [if_neg hl]; simp

theorem smallList_sum (hG : Valid G) (hsize : size = rank lab i G.n) {n : Nat} (hn : n < G.n) (X : Nat → Bool) :
    ((smallList G lab i size n).map fun x => if x.1 < x.2.1 then (if X x.1 = X x.2.1 then 0 else x.2.2) else 0).sum =
    rowSum G (fun t w => if num lab i size n < num lab i size t then
      (if X (num lab i size n) = X (num lab i size t) then 0 else w) else 0) n := by
  have hv := (valid_iff.1 hG).1
  unfold smallList
  by_cases hl : lab n = i
  · have hlt := num_lt hsize hn hl
    rw [if_pos hl, List.map_append, List.sum_append, List.map_map]
    have h1 : (List.map (fun x => if x.1 < x.2.1 then (if X x.1 = X x.2.1 then 0 else x.2.2) else 0)
        (if outside G lab i n > 0 then [(num lab i size n, size, outside G lab i n)] else [])).sum =
        if X (num lab i size n) = X size then 0 else outside G lab i n := by
      by_cases ho : outside G lab i n > 0
      · rw [if_pos ho]
        simp [hlt]
      · rw [if_neg ho, show outside G lab i n = 0 by omega]
        simp
    rw [h1]
    unfold outside rowSum
    have key : ∀ j, j ≤ G.len n →
        (((List.range j).filter fun e => lab (G.edge n e).target = i ∧ num lab i size n < num lab i size (G.edge n e).target).map
          ((fun x => if x.1 < x.2.1 then (if X x.1 = X x.2.1 then 0 else x.2.2) else 0) ∘ fun e =>
            (num lab i size n, num lab i size (G.edge n e).target, (G.edge n e).weight))).sum +
        (if X (num lab i size n) = X size then 0 else ∑ e ∈ range j, if lab (G.edge n e).target = i then 0 else (G.edge n e).weight) =
        ∑ e ∈ range j, if num lab i size n < num lab i size (G.edge n e).target then
          (if X (num lab i size n) = X (num lab i size (G.edge n e).target) then 0 else (G.edge n e).weight) else 0 := by
      intro j
      induction j with
      | zero => intro _; simp
      | succ j ih =>
        intro hj
        have ht := (hv n j hn (by omega)).1
        have ih := ih (by omega)
        rw [List.range_succ, List.filter_append, List.map_append, List.sum_append, Finset.sum_range_succ, Finset.sum_range_succ, ← ih]
        by_cases h2 : lab (G.edge n j).target = i
        · by_cases h3 : num lab i size n < num lab i size (G.edge n j).target
          · rw [List.filter_cons_of_pos (by simp [h2, h3])]
            simp only [List.filter_nil, List.map_cons, List.map_nil, List.sum_cons, List.sum_nil, Function.comp, if_pos h3, if_pos h2, Nat.add_zero]
            omega
          · rw [List.filter_cons_of_neg (by simp [h3])]
            simp only [List.filter_nil, List.map_nil, List.sum_nil, if_neg h3, if_pos h2, Nat.add_zero]
        · have h3 := (num_eq_size hsize ht).2 h2
          rw [List.filter_cons_of_neg (by simp [h2]), h3]
          simp only [List.filter_nil, List.map_nil, List.sum_nil, if_pos hlt, if_neg h2]
          split <;> omega
    exact key (G.len n) le_rfl
  · rw [if_neg hl]
    have h1 := (num_eq_size hsize hn).2 hl
    unfold rowSum
    symm
    refine Finset.sum_eq_zero fun e he => ?_
    dsimp only
    have := num_le hsize (hv n e hn (mem_range.1 he)).1
    rw [if_neg (by omega)]

theorem smallGraph_spec (hp : Piece E G c) (hsize : size = rank lab i G.n) (hout : ∃ u, u < G.n ∧ lab u ≠ i) :
    IsQuot E G (smallGraph G lab i size) c (num lab i size) := by
  have hG := hp.valid
  set h0 : MGraph := { STCactus.setOriginalNodes (MGraph.start (size + 1)) G.origNodes with
    cont := fun p => if p < size + 1 then [] else (STCactus.setOriginalNodes (MGraph.start (size + 1)) G.origNodes).cont p } with hh0
  obtain ⟨cont, pos, m1, m2, m3, m4⟩ := smallMembers (num := num lab i size) (size := size) hp (h0 := h0) (fun p hp => by
    show (if p < size + 1 then [] else _) = _
    rw [if_pos (by omega)]) G.n le_rfl
  set h1 : MGraph := { h0 with cont := cont, pos := pos } with hh1
  have hval : Valid h1 := valid_empty (fun _ => rfl) (fun _ => rfl) rfl
  set L := (List.range G.n).flatMap (smallList G lab i size) with hL
  have hfold : (List.range G.n).foldl (smallEdges G (num lab i size) size) h1 = L.foldl (fun g x => g.newEdge x.1 x.2.1 x.2.2) h1 := by
    rw [hL, List.foldl_flatMap]
    exact foldl_congr_mem _ _ fun b a ha => smallEdges_eq hG hsize b (List.mem_range.1 ha)
  have hmem : ∀ x ∈ L, x.1 < x.2.1 ∧ x.2.1 ≤ size ∧ 0 < x.2.2 := by
    intro x hx
    obtain ⟨n, hn, hx⟩ := List.mem_flatMap.1 hx
    exact (smallList_mem hG hp.allPos hsize (List.mem_range.1 hn) hx).2.2
  have hnodup : (L.map fun x => (x.1, x.2.1)).Nodup := by
    rw [hL, List.map_flatMap, List.nodup_flatMap]
    refine ⟨fun n hn => smallList_nodup hG hp.simple hsize (List.mem_range.1 hn), ?_⟩
    refine List.Pairwise.imp_of_mem ?_ List.nodup_range
    intro a b ha hb hab
    rw [Function.onFun, List.disjoint_left]
    intro x hx hx'
    obtain ⟨y, hy, rfl⟩ := List.mem_map.1 hx
    obtain ⟨z, hz, hzy⟩ := List.mem_map.1 hx'
    have e1 := smallList_mem hG hp.allPos hsize (List.mem_range.1 ha) hy
    have e2 := smallList_mem hG hp.allPos hsize (List.mem_range.1 hb) hz
    simp only [Prod.mk.injEq] at hzy
    have e3 : num lab i size a = num lab i size b := by rw [← e1.2.1, ← e2.2.1]; exact hzy.1.symm
    unfold num at e3
    rw [if_pos e1.1, if_pos e2.1] at e3
    exact hab (rank_inj e1.1 e2.1 e3)
  have hn1 : h1.n = size + 1 := rfl
  obtain ⟨a1, a2, _, a4, a5⟩ := newEdges_all hval (fun w => 0 < w) L (fun x hx => by rw [hn1]; have := hmem x hx; omega)
  have hsimple := newEdges_simple hval (fun _ => rfl) (L := L) (fun x hx => by rw [hn1]; have := hmem x hx; omega) hnodup
  have hS : smallGraph G lab i size = (L.foldl (fun g x => g.newEdge x.1 x.2.1 x.2.2) h1).finishConstruction := by
    rw [← hfold, ← m1]; rfl
  rw [hS]
  set R := L.foldl (fun g x => g.newEdge x.1 x.2.1 x.2.2) h1 with hR
  obtain ⟨r1, r2, r3, r4, r5, r6⟩ := fr_eq a2
  have hz : ∀ X, h1.cv X = 0 := by
    intro X
    rw [cv_W]
    unfold cutValue
    refine Finset.sum_eq_zero fun u _ => Finset.sum_eq_zero fun v _ => ?_
    have : h1.W u v = 0 := by unfold W rowSum; rw [show h1.len u = 0 from rfl]; simp
    rw [this]; simp
  have hcut : ∀ T : Nat → Bool, R.finishConstruction.cv T = G.cv (fun x => T (num lab i size x)) := by
    intro T
    show R.cv T = _
    rw [a4, hz, Nat.zero_add, ← cv_halves hG (num lab i size) T, hL, List.map_flatMap]
    have : ∀ j, j ≤ G.n → ((List.range j).flatMap fun n => (smallList G lab i size n).map fun x =>
        if x.1 < x.2.1 then (if T x.1 = T x.2.1 then 0 else x.2.2) else 0).sum =
        ∑ n ∈ range j, rowSum G (fun t w => if num lab i size n < num lab i size t then
          (if T (num lab i size n) = T (num lab i size t) then 0 else w) else 0) n := by
      intro j
      induction j with
      | zero => intro _; simp
      | succ j ih =>
        intro hj
        rw [List.range_succ, List.flatMap_append, List.sum_append, ih (by omega), Finset.sum_range_succ]
        congr 1
        rw [List.flatMap_cons, List.flatMap_nil, List.append_nil]
        exact smallList_sum hG hsize (by omega) T
    exact this G.n le_rfl
  have hRn : R.finishConstruction.n = size + 1 := r1
  have hlt : ∀ u, u < G.n → num lab i size u < R.finishConstruction.n := by
    intro u hu
    rw [hRn]
    have := num_le hsize hu
    omega
  have hsurj : ∀ p, p < R.finishConstruction.n → ∃ u, u < G.n ∧ num lab i size u = p := by
    intro p hp
    rw [hRn] at hp
    by_cases h1 : p = size
    · obtain ⟨u, hu, hl⟩ := hout
      exact ⟨u, hu, by rw [h1]; exact (num_eq_size hsize hu).2 hl⟩
    · obtain ⟨u, hu, hl, hr⟩ := rank_surj lab i G.n p (by omega)
      exact ⟨u, hu, by unfold num; rw [if_pos hl]; exact hr⟩
  have hRc : R.finishConstruction.cont = cont := r4
  have hRp : R.finishConstruction.pos = pos := r5
  have hpos : ∀ e, E e → R.finishConstruction.pos e = num lab i size (G.pos e) := by
    intro e he
    rw [hRp]
    exact m4 e he (hp.held.lt e he)
  have hmemc : ∀ p e, p < R.finishConstruction.n → (e ∈ cont p ↔ E e ∧ R.finishConstruction.pos e = p) := by
    intro p e hpp
    rw [hRn] at hpp
    rw [m2 p e (by omega)]
    constructor
    · rintro ⟨n, hn, h1, h2⟩
      obtain ⟨e1, e2⟩ := (hp.held.mem n e hn).1 h2
      exact ⟨e1, by rw [hpos e e1, e2, h1]⟩
    · rintro ⟨he, h1⟩
      exact ⟨G.pos e, hp.held.lt e he, by rw [← hpos e he, h1], (hp.held.mem _ e (hp.held.lt e he)).2 ⟨he, rfl⟩⟩
  refine ⟨⟨consistent_iff.2 (a1.of_eq rfl rfl rfl rfl rfl), ?_, ?_, ?_, ?_, ⟨?_, ?_, ?_⟩, ?_, ?_, ?_⟩, hlt, hsurj, hcut, hpos⟩
  · exact noParallel_of_simple (g := R) a1 hsimple
  · rfl
  · show R.n ≤ R.contSize
    rw [r1, r3]; exact le_rfl
  · exact a5 (fun u b _ hb => absurd hb (by rw [show h1.len u = 0 from rfl]; omega)) fun x hx => (hmem x hx).2.2
  · intro e he
    rw [hpos e he]
    exact hlt _ (hp.held.lt e he)
  · intro p e hpp
    rw [hRc]
    exact hmemc p e hpp
  · intro p hpp
    rw [hRc]
    rw [hRn] at hpp
    exact m3 p (by omega)
  · intro e he
    have : R.finishConstruction.origNodes = G.origNodes := r6
    rw [this]
    exact hp.known e he
  · intro p hpp
    obtain ⟨u, hu, h1⟩ := hsurj p hpp
    obtain ⟨e, he, h2⟩ := hp.exists_elem hu
    rw [hRc]
    exact List.ne_nil_of_mem ((hmemc p e hpp).2 ⟨he, by rw [hpos e he, h2, h1]⟩)
  · rintro X ⟨⟨a, ha, h1⟩, ⟨b, hb, h2⟩⟩
    obtain ⟨u, hu, rfl⟩ := hsurj a ha
    obtain ⟨v, hv, rfl⟩ := hsurj b hb
    have := hp.least (fun x => X (num lab i size x)) ⟨⟨u, hu, h1⟩, ⟨v, hv, h2⟩⟩
    have h2 := hcut X
    unfold cv at h2
    omega

/-- The graph of a component holds all elements, and its minimum cuts are those that do not separate vertices outside of the component. -/
theorem componentGraph_spec (hp : Piece E G c) {V : Env} (hV : ∀ l, (V.ordC l).Perm l) (hsize : size = ((range G.n).filter fun v => lab v = i).card)
    (hout : ∃ u, u < G.n ∧ lab u ≠ i) :
    Piece E (componentGraph V G lab i size) c ∧
    ∀ f, Split (componentGraph V G lab i size) E c f ↔ SplitR G E c (fun u v => lab u ≠ i ∧ lab v ≠ i) f := by
  rw [← rank_card] at hsize
  unfold componentGraph
  by_cases h : 2 * size ≤ G.n
  · rw [if_pos h]
    have Q := smallGraph_spec (lab := lab) (i := i) hp hsize hout
    refine ⟨Q.piece, fun f => (Q.splits hp.held f).trans ⟨SplitR.mono ?_, SplitR.mono ?_⟩⟩
    · rintro u v hu hv ⟨h1, h2⟩
      exact .inr (by rw [(num_eq_size hsize hu).2 h1, (num_eq_size hsize hv).2 h2])
    · intro u v hu hv he
      by_cases h1 : lab u = i
      · have h2 : lab v = i := by
          by_contra h2
          rw [(num_eq_size hsize hv).2 h2] at he
          exact (num_eq_size hsize hu).1 he h1
        unfold num at he
        rw [if_pos h1, if_pos h2] at he
        exact .inl (rank_inj h1 h2 he)
      · have h2 : lab v ≠ i := by
          rw [(num_eq_size hsize hu).2 h1] at he
          exact (num_eq_size hsize hv).1 he.symm
        exact .inr ⟨h1, h2⟩
  · rw [if_neg h]
    have hperm := hV ((List.range G.n).filter fun n => lab n ≠ i)
    have hmem : ∀ u, u < G.n → (u ∈ V.ordC ((List.range G.n).filter fun n => lab n ≠ i) ↔ lab u ≠ i) := by
      intro u hu
      rw [hperm.mem_iff, List.mem_filter, List.mem_range]
      simp [hu]
    obtain ⟨⟨φ, h1⟩, h2, _⟩ := contractVertexSet_spec hp.valid (S := V.ordC ((List.range G.n).filter fun n => lab n ≠ i))
      (hperm.nodup_iff.2 (List.nodup_range.filter _))
    have Q := isQuot_contracted hp h1 (h2 hp.simp0)
    refine ⟨Q.piece, fun f => (Q.splits hp.held f).trans ⟨SplitR.mono ?_, SplitR.mono ?_⟩⟩
    · rintro u v hu hv ⟨k1, k2⟩
      exact .inr ((h1.ker u v hu hv).2 (.inr ⟨(hmem u hu).2 k1, (hmem v hv).2 k2⟩))
    · intro u v hu hv he
      rcases (h1.ker u v hu hv).1 he with k | ⟨k1, k2⟩
      · exact .inl k
      · exact .inr ⟨(hmem u hu).1 k1, (hmem v hv).1 k2⟩

end RecCactus
end VieCut
