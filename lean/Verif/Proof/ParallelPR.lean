import Verif.Model.ParallelPR
import Verif.Proof.PRTests

/-! # The parallel contraction tests: what the threads request -/

namespace VieCut
open Finset Function Graph

namespace PPR

/-! ### Tests 1 and 2 -/

/-- The reason for a request of `prTests12`. -/
def Cause12 (G : Graph) (limit : Nat) (all : Bool) (a b : Nat) : Prop :=
  ∃ w, (b, w) ∈ G.edges a ∧ (limit ≤ w ∨
    ((all = true → limit ≤ u32 (G.deg a) ∧ limit ≤ u32 (G.deg b)) ∧ (u32 (G.deg a) < u64 (2 * w) ∨ u32 (G.deg b) < u64 (2 * w))))

/-- The instruction only requests pairs with a reason. -/
def Instr.ok (G : Graph) (limit : Nat) (all : Bool) : Instr → Prop
  | .store _ => True
  | .union a b => Cause12 G limit all a b
  | .claim _ _ a b => Cause12 G limit all a b

theorem edgeCode_ok {G : Graph} {limit : Nat} {all : Bool} {n : Nat} {e : Nat × Nat} (he : e ∈ G.edges n) :
    ∀ i ∈ edgeCode G limit all n e, i.ok G limit all := by
  intro i hi
  simp only [edgeCode, List.mem_append] at hi
  rcases hi with hi | hi
  · split at hi
    · rename_i h
      simp only [List.mem_cons, List.not_mem_nil, or_false] at hi
      rcases hi with rfl | rfl | rfl
      · trivial
      · trivial
      · exact ⟨e.2, he, Or.inl h⟩
    · cases hi
  · split at hi
    · rename_i hc
      have hall : all = true → limit ≤ u32 (G.deg n) ∧ limit ≤ u32 (G.deg e.1) := by
        intro ha
        simpa [ha] using hc
      split at hi
      · rename_i h
        rw [List.mem_singleton] at hi
        subst hi
        exact ⟨e.2, he, Or.inr ⟨hall, Or.inl h⟩⟩
      · split at hi
        · rename_i h
          rw [List.mem_singleton] at hi
          subst hi
          exact ⟨e.2, he, Or.inr ⟨hall, Or.inr h⟩⟩
        · cases hi
    · cases hi

theorem code_ok {G : Graph} {limit : Nat} {all : Bool} (vs : List Nat) : ∀ i ∈ code G limit all vs, i.ok G limit all := by
  intro i hi
  simp only [code, List.mem_flatMap] at hi
  obtain ⟨n, _, e, he, hi⟩ := hi
  exact edgeCode_ok he i hi

/-- All requests made and still to be made have a reason. -/
structure Inv12 (G : Graph) (limit : Nat) (all : Bool) (s : St12) : Prop where
  code : ∀ t, ∀ i ∈ s.code t, i.ok G limit all
  calls : ∀ t, ∀ p ∈ s.calls t, Cause12 G limit all p.1 p.2

theorem Inv12.step {G : Graph} {limit : Nat} {all : Bool} {s : St12} (h : Inv12 G limit all s) (t : Nat) :
    Inv12 G limit all (step12 s t) := by
  have hc := h.code t
  have up : ∀ l : List Instr, (∀ i ∈ l, i.ok G limit all) → ∀ t', ∀ i ∈ update s.code t l t', i.ok G limit all := by
    intro l hl t' i hi
    rw [update_apply] at hi
    split at hi
    · exact hl i hi
    · exact h.code t' i hi
  unfold step12
  cases he : s.code t with
  | nil => exact h
  | cons i r =>
    rw [he] at hc
    have hr : ∀ j ∈ r, j.ok G limit all := fun j hj => hc j (by simp [hj])
    cases i with
    | store v => exact ⟨up r hr, h.calls⟩
    | union a b =>
      refine ⟨up r hr, ?_⟩
      intro t' p hp
      simp only [update_apply] at hp
      split at hp
      · rcases List.mem_append.1 hp with hp | hp
        · exact h.calls t p hp
        · rw [List.mem_singleton] at hp
          subst hp
          exact hc (.union a b) (by simp)
      · exact h.calls t' p hp
    | claim v x a b =>
      simp only
      split
      · exact ⟨up r hr, h.calls⟩
      · refine ⟨up _ ?_, h.calls⟩
        intro j hj
        simp only [List.mem_cons] at hj
        rcases hj with rfl | rfl | hj
        · trivial
        · exact hc (.claim v x a b) (by simp)
        · exact hr j hj

theorem inv12_run (G : Graph) (limit : Nat) (all : Bool) (work : Nat → List Nat) (sched : List Nat) :
    Inv12 G limit all (run12 G limit all work sched) :=
  foldl_inv sched (fun _ t _ h => h.step t) _ ⟨fun _ => code_ok _, fun _ _ h => by cases h⟩

/-- A minimum cut below the bound does not separate a requested pair. -/
theorem Cause12.same {G : Graph} (hG : G.WF) (h32 : ∀ u, u < G.n → G.deg u < 2 ^ 32) {S : Nat → Bool}
    (hS : ProperCut G.n S) (hmin : ∀ T, ProperCut G.n T → cutValue G.n G.wt S ≤ cutValue G.n G.wt T) {limit : Nat}
    {all : Bool} (hc : cutValue G.n G.wt S < limit) (hdeg : all = true ∨ ∀ u, u < G.n → limit ≤ G.deg u) {a b : Nat}
    (h : Cause12 G limit all a b) : S a = S b := by
  obtain ⟨w, he, h⟩ := h
  have ha := lt_n_of_edge he
  have hb : b < G.n := hG.tgt_lt a _ he
  have hab : b ≠ a := hG.no_loop a _ he
  have hw : w ≤ G.wt a b := edge_le_wt he
  have ua : u32 (G.deg a) = G.deg a := Nat.mod_eq_of_lt (h32 a ha)
  have ub : u32 (G.deg b) = G.deg b := Nat.mod_eq_of_lt (h32 b hb)
  have uw := u64_le (2 * w)
  rw [ua, ub] at h
  rcases h with h | ⟨h1, h2⟩
  · exact edge_same hG ha hb (Ne.symm hab) (by omega)
  · have hd : limit ≤ G.deg a ∧ limit ≤ G.deg b := by
      rcases hdeg with hd | hd
      · exact h1 hd
      · exact ⟨hd a ha, hd b hb⟩
    rcases h2 with h2 | h2
    · exact heavy_same hG hS hmin ha hb (by omega) (by omega)
    · refine (heavy_same hG hS hmin hb ha (by omega) ?_).symm
      rw [hG.wt_symm b a]; omega

/-! ### Progress of `prTests12` -/

/-- Steps that an instruction can take. -/
def Instr.cost : Instr → Nat
  | .claim _ _ _ _ => 3
  | _ => 1

/-- Upper bound for the steps of a thread that handles `vs`. -/
def codeCost (l : List Instr) : Nat := (l.map Instr.cost).sum

theorem step12_cost (s : St12) (t t' : Nat) :
    codeCost ((step12 s t).code t') ≤ codeCost (s.code t') - (if t = t' then 1 else 0) := by
  unfold step12
  cases he : s.code t with
  | nil =>
    by_cases h : t = t'
    · subst h; simp [he, codeCost]
    · simp [h]
  | cons i r =>
    have hother : ∀ l, t ≠ t' → codeCost (update s.code t l t') ≤ codeCost (s.code t') - (if t = t' then 1 else 0) := by
      intro l h
      rw [update_of_ne (Ne.symm h), if_neg h]
      omega
    have hself : ∀ l, codeCost l + 1 ≤ codeCost (i :: r) →
        codeCost (update s.code t l t') ≤ codeCost (s.code t') - (if t = t' then 1 else 0) := by
      intro l hl
      by_cases h : t = t'
      · subst h
        rw [update_self, he, if_pos rfl]
        omega
      · exact hother l h
    cases i with
    | store v => exact hself r (by simp only [codeCost, List.map_cons, List.sum_cons, Instr.cost]; omega)
    | union a b => exact hself r (by simp only [codeCost, List.map_cons, List.sum_cons, Instr.cost]; omega)
    | claim v x a b =>
      simp only
      split
      · exact hself r (by simp only [codeCost, List.map_cons, List.sum_cons, Instr.cost]; omega)
      · exact hself _ (by simp only [codeCost, List.map_cons, List.sum_cons, Instr.cost]; omega)

theorem run12_cost (sched : List Nat) (t : Nat) : ∀ s : St12,
    codeCost ((sched.foldl step12 s).code t) ≤ codeCost (s.code t) - sched.count t := by
  induction sched with
  | nil => intro s; simp
  | cons a l ih =>
    intro s
    rw [List.foldl_cons]
    refine le_trans (ih _) ?_
    have := step12_cost s a t
    rw [List.count_cons]
    by_cases h : a = t
    · simp only [h, if_true, beq_self_eq_true] at this ⊢
      omega
    · rw [if_neg h] at this
      rw [if_neg (by simpa using h)]
      omega

theorem codeCost_eq_zero {l : List Instr} (h : codeCost l = 0) : l = [] := by
  cases l with
  | nil => rfl
  | cons i r =>
    exfalso
    cases i <;> simp [codeCost, Instr.cost] at h

/-- Nothing is forgotten: a `Union` instruction is executed or still to be executed. -/
def Pending (s : St12) (t a b : Nat) : Prop := (a, b) ∈ s.calls t ∨ Instr.union a b ∈ s.code t

theorem Pending.step {s : St12} {t a b : Nat} (h : Pending s t a b) (t' : Nat) : Pending (step12 s t') t a b := by
  unfold step12
  cases he : s.code t' with
  | nil => exact h
  | cons i r =>
    have hcode : ∀ l, i ≠ .union a b → (∀ j ∈ r, j ∈ l) → Instr.union a b ∈ s.code t →
        Instr.union a b ∈ update s.code t' l t := by
      intro l hi hl hm
      by_cases h : t = t'
      · subst h
        rw [update_self]
        rw [he, List.mem_cons] at hm
        rcases hm with hm | hm
        · exact absurd hm.symm hi
        · exact hl _ hm
      · rw [update_of_ne h]; exact hm
    cases i with
    | store v => exact h.imp id (hcode r (by simp) (fun _ h => h))
    | union c d =>
      have hcalls : ∀ p ∈ s.calls t, p ∈ update s.calls t' (s.calls t' ++ [(c, d)]) t := by
        intro p hp
        by_cases h : t = t'
        · subst h; rw [update_self]; exact List.mem_append_left _ hp
        · rw [update_of_ne h]; exact hp
      rcases h with h | h
      · exact Or.inl (hcalls _ h)
      · by_cases hi : Instr.union c d = .union a b
        · simp only [Instr.union.injEq] at hi
          obtain ⟨rfl, rfl⟩ := hi
          by_cases ht : t = t'
          · subst ht
            left; simp
          · right
            simp only [update_of_ne ht]; exact h
        · exact Or.inr (hcode r hi (fun _ h => h) h)
    | claim v x c d =>
      simp only
      split
      · exact h.imp id (hcode r (by simp) (fun _ h => h))
      · exact h.imp id (hcode _ (by simp) (fun j hj => by simp [hj]))

theorem pending_run (sched : List Nat) {t a b : Nat} : ∀ s : St12, Pending s t a b → Pending (sched.foldl step12 s) t a b := by
  induction sched with
  | nil => intro s h; exact h
  | cons x l ih => intro s h; exact ih _ (h.step x)

/-! ### Tests 3 and 4 -/

/-- No cut below the bound separates the two vertices. -/
def Conn (G : Graph) (limit a b : Nat) : Prop := ∀ S, cutValue G.n G.wt S < limit → S a = S b

/-- The two vertices and a common neighbour pass the triangle test. -/
def Tri (G : Graph) (limit : Nat) (all : Bool) (n t : Nat) : Prop :=
  n < G.n ∧ t < G.n ∧ n ≠ t ∧ ∃ x, x < G.n ∧ x ≠ n ∧ x ≠ t ∧
    (all = false ∧ G.deg n ≤ 2 * (G.wt n t + G.wt n x) ∧ G.deg t ≤ 2 * (G.wt t n + G.wt t x) ∨
     all = true ∧ G.deg n < 2 * (G.wt n t + G.wt n x) ∧ G.deg t < 2 * (G.wt t n + G.wt t x) ∧
      limit ≤ G.deg n ∧ limit ≤ G.deg t)

/-- Contribution of an edge of `t` to the sum. -/
def term (G : Graph) (n : Nat) (e : Nat × Nat) : Nat := if e.1 = n then 0 else min (G.wt n e.1) e.2

/-- The sum is at most what the edges of `t` that have been looked at allow. -/
def SumOk (G : Graph) (n t w1 : Nat) (e2s : List (Nat × Nat)) (sum : Nat) : Prop :=
  ∃ pre, pre ++ e2s = G.edges t ∧ sum ≤ w1 + (pre.map (term G n)).sum

/-- Local invariant of a thread. -/
def PC.ok (G : Graph) (limit : Nat) (all : Bool) (pairs : List (Nat × Nat)) : PC → Prop
  | .idle => True
  | .enter _ => True
  | .edge n es => ∀ e ∈ es, e ∈ G.edges n
  | .tri n t w1 es e2s sum => (∀ e ∈ es, e ∈ G.edges n) ∧ (t, w1) ∈ G.edges n ∧ SumOk G n t w1 e2s sum
  | .second n t w1 es e2s sum => (∀ e ∈ es, e ∈ G.edges n) ∧ (t, w1) ∈ G.edges n ∧ SumOk G n t w1 e2s sum ∧ Tri G limit all n t
  | .unite n t es sum => (∀ e ∈ es, e ∈ G.edges n) ∧ (limit ≤ sum → Conn G limit n t) ∧ (n, t) ∈ pairs
  | .limN n t es => (∀ e ∈ es, e ∈ G.edges n) ∧ Conn G limit n t
  | .limT n t es => (∀ e ∈ es, e ∈ G.edges n) ∧ Conn G limit n t
  | .limU n t es => (∀ e ∈ es, e ∈ G.edges n) ∧ Conn G limit n t

/-- The vertex whose flag a thread has set and not yet used. -/
def PC.held : PC → Option Nat
  | .second n _ _ _ _ _ => some n
  | _ => none

theorem PC.ok.mono {G : Graph} {limit : Nat} {all : Bool} {ps qs : List (Nat × Nat)} (h : ∀ p ∈ ps, p ∈ qs) {pc : PC}
    (hp : pc.ok G limit all ps) : pc.ok G limit all qs := by
  cases pc with
  | unite n t es sum => exact ⟨hp.1, hp.2.1, h _ hp.2.2⟩
  | _ => exact hp

/-- Pairs without a common vertex. -/
def Apart (p q : Nat × Nat) : Prop := p.1 ≠ q.1 ∧ p.1 ≠ q.2 ∧ p.2 ≠ q.1 ∧ p.2 ≠ q.2

/-- Invariant of `prTests34`. -/
structure Inv34 (G : Graph) (limit : Nat) (all : Bool) (s : St34) : Prop where
  pc : ∀ τ, (s.thr τ).pc.ok G limit all s.pairs
  marked : ∀ τ x m w, (s.thr τ).marked x = some (m, w) → (x, w) ∈ G.edges m ∧ m < x
  calls : ∀ τ, ∀ p ∈ (s.thr τ).calls, p ∈ s.pairs ∨ Conn G limit p.1 p.2
  tri : ∀ p ∈ s.pairs, Tri G limit all p.1 p.2
  set : ∀ p ∈ s.pairs, s.contracted p.1 = true ∧ s.contracted p.2 = true
  apart : s.pairs.Pairwise Apart
  held : ∀ τ v, (s.thr τ).pc.held = some v → s.contracted v = true ∧ ∀ p ∈ s.pairs, v ≠ p.1 ∧ v ≠ p.2
  excl : ∀ τ τ' v, (s.thr τ).pc.held = some v → (s.thr τ').pc.held = some v → τ = τ'

variable {G : Graph} {limit : Nat} {all : Bool}

/-- Steps that only change thread `τ`, which then holds nothing, and set flags. -/
theorem Inv34.local {s s' : St34} (h : Inv34 G limit all s) (τ : Nat) (hthr : ∀ t, t ≠ τ → s'.thr t = s.thr t)
    (hpairs : s'.pairs = s.pairs) (hset : ∀ v, s.contracted v = true → s'.contracted v = true)
    (hpc : (s'.thr τ).pc.ok G limit all s.pairs) (hheld : (s'.thr τ).pc.held = none)
    (hm : ∀ x m w, (s'.thr τ).marked x = some (m, w) → (x, w) ∈ G.edges m ∧ m < x)
    (hcalls : ∀ p ∈ (s'.thr τ).calls, p ∈ s.pairs ∨ Conn G limit p.1 p.2) : Inv34 G limit all s' := by
  refine ⟨?_, ?_, ?_, ?_, ?_, ?_, ?_, ?_⟩
  · intro t
    rw [hpairs]
    by_cases ht : t = τ
    · subst ht; exact hpc
    · rw [hthr t ht]; exact h.pc t
  · intro t
    by_cases ht : t = τ
    · subst ht; exact hm
    · rw [hthr t ht]; exact h.marked t
  · intro t
    rw [hpairs]
    by_cases ht : t = τ
    · subst ht; exact hcalls
    · rw [hthr t ht]; exact h.calls t
  · rw [hpairs]; exact h.tri
  · rw [hpairs]; exact fun p hp => ⟨hset _ (h.set p hp).1, hset _ (h.set p hp).2⟩
  · rw [hpairs]; exact h.apart
  · intro t v hv
    rw [hpairs]
    by_cases ht : t = τ
    · subst ht; rw [hheld] at hv; cases hv
    · rw [hthr t ht] at hv
      exact ⟨hset _ (h.held t v hv).1, (h.held t v hv).2⟩
  · intro t t' v hv hv'
    by_cases ht : t = τ
    · subst ht; rw [hheld] at hv; cases hv
    · by_cases ht' : t' = τ
      · subst ht'; rw [hheld] at hv'; cases hv'
      · rw [hthr t ht] at hv
        rw [hthr t' ht'] at hv'
        exact h.excl t t' v hv hv'

theorem Inv34.goto {s : St34} (h : Inv34 G limit all s) (τ : Nat) {p : PC} (hp : p.ok G limit all s.pairs) (hh : p.held = none) :
    Inv34 G limit all (s.goto τ p) := by
  refine h.local τ (fun t ht => by simp [St34.goto, ht]) rfl (fun _ h => h) ?_ ?_ ?_ ?_
  · simpa [St34.goto] using hp
  · simpa [St34.goto] using hh
  · simpa [St34.goto] using h.marked τ
  · simpa [St34.goto] using h.calls τ

theorem Inv34.store {s : St34} (h : Inv34 G limit all s) (v : Nat) : Inv34 G limit all (s.store v) := by
  have hs : ∀ x, s.contracted x = true → (s.store v).contracted x = true := by
    intro x hx
    simp only [St34.store, update_apply]
    split
    · rfl
    · exact hx
  exact ⟨h.pc, h.marked, h.calls, h.tri, fun p hp => ⟨hs _ (h.set p hp).1, hs _ (h.set p hp).2⟩, h.apart,
    fun τ x hx => ⟨hs _ (h.held τ x hx).1, (h.held τ x hx).2⟩, h.excl⟩

theorem Inv34.call {s : St34} (h : Inv34 G limit all s) (τ n t : Nat) (hc : (n, t) ∈ s.pairs ∨ Conn G limit n t) :
    Inv34 G limit all (s.call τ n t) := by
  have hp : ∀ τ', ((s.call τ n t).thr τ').pc = (s.thr τ').pc := by
    intro τ'
    by_cases h : τ' = τ
    · subst h; simp [St34.call]
    · simp [St34.call, h]
  refine ⟨fun τ' => by rw [hp]; exact h.pc τ', ?_, ?_, h.tri, h.set, h.apart, fun τ' v hv => ?_, fun τ1 τ2 v h1 h2 => ?_⟩
  · intro τ'
    have : ((s.call τ n t).thr τ').marked = (s.thr τ').marked := by
      by_cases h : τ' = τ
      · subst h; simp [St34.call]
      · simp [St34.call, h]
    rw [this]; exact h.marked τ'
  · intro τ' p hq
    by_cases hτ : τ' = τ
    · subst hτ
      simp only [St34.call, update_self, List.mem_append, List.mem_singleton] at hq
      rcases hq with hq | rfl
      · exact h.calls _ p hq
      · exact hc
    · simp only [St34.call, update_of_ne hτ] at hq
      exact h.calls τ' p hq
  · rw [hp] at hv; exact h.held τ' v hv
  · rw [hp] at h1 h2; exact h.excl τ1 τ2 v h1 h2

theorem Inv34.next {s : St34} (h : Inv34 G limit all s) (τ n t : Nat) {es : List (Nat × Nat)} (he : ∀ e ∈ es, e ∈ G.edges n) :
    Inv34 G limit all (s.next τ n t es) := by
  refine h.local τ (fun t' ht => by simp [St34.next, ht]) rfl (fun _ h => h) ?_ ?_ ?_ ?_
  · simp only [St34.next, update_self]; exact he
  · simp [St34.next, PC.held]
  · intro x m w hx
    simp only [St34.next, update_self, update_apply] at hx
    split at hx
    · cases hx
    · exact h.marked τ x m w hx
  · simpa [St34.next] using h.calls τ

theorem Inv34.after {s : St34} (h : Inv34 G limit all s) (τ n t : Nat) {es : List (Nat × Nat)} {sum : Nat}
    (he : ∀ e ∈ es, e ∈ G.edges n) (hs : limit ≤ sum → Conn G limit n t) : Inv34 G limit all (s.after limit τ n t es sum) := by
  unfold St34.after
  split
  · rename_i hl
    exact h.goto τ ⟨he, hs hl⟩ rfl
  · exact h.next τ n t he

/-- The sum bounds every cut that separates the two vertices. -/
theorem SumOk.conn (hG : G.WF) (hsim : ∀ u, u < G.n → ((G.edges u).map (·.1)).Nodup) {n t w1 : Nat} {e2s : List (Nat × Nat)}
    {sum : Nat} (he : (t, w1) ∈ G.edges n) (h : SumOk G n t w1 e2s sum) (hl : limit ≤ sum) : Conn G limit n t := by
  obtain ⟨pre, h1, h2⟩ := h
  intro S hS
  by_contra hne
  have hn := lt_n_of_edge he
  have ht : t < G.n := hG.tgt_lt n _ he
  have hnt : t ≠ n := hG.no_loop n _ he
  have hw : w1 ≤ G.wt n t := edge_le_wt he
  have c1 := cut_ge_star hG hn ht (Ne.symm hnt) hne
  have c2 := tri_sum_le hG (n := n) (hsim t ht)
  have c3 : (pre.map (term G n)).sum ≤ ((G.edges t).map (fun e => if e.1 = n then 0 else min (G.wt n e.1) e.2)).sum := by
    rw [← h1, List.map_append, List.sum_append]
    exact Nat.le_add_right _ _
  omega

theorem SumOk.skip {n t w1 : Nat} {e : Nat × Nat} {e2s : List (Nat × Nat)} {sum sum' : Nat} (h : SumOk G n t w1 (e :: e2s) sum)
    (hs : sum' ≤ sum + term G n e) : SumOk G n t w1 e2s sum' := by
  obtain ⟨pre, h1, h2⟩ := h
  refine ⟨pre ++ [e], by rw [← h1]; simp, ?_⟩
  rw [List.map_append, List.sum_append]
  simp only [List.map_cons, List.map_nil, List.sum_cons, List.sum_nil]
  omega

theorem contractible_tri (hG : G.WF) (h32 : ∀ u, u < G.n → G.deg u < 2 ^ 32) {n t w1 w3 : Nat} {e : Nat × Nat}
    (he1 : (t, w1) ∈ G.edges n) (he2 : e ∈ G.edges t) (he3 : (e.1, w3) ∈ G.edges n)
    (h : contractible G limit all n t w1 e.2 w3 = true) : Tri G limit all n t := by
  have hn := lt_n_of_edge he1
  have ht : t < G.n := hG.tgt_lt n _ he1
  have hnt : t ≠ n := hG.no_loop n _ he1
  have hw1 : w1 ≤ G.wt n t := edge_le_wt he1
  have hw2 := edge_le_wt he2
  have hw3 : w3 ≤ G.wt n e.1 := edge_le_wt he3
  refine ⟨hn, ht, Ne.symm hnt, e.1, hG.tgt_lt t e he2, hG.no_loop n (e.1, w3) he3, hG.no_loop t e he2, ?_⟩
  have un : u32 (G.deg n) = G.deg n := Nat.mod_eq_of_lt (h32 n hn)
  have ut : u32 (G.deg t) = G.deg t := Nat.mod_eq_of_lt (h32 t ht)
  simp only [contractible, un, ut, Bool.and_eq_true, Bool.or_eq_true, Bool.not_eq_true', decide_eq_true_eq] at h
  have q1 := u64_le (2 * u64 (w1 + w3))
  have q2 := u64_le (w1 + w3)
  have q3 := u64_le (2 * u64 (w1 + e.2))
  have q4 := u64_le (w1 + e.2)
  rw [hG.wt_symm t n]
  rcases h with ⟨⟨ha, hb⟩, hc⟩ | ⟨⟨⟨⟨ha, hb⟩, hc⟩, hd⟩, he⟩
  · left; exact ⟨ha, by omega, by omega⟩
  · right; exact ⟨ha, by omega, by omega, hd, he⟩

theorem Inv34.step (hG : G.WF) (h32 : ∀ u, u < G.n → G.deg u < 2 ^ 32) (hsim : ∀ u, u < G.n → ((G.edges u).map (·.1)).Nodup)
    {s : St34} (h : Inv34 G limit all s) (τ : Nat) : Inv34 G limit all (step34 G limit all s τ) := by
  have hpc := h.pc τ
  unfold step34
  cases hp : (s.thr τ).pc with
  | idle =>
    simp only
    split
    · exact h
    · rename_i n rest hw
      have h' : Inv34 G limit all { s with thr := update s.thr τ { s.thr τ with work := rest } } := by
        refine h.local τ (fun t ht => by simp [ht]) rfl (fun _ h => h) ?_ ?_ ?_ ?_
        · simp [hp, PC.ok]
        · simp [hp, PC.held]
        · simpa using h.marked τ
        · simpa using h.calls τ
      split
      · exact h'
      · exact h'.goto τ trivial rfl
  | enter n =>
    simp only
    refine h.local τ (fun t ht => by simp [ht]) rfl (fun _ h => h) ?_ ?_ ?_ ?_
    · simp [PC.ok]
    · simp [PC.held]
    · simp only [update_self]
      refine foldl_inv (P := fun m : Nat → Option (Nat × Nat) => ∀ x k w, m x = some (k, w) → (x, w) ∈ G.edges k ∧ k < x)
        _ ?_ _ (h.marked τ)
      intro m e he hm x k w hx
      unfold pr34Mark at hx
      split at hx
      · rename_i hgt
        simp only [update_apply] at hx
        split at hx
        · rename_i hxe
          simp only [Option.some.injEq, Prod.mk.injEq] at hx
          obtain ⟨rfl, rfl⟩ := hx
          subst hxe
          exact ⟨he, hgt⟩
        · exact hm x k w hx
      · exact hm x k w hx
    · simpa using h.calls τ
  | edge n es =>
    rw [hp] at hpc
    cases es with
    | nil => exact h.goto τ trivial rfl
    | cons e es =>
      simp only
      have h' : Inv34 G limit all { s with finished := update s.finished e.1 true } :=
        ⟨h.pc, h.marked, h.calls, h.tri, h.set, h.apart, h.held, h.excl⟩
      have hes : ∀ x ∈ es, x ∈ G.edges n := fun x hx => hpc x (by simp [hx])
      split
      · exact h'.goto τ ⟨hes, hpc e (by simp), [], rfl, by simp⟩ rfl
      · exact h'.goto τ hes rfl
  | tri n t w1 es e2s sum =>
    rw [hp] at hpc
    obtain ⟨hes, he1, hsum⟩ := hpc
    cases e2s with
    | nil => exact h.after τ n t hes (fun hl => hsum.conn hG hsim he1 hl)
    | cons e2 e2s =>
      have he2 : e2 ∈ G.edges t := by
        obtain ⟨pre, h1, _⟩ := hsum
        rw [← h1]; simp
      simp only
      split
      · exact h.goto τ ⟨hes, he1, hsum.skip (Nat.le_add_right _ _)⟩ rfl
      · rename_i m w3 hmk
        split
        · exact h.goto τ ⟨hes, he1, hsum.skip (Nat.le_add_right _ _)⟩ rfl
        · rename_i hmn
          have hmn : m = n := not_not.1 hmn
          subst hmn
          obtain ⟨g1, g2⟩ := h.marked τ _ _ _ hmk
          have hs' : SumOk G m t w1 e2s (u64 (sum + min e2.2 w3)) := by
            refine hsum.skip (le_trans (u64_le _) ?_)
            have hw3 : w3 ≤ G.wt m e2.1 := edge_le_wt g1
            have : min e2.2 w3 ≤ min (G.wt m e2.1) e2.2 := by
              rw [min_comm]; exact min_le_min hw3 (le_refl _)
            rw [term, if_neg (by omega)]
            omega
          split
          · rename_i hc
            simp only [Bool.and_eq_true, Bool.not_eq_true'] at hc
            have htri := contractible_tri hG h32 he1 he2 g1 hc.1
            have hst := h.store m
            have hnew : ((s.store m).goto τ (.second m t w1 es e2s (u64 (sum + min e2.2 w3)))).thr τ =
                { s.thr τ with pc := .second m t w1 es e2s (u64 (sum + min e2.2 w3)) } := by
              simp [St34.goto, St34.store]
            have hold : ∀ t', t' ≠ τ → ((s.store m).goto τ (.second m t w1 es e2s (u64 (sum + min e2.2 w3)))).thr t' =
                s.thr t' := by
              intro t' ht'; simp [St34.goto, St34.store, ht']
            refine ⟨?_, ?_, ?_, hst.tri, hst.set, hst.apart, ?_, ?_⟩
            · intro t'
              by_cases ht' : t' = τ
              · subst ht'; rw [hnew]; exact ⟨hes, he1, hs', htri⟩
              · rw [hold t' ht']; exact h.pc t'
            · intro t'
              by_cases ht' : t' = τ
              · subst ht'; rw [hnew]; exact h.marked _
              · rw [hold t' ht']; exact h.marked t'
            · intro t'
              by_cases ht' : t' = τ
              · subst ht'; rw [hnew]; exact h.calls _
              · rw [hold t' ht']; exact h.calls t'
            · intro t' v hv
              by_cases ht' : t' = τ
              · subst ht'
                rw [hnew] at hv
                simp only [PC.held, Option.some.injEq] at hv
                subst hv
                refine ⟨by simp [St34.goto, St34.store], fun p hp => ?_⟩
                have := h.set p hp
                refine ⟨fun e => ?_, fun e => ?_⟩
                · rw [e] at hc; rw [this.1] at hc; exact absurd hc.2 (by simp)
                · rw [e] at hc; rw [this.2] at hc; exact absurd hc.2 (by simp)
              · rw [hold t' ht'] at hv; exact hst.held t' v hv
            · have hex : ∀ t' v, t' ≠ τ → (s.thr t').pc.held = some v → v ≠ m := by
                rintro t' v _ hv rfl
                rw [(h.held t' v hv).1] at hc
                exact absurd hc.2 (by simp)
              intro t1 t2 v h1 h2
              by_cases c1 : t1 = τ
              · by_cases c2 : t2 = τ
                · rw [c1, c2]
                · rw [hold t2 c2] at h2
                  rw [c1, hnew] at h1
                  simp only [PC.held, Option.some.injEq] at h1
                  exact absurd h1.symm (hex t2 v c2 h2)
              · by_cases c2 : t2 = τ
                · rw [hold t1 c1] at h1
                  rw [c2, hnew] at h2
                  simp only [PC.held, Option.some.injEq] at h2
                  exact absurd h2.symm (hex t1 v c1 h1)
                · rw [hold t1 c1] at h1
                  rw [hold t2 c2] at h2
                  exact h.excl t1 t2 v h1 h2
          · exact h.goto τ ⟨hes, he1, hs'⟩ rfl
  | second n t w1 es e2s sum =>
    rw [hp] at hpc
    obtain ⟨hes, he1, hsum, htri⟩ := hpc
    simp only
    split
    · exact h.goto τ ⟨hes, he1, hsum⟩ rfl
    · rename_i hct
      have hn := h.held τ n (by rw [hp]; rfl)
      have hst := h.store t
      have h' : Inv34 G limit all ({ s.store t with pairs := (n, t) :: s.pairs }.goto τ (.unite n t es sum)) := by
        set s' := { s.store t with pairs := (n, t) :: s.pairs }.goto τ (.unite n t es sum) with hs'
        have hnew : s'.thr τ = { s.thr τ with pc := .unite n t es sum } := by simp [hs', St34.goto, St34.store]
        have hold : ∀ t', t' ≠ τ → s'.thr t' = s.thr t' := by
          intro t' ht'; simp [hs', St34.goto, St34.store, ht']
        have hpairs : s'.pairs = (n, t) :: s.pairs := rfl
        have hsub : ∀ p ∈ s.pairs, p ∈ s'.pairs := fun p hp => by rw [hpairs]; exact List.mem_cons_of_mem _ hp
        have hcon : s'.contracted = (s.store t).contracted := rfl
        have hct' : s.contracted t = false := by simpa using hct
        have htp : ∀ p ∈ s.pairs, t ≠ p.1 ∧ t ≠ p.2 := by
          intro p hp
          have := h.set p hp
          refine ⟨fun e => ?_, fun e => ?_⟩
          · rw [e, this.1] at hct'; cases hct'
          · rw [e, this.2] at hct'; cases hct'
        refine ⟨?_, ?_, ?_, ?_, ?_, ?_, ?_, ?_⟩
        · intro t'
          by_cases ht' : t' = τ
          · subst ht'; rw [hnew]; exact ⟨hes, fun hl => hsum.conn hG hsim he1 hl, by rw [hpairs]; simp⟩
          · rw [hold t' ht']; exact (h.pc t').mono hsub
        · intro t'
          by_cases ht' : t' = τ
          · subst ht'; rw [hnew]; exact h.marked _
          · rw [hold t' ht']; exact h.marked t'
        · intro t' p hp
          have hp' : p ∈ (s.thr t').calls := by
            by_cases ht' : t' = τ
            · subst ht'; rw [hnew] at hp; exact hp
            · rw [hold t' ht'] at hp; exact hp
          exact (h.calls t' p hp').imp (hsub p) id
        · intro p hp
          rw [hpairs, List.mem_cons] at hp
          rcases hp with rfl | hp
          · exact htri
          · exact h.tri p hp
        · intro p hp
          rw [hpairs, List.mem_cons] at hp
          rw [hcon]
          have hup : ∀ v, s.contracted v = true → (s.store t).contracted v = true := by
            intro v hv
            simp only [St34.store, update_apply]
            split
            · rfl
            · exact hv
          rcases hp with rfl | hp
          · exact ⟨hup _ hn.1, by simp [St34.store]⟩
          · exact ⟨hup _ (h.set p hp).1, hup _ (h.set p hp).2⟩
        · rw [hpairs, List.pairwise_cons]
          exact ⟨fun p hp => ⟨(hn.2 p hp).1, (hn.2 p hp).2, (htp p hp).1, (htp p hp).2⟩, h.apart⟩
        · intro t' v hv
          by_cases ht' : t' = τ
          · subst ht'; rw [hnew] at hv; cases hv
          · rw [hold t' ht'] at hv
            refine ⟨(hst.held t' v hv).1, fun p hp => ?_⟩
            rw [hpairs, List.mem_cons] at hp
            rcases hp with rfl | hp
            · refine ⟨fun e => ?_, fun e => ?_⟩
              · simp only at e
                subst e
                exact ht' (h.excl t' τ v hv (by rw [hp]; rfl))
              · simp only at e
                subst e
                rw [(h.held t' v hv).1] at hct'
                cases hct'
            · exact (h.held t' v hv).2 p hp
        · intro t1 t2 v h1 h2
          by_cases c1 : t1 = τ
          · subst c1; rw [hnew] at h1; cases h1
          · by_cases c2 : t2 = τ
            · subst c2; rw [hnew] at h2; cases h2
            · rw [hold t1 c1] at h1
              rw [hold t2 c2] at h2
              exact h.excl t1 t2 v h1 h2
      exact h'
  | unite n t es sum =>
    rw [hp] at hpc
    exact (h.call τ n t (Or.inl hpc.2.2)).after τ n t hpc.1 hpc.2.1
  | limN n t es =>
    rw [hp] at hpc
    exact (h.store n).goto τ hpc rfl
  | limT n t es =>
    rw [hp] at hpc
    exact (h.store t).goto τ hpc rfl
  | limU n t es =>
    rw [hp] at hpc
    exact (h.call τ n t (Or.inr hpc.2)).next τ n t hpc.1

theorem inv34_run (hG : G.WF) (h32 : ∀ u, u < G.n → G.deg u < 2 ^ 32) (hsim : ∀ u, u < G.n → ((G.edges u).map (·.1)).Nodup)
    (work : Nat → List Nat) (sched : List Nat) : Inv34 G limit all (run34 G limit all work sched) := by
  refine foldl_inv sched (fun _ t _ h => h.step hG h32 hsim t) _ ⟨?_, ?_, ?_, ?_, ?_, ?_, ?_, ?_⟩
  · intro τ; trivial
  · intro τ x m w h; cases h
  · intro τ p h; cases h
  · intro p h; cases h
  · intro p h; cases h
  · exact List.Pairwise.nil
  · intro τ v h; cases h
  · intro τ τ' v h; cases h

/-- Disjoint pairs that pass the triangle test: some cut of at most the same value separates none of them. -/
theorem exists_cut (hG : G.WF) (hdeg : ∀ u, u < G.n → limit ≤ G.deg u) {c : Nat} (hcl : c < limit) (ps : List (Nat × Nat))
    (ht : ∀ p ∈ ps, Tri G limit false p.1 p.2) (ha : ps.Pairwise Apart) :
    (∃ S, ProperCut G.n S ∧ cutValue G.n G.wt S ≤ c) →
    ∃ S, ProperCut G.n S ∧ cutValue G.n G.wt S ≤ c ∧ ∀ p ∈ ps, S p.1 = S p.2 := by
  induction ps with
  | nil =>
    rintro ⟨S, h1, h2⟩
    exact ⟨S, h1, h2, fun p hp => by cases hp⟩
  | cons p ps ih =>
    intro hS
    rw [List.pairwise_cons] at ha
    obtain ⟨S, h1, h2, h3⟩ := ih (fun q hq => ht q (by simp [hq])) ha.2 hS
    by_cases hp : S p.1 = S p.2
    · refine ⟨S, h1, h2, fun q hq => ?_⟩
      rcases List.mem_cons.1 hq with rfl | hq
      · exact hp
      · exact h3 q hq
    · obtain ⟨hn, htt, hne, x, hx, hxn, hxt, hor⟩ := ht p (by simp)
      rcases hor with ⟨_, d1, d2⟩ | ⟨h, _⟩
      · obtain ⟨v, hv, hvn, hle⟩ := tri_move hG (k := 0) hn htt hx hne hxn hxt hp (by omega) (by omega)
        have hdv := hdeg v hvn
        refine ⟨update S v (!S v), flip_proper hG h1 hvn (by omega), by omega, fun q hq => ?_⟩
        rcases List.mem_cons.1 hq with rfl | hq
        · rcases hv with rfl | rfl
          · rw [update_self, update_of_ne (Ne.symm hne)]
            exact bnot_eq hp
          · rw [update_self, update_of_ne hne]
            exact (bnot_eq (Ne.symm hp)).symm
        · have hap := ha.1 q hq
          have hv' : q.1 ≠ v ∧ q.2 ≠ v := by
            rcases hv with rfl | rfl
            · exact ⟨Ne.symm hap.1, Ne.symm hap.2.1⟩
            · exact ⟨Ne.symm hap.2.2.1, Ne.symm hap.2.2.2⟩
          rw [update_of_ne hv'.1, update_of_ne hv'.2]
          exact h3 q hq
      · cases h

/-- With `find_all_cuts` a minimum cut below the bound separates no pair. -/
theorem Tri.same (hG : G.WF) {S : Nat → Bool} (hS : ProperCut G.n S)
    (hmin : ∀ T, ProperCut G.n T → cutValue G.n G.wt S ≤ cutValue G.n G.wt T) (hcl : cutValue G.n G.wt S < limit) {n t : Nat}
    (h : Tri G limit true n t) : S n = S t := by
  obtain ⟨hn, htt, hne, x, hx, hxn, hxt, hor⟩ := h
  rcases hor with ⟨h, _⟩ | ⟨_, d1, d2, d3, d4⟩
  · cases h
  · by_contra hp
    obtain ⟨v, hv, hvn, hle⟩ := tri_move hG (k := 1) hn htt hx hne hxn hxt hp (by omega) (by omega)
    have hdv : limit ≤ G.deg v := by rcases hv with rfl | rfl <;> assumption
    have := hmin _ (flip_proper hG hS hvn (by omega))
    omega

/-! ### Progress of `prTests34` -/

/-- Steps for the remaining edges of a vertex. -/
def edgesCost (G : Graph) (es : List (Nat × Nat)) : Nat := (es.map fun e => 10 + 2 * (G.edges e.1).length).sum + 1

/-- Steps for the remaining vertices. -/
def workCost (G : Graph) (vs : List Nat) : Nat := (vs.map fun n => 2 + edgesCost G (G.edges n)).sum

/-- Steps for the rest of the current iteration. -/
def PC.cost (G : Graph) : PC → Nat
  | .idle => 0
  | .enter n => 1 + edgesCost G (G.edges n)
  | .edge _ es => edgesCost G es
  | .tri _ _ _ es e2s _ => 8 + 2 * e2s.length + edgesCost G es
  | .second _ _ _ es e2s _ => 9 + 2 * e2s.length + edgesCost G es
  | .unite _ _ es _ => 7 + edgesCost G es
  | .limN _ _ es => 3 + edgesCost G es
  | .limT _ _ es => 2 + edgesCost G es
  | .limU _ _ es => 1 + edgesCost G es

/-- Steps that a thread can still take. -/
def Thr.cost (G : Graph) (l : Thr) : Nat := l.pc.cost G + workCost G l.work

/-- A thread has handled all its vertices. -/
def Thr.done (l : Thr) : Prop := l.pc = .idle ∧ l.work = []

theorem Thr.done_of_cost {l : Thr} (h : l.cost G = 0) : l.done := by
  obtain ⟨w, pc, m, c⟩ := l
  simp only [Thr.cost, Nat.add_eq_zero_iff] at h
  obtain ⟨h1, h2⟩ := h
  refine ⟨?_, ?_⟩
  · cases pc <;> simp [PC.cost, edgesCost] at h1 ⊢
  · cases w with
    | nil => rfl
    | cons n w => simp [workCost] at h2

theorem step34_other (s : St34) {τ τ' : Nat} (h : τ' ≠ τ) : (step34 G limit all s τ).thr τ' = s.thr τ' := by
  unfold step34
  cases (s.thr τ).pc <;> simp only [St34.after] <;> (repeat' split) <;>
    simp [St34.goto, St34.next, St34.call, St34.store, h]

theorem step34_cost (s : St34) (τ : Nat) : ((step34 G limit all s τ).thr τ).cost G ≤ (s.thr τ).cost G - 1 := by
  unfold step34
  cases hp : (s.thr τ).pc with
  | idle =>
    simp only
    split
    · rename_i hw
      simp [Thr.cost, hp, hw, PC.cost, workCost]
    · rename_i n rest hw
      split <;> simp [St34.goto, Thr.cost, hp, hw, PC.cost, workCost] <;> omega
  | enter n => simp [Thr.cost, hp, PC.cost]; omega
  | edge n es =>
    cases es with
    | nil => simp [St34.goto, Thr.cost, hp, PC.cost, edgesCost]
    | cons e es =>
      simp only
      split <;> simp [St34.goto, Thr.cost, hp, PC.cost, edgesCost] <;> omega
  | tri n t w1 es e2s sum =>
    cases e2s with
    | nil =>
      simp only [St34.after]
      split <;> simp [St34.goto, St34.next, Thr.cost, hp, PC.cost] <;> omega
    | cons e2 e2s =>
      simp only
      repeat' split
      all_goals simp [St34.goto, St34.store, Thr.cost, hp, PC.cost]
      all_goals omega
  | second n t w1 es e2s sum =>
    simp only
    split <;> simp [St34.goto, St34.store, Thr.cost, hp, PC.cost] <;> omega
  | unite n t es sum =>
    simp only [St34.after]
    split <;> simp [St34.goto, St34.next, St34.call, Thr.cost, hp, PC.cost] <;> omega
  | limN n t es => simp [St34.goto, St34.store, Thr.cost, hp, PC.cost]; omega
  | limT n t es => simp [St34.goto, St34.store, Thr.cost, hp, PC.cost]; omega
  | limU n t es => simp [St34.next, St34.call, Thr.cost, hp, PC.cost]; omega

theorem run34_cost (sched : List Nat) (τ : Nat) : ∀ s : St34,
    ((sched.foldl (step34 G limit all) s).thr τ).cost G ≤ (s.thr τ).cost G - sched.count τ := by
  induction sched with
  | nil => intro s; simp
  | cons a l ih =>
    intro s
    rw [List.foldl_cons]
    refine le_trans (ih _) ?_
    rw [List.count_cons]
    by_cases h : a = τ
    · subst h
      have := step34_cost (G := G) (limit := limit) (all := all) s a
      simp only [beq_self_eq_true, if_true]
      omega
    · rw [step34_other s (Ne.symm h), if_neg (by simpa using h)]
      omega

end PPR
end VieCut
