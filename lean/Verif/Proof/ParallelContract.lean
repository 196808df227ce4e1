import Verif.Model.ParallelContract
import Verif.Proof.Contract
import Mathlib.Data.Multiset.Filter
import Mathlib.Algebra.BigOperators.Group.Multiset.Basic

/-! # Parallel contraction: the first two parts -/

namespace VieCut
open Finset Function

namespace PCT

theorem sum_upd {M α : Type} [AddCommMonoid M] (f : α → M) (g : Nat → α) {T t : Nat} (ht : t < T) (v : α) :
    ∑ x ∈ range T, f (update g t v x) + f (g t) = ∑ x ∈ range T, f (g x) + f v := by
  have hm : t ∈ range T := mem_range.2 ht
  rw [← Finset.add_sum_erase _ _ hm, ← Finset.add_sum_erase _ (fun x => f (g x)) hm]
  simp only [update_self]
  have : ∑ x ∈ (range T).erase t, f (update g t v x) = ∑ x ∈ (range T).erase t, f (g x) := by
    refine Finset.sum_congr rfl fun x hx => ?_
    rw [update_of_ne (Finset.mem_erase.1 hx).1]
  rw [this, add_assoc, add_assoc, add_left_comm, add_comm (f (g t)), add_comm (∑ x ∈ _, f (g x)) (f v), add_left_comm]
  rw [add_assoc]

/-! ### Keys -/

theorem fst_pack {p q : Nat} (hqp : q < p) (hp : p < 2 ^ 32) : fst (pack p q) = q := by
  unfold fst pack
  rw [Nat.min_eq_right (by omega), Nat.max_eq_left (by omega)]
  omega

theorem snd_pack {p q : Nat} (hqp : q < p) (hp : p < 2 ^ 32) : snd (pack p q) = p := by
  unfold snd pack
  rw [Nat.min_eq_right (by omega), Nat.max_eq_left (by omega)]
  omega

theorem pack_comm (p q : Nat) : pack p q = pack q p := by
  unfold pack
  rw [Nat.min_comm, Nat.max_comm]

theorem pack_pos {p q : Nat} (hqp : q < p) : 0 < pack p q := by
  unfold pack
  have := Nat.le_max_left p q
  omega

/-- A key of an edge between two blocks. -/
def Key (N k : Nat) : Prop := fst k < snd k ∧ snd k < N

theorem key_pack {N p q : Nat} (hN : N ≤ 2 ^ 32) (hqp : q < p) (hp : p < N) : Key N (pack p q) := by
  unfold Key
  rw [fst_pack hqp (by omega), snd_pack hqp (by omega)]
  exact ⟨hqp, hp⟩

theorem Key.pack {N k : Nat} (h : Key N k) : pack (snd k) (fst k) = k := by
  obtain ⟨h1, _⟩ := h
  unfold PCT.pack
  rw [Nat.min_eq_right (by omega), Nat.max_eq_left (by omega)]
  unfold fst snd
  omega

/-- The vertex is an end of the edge. -/
def inc (v k : Nat) : Bool := decide (fst k = v) || decide (snd k = v)

/-! ### The first part -/

/-- What an instruction adds to the entry `k`. -/
def Instr.add (k : Nat) : Instr → Nat
  | .upd k' w _ _ => if k' = k then w else 0
  | _ => 0

/-- What an instruction adds to the local sum. -/
def Instr.addOwn : Instr → Nat
  | .own w => w
  | _ => 0

/-- The instruction is about a key that is not the contested one. -/
def Instr.good (N contested : Nat) : Instr → Prop
  | .upd k _ p q => q < p ∧ p < N ∧ k = pack p q ∧ k ≠ contested
  | _ => True

def pend (k : Nat) (l : List Instr) : Nat := (l.map (Instr.add k)).sum
def pendOwn (l : List Instr) : Nat := (l.map Instr.addOwn).sum

/-- Invariant of the first part. -/
structure Inv1 (T N contested : Nat) (tot : Nat → Nat) (totOwn : Nat) (s : St) : Prop where
  tab : ∀ k, (s.table k).getD 0 + ∑ t ∈ range T, pend k (s.code t) = tot k
  own : ∑ t ∈ range T, s.own t + ∑ t ∈ range T, pendOwn (s.code t) = totOwn
  keys : ∀ k, ∑ t ∈ range T, (s.keys t).count k = if (s.table k).isSome then 1 else 0
  deg : ∀ v, s.degrees v + ∑ t ∈ range T, (s.code t).count (.incr v) = ∑ t ∈ range T, (s.keys t).countP (inc v)
  good : ∀ t, t < T → ∀ i ∈ s.code t, i.good N contested
  key : ∀ t, t < T → ∀ k ∈ s.keys t, Key N k
  free : s.table contested = none

theorem Inv1.step {T N contested : Nat} (hN : N ≤ 2 ^ 32) {tot : Nat → Nat} {totOwn : Nat} {s : St}
    (h : Inv1 T N contested tot totOwn s) {t : Nat} (ht : t < T) : Inv1 T N contested tot totOwn (step s t) := by
  have hgood := h.good t ht
  have gup : ∀ l : List Instr, (∀ i ∈ l, i.good N contested) → ∀ t', t' < T → ∀ i ∈ update s.code t l t', i.good N contested := by
    intro l hl t' ht' i hi
    rw [update_apply] at hi
    split at hi
    · exact hl i hi
    · exact h.good t' ht' i hi
  have cpend : ∀ k l, ∑ x ∈ range T, pend k (update s.code t l x) + pend k (s.code t) =
      ∑ x ∈ range T, pend k (s.code x) + pend k l := fun k l => sum_upd (pend k) s.code ht l
  have cown : ∀ l, ∑ x ∈ range T, pendOwn (update s.code t l x) + pendOwn (s.code t) =
      ∑ x ∈ range T, pendOwn (s.code x) + pendOwn l := fun l => sum_upd pendOwn s.code ht l
  have ccnt : ∀ v l, ∑ x ∈ range T, (update s.code t l x).count (.incr v) + (s.code t).count (.incr v) =
      ∑ x ∈ range T, (s.code x).count (.incr v) + l.count (.incr v) :=
    fun v l => sum_upd (fun l => List.count (Instr.incr v) l) s.code ht l
  unfold PCT.step
  cases he : s.code t with
  | nil => exact h
  | cons i r =>
    rw [he] at hgood
    have hr : ∀ j ∈ r, j.good N contested := fun j hj => hgood j (by simp [hj])
    cases i with
    | upd k w p q =>
      obtain ⟨hqp, hp, hk, hkc⟩ := hgood (.upd k w p q) (by simp)
      have hf : fst k = q := by rw [hk]; exact fst_pack hqp (by omega)
      have hs : snd k = p := by rw [hk]; exact snd_pack hqp (by omega)
      simp only
      cases htab : s.table k with
      | none =>
        simp only
        refine ⟨?_, ?_, ?_, ?_, ?_, ?_, ?_⟩
        · intro k'
          have c := cpend k' (.incr p :: .incr q :: r)
          have h0 := h.tab k'
          rw [he] at c
          simp only [pend, List.map_cons, List.sum_cons, Instr.add] at c h0 ⊢
          by_cases hkk : k' = k
          · subst hkk
            simp only [update_self, htab, if_true, Option.getD_none, Option.getD_some] at c h0 ⊢
            omega
          · simp only [update_of_ne hkk, if_neg (Ne.symm hkk)] at c h0 ⊢
            omega
        · have c := cown (.incr p :: .incr q :: r)
          have h0 := h.own
          rw [he] at c
          simp only [pendOwn, List.map_cons, List.sum_cons, Instr.addOwn] at c h0 ⊢
          omega
        · intro k'
          have c := sum_upd (fun l => List.count k' l) s.keys ht (s.keys t ++ [k])
          have h0 := h.keys k'
          simp only [List.count_append] at c
          by_cases hkk : k' = k
          · subst hkk
            simp only [htab, update_self, Option.isSome_none, Option.isSome_some, List.count_singleton_self, if_true] at c h0 ⊢
            have h0' : ∑ t ∈ range T, (s.keys t).count k' = 0 := by
              simpa using h0
            omega
          · have : List.count k' [k] = 0 := by simp [List.count_singleton, Ne.symm hkk]
            simp only [update_of_ne hkk] at h0 ⊢
            omega
        · intro v
          have c := ccnt v (.incr p :: .incr q :: r)
          have c2 := sum_upd (fun l => List.countP (inc v) l) s.keys ht (s.keys t ++ [k])
          have h0 := h.deg v
          rw [he] at c
          simp only [List.count_cons, List.countP_append, List.countP_singleton] at c c2 h0 ⊢
          simp only [inc, hf, hs] at c2 h0 ⊢
          by_cases h1 : p = v
          · subst h1
            have h2 : q ≠ p := by omega
            simp [h2] at c c2 h0 ⊢
            omega
          · by_cases h2 : q = v
            · subst h2
              simp [h1] at c c2 h0 ⊢
              omega
            · simp [h1, h2] at c c2 h0 ⊢
              omega
        · refine gup _ ?_
          intro j hj
          simp only [List.mem_cons] at hj
          rcases hj with rfl | rfl | hj
          · trivial
          · trivial
          · exact hr j hj
        · intro t' ht' k' hk'
          simp only [update_apply] at hk'
          split at hk'
          · rcases List.mem_append.1 hk' with hk' | hk'
            · exact h.key t ht k' hk'
            · rw [List.mem_singleton] at hk'
              rw [hk', hk]; exact key_pack hN hqp hp
          · exact h.key t' ht' k' hk'
        · simp only
          rw [update_of_ne (Ne.symm hkc)]
          exact h.free
      | some x =>
        simp only
        refine ⟨?_, ?_, ?_, ?_, gup r hr, h.key, ?_⟩
        · intro k'
          have c := cpend k' r
          have h0 := h.tab k'
          rw [he] at c
          simp only [pend, List.map_cons, List.sum_cons, Instr.add] at c h0 ⊢
          by_cases hkk : k' = k
          · subst hkk
            simp only [update_self, htab, if_true, Option.getD_some] at c h0 ⊢
            omega
          · simp only [update_of_ne hkk, if_neg (Ne.symm hkk)] at c h0 ⊢
            omega
        · have c := cown r
          have h0 := h.own
          rw [he] at c
          simp only [pendOwn, List.map_cons, List.sum_cons, Instr.addOwn] at c h0 ⊢
          omega
        · intro k'
          have h0 := h.keys k'
          by_cases hkk : k' = k
          · subst hkk
            simp only [update_self, htab, Option.isSome_some] at h0 ⊢
            exact h0
          · simp only [update_of_ne hkk] at h0 ⊢
            exact h0
        · intro v
          have c := ccnt v r
          have h0 := h.deg v
          rw [he] at c
          simp only [List.count_cons] at c h0 ⊢
          simp at c h0 ⊢
          omega
        · simp only
          rw [update_of_ne (Ne.symm hkc)]
          exact h.free
    | incr v =>
      simp only
      refine ⟨?_, ?_, h.keys, ?_, gup r hr, h.key, h.free⟩
      · intro k'
        have c := cpend k' r
        have h0 := h.tab k'
        rw [he] at c
        simp only [pend, List.map_cons, List.sum_cons, Instr.add] at c h0 ⊢
        omega
      · have c := cown r
        have h0 := h.own
        rw [he] at c
        simp only [pendOwn, List.map_cons, List.sum_cons, Instr.addOwn] at c h0 ⊢
        omega
      · intro v'
        have c := ccnt v' r
        have h0 := h.deg v'
        rw [he] at c
        simp only [List.count_cons] at c h0 ⊢
        by_cases hv : v' = v
        · subst hv
          simp at c h0 ⊢
          omega
        · simp [Ne.symm hv, hv] at c h0 ⊢
          omega
    | own w =>
      simp only
      refine ⟨?_, ?_, h.keys, ?_, gup r hr, h.key, h.free⟩
      · intro k'
        have c := cpend k' r
        have h0 := h.tab k'
        rw [he] at c
        simp only [pend, List.map_cons, List.sum_cons, Instr.add] at c h0 ⊢
        omega
      · have c := cown r
        have c2 := sum_upd (fun x : Nat => x) s.own ht (s.own t + w)
        have h0 := h.own
        rw [he] at c
        simp only [pendOwn, List.map_cons, List.sum_cons, Instr.addOwn] at c h0 ⊢
        omega
      · intro v
        have c := ccnt v r
        have h0 := h.deg v
        rw [he] at c
        simp only [List.count_cons] at c h0 ⊢
        simp at c h0 ⊢
        omega

/-- Total weight of the edges from the members of `p` to the members of `q`. -/
def between (G : Graph) (φ : Nat → Nat) (p q : Nat) : Nat :=
  ∑ u ∈ range G.n, if φ u = p then sumMap φ (G.edges u) q else 0

theorem pend_append (k : Nat) (l l' : List Instr) : pend k (l ++ l') = pend k l + pend k l' := by simp [pend]

theorem pendOwn_append (l l' : List Instr) : pendOwn (l ++ l') = pendOwn l + pendOwn l' := by simp [pendOwn]

theorem sumMap_cons (φ : Nat → Nat) (e : Nat × Nat) (l : List (Nat × Nat)) (q : Nat) :
    sumMap φ (e :: l) q = (if φ e.1 = q then e.2 else 0) + sumMap φ l q := by
  rw [← List.singleton_append, sumMap_append, sumMap_single]

theorem pack_inj {p q p' q' : Nat} (h1 : q < p) (h2 : p < 2 ^ 32) (h3 : q' < p') (h4 : p' < 2 ^ 32)
    (h : pack p q = pack p' q') : p = p' ∧ q = q' :=
  ⟨by rw [← snd_pack h1 h2, h, snd_pack h3 h4], by rw [← fst_pack h1 h2, h, fst_pack h3 h4]⟩

theorem edges_pend {φ : Nat → Nat} {N contested n p q : Nat} (hN : N ≤ 2 ^ 32) (hqp : q < p) (hp : p < N) (hn : φ n < N)
    (l : List (Nat × Nat)) (hl : ∀ e ∈ l, φ e.1 < N) :
    (pack p q ≠ contested → pend (pack p q) (l.flatMap (edgeCode φ contested n)) = if φ n = p then sumMap φ l q else 0) ∧
    (pack p q = contested → pendOwn (l.flatMap (edgeCode φ contested n)) = if φ n = p then sumMap φ l q else 0) := by
  induction l with
  | nil => simp [pend, pendOwn, sumMap]
  | cons e l ih =>
    have ih := ih (fun e he => hl e (by simp [he]))
    have he := hl e (by simp)
    rw [List.flatMap_cons, pend_append, pendOwn_append, sumMap_cons]
    have key : (pack p q ≠ contested → pend (pack p q) (edgeCode φ contested n e) =
          if φ n = p ∧ φ e.1 = q then e.2 else 0) ∧
        (pack p q = contested → pendOwn (edgeCode φ contested n e) = if φ n = p ∧ φ e.1 = q then e.2 else 0) := by
      unfold edgeCode
      simp only
      split
      · have : ¬ (φ n = p ∧ φ e.1 = q) := by omega
        simp [this, pend, pendOwn]
      · rename_i hlt
        have hiff : pack (φ n) (φ e.1) = pack p q ↔ φ n = p ∧ φ e.1 = q :=
          ⟨fun h => pack_inj (by omega) (by omega) hqp (by omega) h, fun h => by rw [h.1, h.2]⟩
        split
        · rename_i hc
          refine ⟨fun _ => ?_, fun h => ?_⟩
          · simp only [pend, List.map_cons, List.map_nil, List.sum_cons, List.sum_nil, Instr.add, hiff, Nat.add_zero]
          · have : ¬ (φ n = p ∧ φ e.1 = q) := fun h' => hc (by rw [hiff.2 h']; exact h)
            simp [this, pendOwn, Instr.addOwn]
        · rename_i hc
          have hc : pack (φ n) (φ e.1) = contested := not_not.1 hc
          refine ⟨fun h => ?_, fun h => ?_⟩
          · have : ¬ (φ n = p ∧ φ e.1 = q) := fun h' => h (by rw [← hiff.2 h']; exact hc)
            simp [this, pend, Instr.add]
          · have : φ n = p ∧ φ e.1 = q := hiff.1 (by rw [hc, h])
            simp [this, pendOwn, Instr.addOwn]
    refine ⟨fun h => ?_, fun h => ?_⟩
    · rw [key.1 h, ih.1 h]
      by_cases h1 : φ n = p <;> simp [h1]
    · rw [key.2 h, ih.2 h]
      by_cases h1 : φ n = p <;> simp [h1]

theorem sum_range_map (n : Nat) (F : Nat → Nat) : ((List.range n).map F).sum = ∑ u ∈ range n, F u := by
  induction n with
  | zero => simp
  | succ n ih => rw [List.range_succ, List.map_append, List.sum_append, ih, Finset.sum_range_succ]; simp

theorem sum_work {n T : Nat} {work : Nat → List Nat} (hw : ((List.range T).flatMap work).Perm (List.range n)) (F : Nat → Nat) :
    ∑ t ∈ range T, ((work t).map F).sum = ∑ u ∈ range n, F u := by
  rw [← sum_range_map n F, ← (hw.map F).sum_eq]
  clear hw
  induction T with
  | zero => simp
  | succ T ih => rw [List.range_succ, List.flatMap_append, List.map_append, List.sum_append, ← ih, Finset.sum_range_succ]; simp

theorem pend_code (G : Graph) (φ : Nat → Nat) (contested k : Nat) (vs : List Nat) :
    pend k (code G φ contested vs) = (vs.map fun n => pend k ((G.edges n).flatMap (edgeCode φ contested n))).sum := by
  unfold code
  induction vs with
  | nil => rfl
  | cons a l ih => rw [List.flatMap_cons, pend_append, ih]; simp

theorem pendOwn_code (G : Graph) (φ : Nat → Nat) (contested : Nat) (vs : List Nat) :
    pendOwn (code G φ contested vs) = (vs.map fun n => pendOwn ((G.edges n).flatMap (edgeCode φ contested n))).sum := by
  unfold code
  induction vs with
  | nil => rfl
  | cons a l ih => rw [List.flatMap_cons, pendOwn_append, ih]; simp

section
variable {G : Graph} (hG : G.WF) {φ : Nat → Nat} {N : Nat} (hN : N ≤ 2 ^ 32) (hφ : ∀ u, u < G.n → φ u < N) {T : Nat}
  {work : Nat → List Nat} (hw : ((List.range T).flatMap work).Perm (List.range G.n))

include hG hN hφ hw in
theorem total_pend {contested p q : Nat} (hqp : q < p) (hp : p < N) :
    (pack p q ≠ contested → ∑ t ∈ range T, pend (pack p q) (code G φ contested (work t)) = between G φ p q) ∧
    (pack p q = contested → ∑ t ∈ range T, pendOwn (code G φ contested (work t)) = between G φ p q) := by
  have hk : ∀ u, u ∈ range G.n → _ := fun u hu => edges_pend (contested := contested) hN hqp hp (hφ u (mem_range.1 hu))
    (G.edges u) (fun e he => hφ _ (hG.tgt_lt u e he))
  refine ⟨fun h => ?_, fun h => ?_⟩
  · simp only [pend_code]
    rw [sum_work hw]
    exact Finset.sum_congr rfl fun u hu => (hk u hu).1 h
  · simp only [pendOwn_code]
    rw [sum_work hw]
    exact Finset.sum_congr rfl fun u hu => (hk u hu).2 h

include hG hφ in
theorem code_good {contested : Nat} (vs : List Nat) (hvs : ∀ v ∈ vs, v < G.n) :
    ∀ i ∈ code G φ contested vs, i.good N contested := by
  intro i hi
  simp only [code, List.mem_flatMap] at hi
  obtain ⟨n, hn, e, he, hi⟩ := hi
  unfold edgeCode at hi
  simp only at hi
  split at hi
  · cases hi
  · split at hi
    · rename_i h1 h2
      rw [List.mem_singleton] at hi
      subst hi
      exact ⟨by omega, hφ n (hvs n hn), rfl, h2⟩
    · rw [List.mem_singleton] at hi
      subst hi
      trivial

theorem code_noincr (G : Graph) (φ : Nat → Nat) (contested v : Nat) (vs : List Nat) :
    (code G φ contested vs).count (.incr v) = 0 := by
  rw [List.count_eq_zero]
  intro hi
  simp only [code, List.mem_flatMap] at hi
  obtain ⟨n, hn, e, he, hi⟩ := hi
  unfold edgeCode at hi
  simp only at hi
  split at hi
  · cases hi
  · split at hi
    · simp at hi
    · simp at hi

/-- Invariant between the barriers. -/
structure Inv2 (G : Graph) (φ : Nat → Nat) (T N : Nat) (s : St) : Prop where
  val : ∀ p q, q < p → p < N → (s.table (pack p q)).getD 0 = between G φ p q
  keys : ∀ k, ∑ t ∈ range T, (s.keys t).count k = if (s.table k).isSome then 1 else 0
  deg : ∀ v, s.degrees v = ∑ t ∈ range T, (s.keys t).countP (inc v)
  key : ∀ t, t < T → ∀ k ∈ s.keys t, Key N k

include hG hN hφ hw in
theorem collect_spec {blocks : Option (Nat × Nat)} (hb : ∀ b, blocks = some b → b.1 < N ∧ b.2 < N) {sched : List Nat}
    (hs : ∀ t ∈ sched, t < T) (hd : ∀ t, t < T → (collect G φ (contestedKey blocks) work sched).code t = []) {τ : Nat}
    (hτ : τ < T) : Inv2 G φ T N (insertContested T τ blocks (collect G φ (contestedKey blocks) work sched)) := by
  have hwork : ∀ t, t < T → ∀ v ∈ work t, v < G.n := by
    intro t ht v hv
    exact List.mem_range.1 (hw.mem_iff.1 (List.mem_flatMap.2 ⟨t, List.mem_range.2 ht, hv⟩))
  have hi : Inv1 T N (contestedKey blocks) (fun k => ∑ t ∈ range T, pend k (code G φ (contestedKey blocks) (work t)))
      (∑ t ∈ range T, pendOwn (code G φ (contestedKey blocks) (work t)))
      (collect G φ (contestedKey blocks) work sched) := by
    have h0 : Inv1 T N (contestedKey blocks) (fun k => ∑ t ∈ range T, pend k (code G φ (contestedKey blocks) (work t)))
        (∑ t ∈ range T, pendOwn (code G φ (contestedKey blocks) (work t))) (start G φ (contestedKey blocks) work) := by
      refine ⟨?_, ?_, ?_, ?_, ?_, ?_, rfl⟩
      · intro k; simp [start]
      · simp [start]
      · intro k; simp [start]
      · intro v; simp [start, code_noincr]
      · intro t ht; exact code_good hG hφ _ (hwork t ht)
      · intro t _ k hk; cases hk
    unfold collect
    generalize start G φ (contestedKey blocks) work = s0 at h0
    clear hd
    induction sched generalizing s0 with
    | nil => exact h0
    | cons t l ih => exact ih (fun x hx => hs x (by simp [hx])) _ (h0.step hN (hs t (by simp)))
  generalize collect G φ (contestedKey blocks) work sched = s at hd hi
  have hp0 : ∀ k, ∑ t ∈ range T, pend k (s.code t) = 0 := fun k =>
    Finset.sum_eq_zero fun t ht => by rw [hd t (mem_range.1 ht)]; rfl
  have ho0 : ∑ t ∈ range T, pendOwn (s.code t) = 0 :=
    Finset.sum_eq_zero fun t ht => by rw [hd t (mem_range.1 ht)]; rfl
  have hc0 : ∀ v, ∑ t ∈ range T, (s.code t).count (.incr v) = 0 := fun v =>
    Finset.sum_eq_zero fun t ht => by rw [hd t (mem_range.1 ht)]; rfl
  have htab : ∀ k, (s.table k).getD 0 = ∑ t ∈ range T, pend k (code G φ (contestedKey blocks) (work t)) := fun k => by
    have := hi.tab k; rw [hp0] at this; simpa using this
  have hown : ∑ t ∈ range T, s.own t = ∑ t ∈ range T, pendOwn (code G φ (contestedKey blocks) (work t)) := by
    have := hi.own; rw [ho0] at this; simpa using this
  have hdeg : ∀ v, s.degrees v = ∑ t ∈ range T, (s.keys t).countP (inc v) := fun v => by
    have := hi.deg v; rw [hc0] at this; simpa using this
  have hother : ∀ p q, q < p → p < N → pack p q ≠ contestedKey blocks → (s.table (pack p q)).getD 0 = between G φ p q :=
    fun p q hqp hp hne => by rw [htab, (total_pend hG hN hφ hw hqp hp).1 hne]
  cases blocks with
  | none =>
    refine ⟨fun p q hqp hp => hother p q hqp hp ?_, hi.keys, hdeg, hi.key⟩
    have := pack_pos hqp
    simp only [contestedKey]
    omega
  | some b =>
    obtain ⟨b1, b2⟩ := hb b rfl
    have hsum : ((List.range T).map s.own).sum = ∑ t ∈ range T, s.own t := sum_range_map T s.own
    unfold insertContested
    simp only
    split
    · rename_i hc
      rw [hsum] at hc ⊢
      have hfree : s.table (contestedKey (some b)) = none := hi.free
      -- the two blocks are different
      have hne : b.1 ≠ b.2 := by
        intro heq
        have h0 : ∑ t ∈ range T, pendOwn (code G φ (contestedKey (some b)) (work t)) = 0 := by
          refine Finset.sum_eq_zero fun t ht => ?_
          unfold pendOwn
          rw [List.sum_eq_zero_iff]
          intro x hx
          obtain ⟨i, hi', rfl⟩ := List.mem_map.1 hx
          simp only [code, List.mem_flatMap] at hi'
          obtain ⟨n, hn, e, he, hi'⟩ := hi'
          unfold edgeCode at hi'
          simp only at hi'
          split at hi'
          · cases hi'
          · split at hi'
            · rw [List.mem_singleton] at hi'
              rw [hi']; rfl
            · rename_i h1 h2
              exfalso
              have hk : pack (φ n) (φ e.1) = contestedKey (some b) := not_not.1 h2
              have hf := fst_pack (p := φ n) (q := φ e.1) (by omega)
                (by have := hφ n (hwork t (mem_range.1 ht) n hn); omega)
              have hs' := snd_pack (p := φ n) (q := φ e.1) (by omega)
                (by have := hφ n (hwork t (mem_range.1 ht) n hn); omega)
              rw [hk] at hf hs'
              simp only [contestedKey, pack, heq, Nat.min_self, Nat.max_self, fst, snd] at hf hs'
              omega
        rw [hown, h0] at hc
        omega
      obtain ⟨p, q, hqp, hp, hpq, hkey⟩ : ∃ p q, q < p ∧ p < N ∧ ((p = b.1 ∧ q = b.2) ∨ (p = b.2 ∧ q = b.1)) ∧
          contestedKey (some b) = pack p q := by
        rcases Nat.lt_or_ge b.1 b.2 with h | h
        · exact ⟨b.2, b.1, h, b2, Or.inr ⟨rfl, rfl⟩, rfl⟩
        · exact ⟨b.1, b.2, by omega, b1, Or.inl ⟨rfl, rfl⟩, pack_comm _ _⟩
      rw [hkey] at hfree hc hown hother ⊢
      refine ⟨?_, ?_, ?_, ?_⟩
      · intro p' q' hqp' hp'
        by_cases hk : pack p' q' = pack p q
        · obtain ⟨rfl, rfl⟩ := pack_inj hqp' (by omega) hqp (by omega) hk
          simp only [update_self, hfree, Option.getD_some]
          rw [hown]
          exact (total_pend hG hN hφ hw hqp hp).2 rfl
        · simp only [update_of_ne hk]
          exact hother p' q' hqp' hp' hk
      · intro k
        have c := sum_upd (fun l => List.count k l) s.keys hτ (s.keys τ ++ [pack p q])
        have h0 := hi.keys k
        simp only [List.count_append] at c
        by_cases hkk : k = pack p q
        · subst hkk
          rw [hfree] at h0
          simp only [update_self, Option.isSome_some, if_true, List.count_singleton_self] at c ⊢
          have h0' : ∑ t ∈ range T, (s.keys t).count (pack p q) = 0 := by simpa using h0
          omega
        · have : List.count k [pack p q] = 0 := by simp [List.count_singleton, Ne.symm hkk]
          simp only [update_of_ne hkk]
          omega
      · intro v
        have c := sum_upd (fun l => List.countP (inc v) l) s.keys hτ (s.keys τ ++ [pack p q])
        have h0 := hdeg v
        simp only [List.countP_append, List.countP_singleton, inc, fst_pack hqp (by omega : p < 2 ^ 32),
          snd_pack hqp (by omega : p < 2 ^ 32)] at c h0 ⊢
        have hgoal : update (update s.degrees b.1 (s.degrees b.1 + 1)) b.2 ((update s.degrees b.1 (s.degrees b.1 + 1)) b.2 + 1) v =
            s.degrees v + (if (decide (q = v) || decide (p = v)) = true then 1 else 0) := by
          rw [update_of_ne (Ne.symm hne)]
          by_cases h1 : v = b.2
          · subst h1
            rw [update_self]
            rcases hpq with ⟨rfl, rfl⟩ | ⟨rfl, rfl⟩ <;> simp
          · rw [update_of_ne h1]
            by_cases h2 : v = b.1
            · subst h2
              rw [update_self]
              rcases hpq with ⟨rfl, rfl⟩ | ⟨rfl, rfl⟩ <;> simp
            · rw [update_of_ne h2]
              rcases hpq with ⟨rfl, rfl⟩ | ⟨rfl, rfl⟩ <;> simp [Ne.symm h1, Ne.symm h2]
        rw [hgoal]
        omega
      · intro t ht k hk
        simp only [update_apply] at hk
        split at hk
        · rcases List.mem_append.1 hk with hk | hk
          · exact hi.key τ hτ k hk
          · rw [List.mem_singleton] at hk
            rw [hk]; exact key_pack hN hqp hp
        · exact hi.key t ht k hk
    · rename_i hc
      rw [hsum] at hc
      refine ⟨?_, hi.keys, hdeg, hi.key⟩
      intro p q hqp hp
      by_cases hk : pack p q = contestedKey (some b)
      · have h1 := (total_pend hG hN hφ hw hqp hp).2 hk
        rw [← hown] at h1
        have h2 := pack_pos hqp
        rw [hk, hi.free, Option.getD_none, ← h1]
        omega
      · exact hother p q hqp hp hk

end

end PCT
end VieCut
