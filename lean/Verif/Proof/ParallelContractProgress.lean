import Verif.Proof.ParallelContract

/-! # Parallel contraction: progress -/

namespace VieCut
open Finset Function

namespace PCT

/-! ### The first part -/

def Instr.cost : Instr → Nat
  | .upd .. => 3
  | _ => 1

def codeCost (l : List Instr) : Nat := (l.map Instr.cost).sum

theorem codeCost_eq_zero {l : List Instr} (h : codeCost l = 0) : l = [] := by
  cases l with
  | nil => rfl
  | cons i l =>
    simp only [codeCost, List.map_cons, List.sum_cons] at h
    cases i <;> simp [Instr.cost] at h

theorem step_other {s : St} {t x : Nat} (h : x ≠ t) : (step s t).code x = s.code x := by
  unfold step
  split
  · rfl
  · split <;> simp only [update_of_ne h]
  · simp only [update_of_ne h]
  · simp only [update_of_ne h]

theorem step_cost (s : St) (t : Nat) : codeCost ((step s t).code t) ≤ codeCost (s.code t) - 1 := by
  unfold step
  cases he : s.code t with
  | nil => simp only [he]; simp [codeCost]
  | cons i r =>
    cases i with
    | upd k w p q =>
      simp only
      cases s.table k <;> simp [codeCost, Instr.cost] <;> omega
    | incr v => simp [codeCost, Instr.cost]
    | own w => simp [codeCost, Instr.cost]

theorem collect_cost (sched : List Nat) (t : Nat) : ∀ s : St,
    codeCost ((sched.foldl step s).code t) ≤ codeCost (s.code t) - sched.count t := by
  induction sched with
  | nil => intro s; simp
  | cons x l ih =>
    intro s
    have h := ih (step s x)
    rw [List.foldl_cons, List.count_cons]
    by_cases hx : x = t
    · subst hx
      have := step_cost s x
      simp only [beq_self_eq_true, if_true]
      omega
    · rw [step_other (Ne.symm hx)] at h
      simp only [beq_iff_eq, hx, if_false]
      omega

/-! ### The third part -/

/-- Positions that a thread still needs. -/
def PC.need : PC → Nat
  | .readA .. | .incA .. | .casA .. => 2
  | .readB .. | .incB .. | .casB .. => 1
  | _ => 0

/-- Steps for the current key, if no compare-and-swap fails except one that already has to. -/
def PC.cost (cur : Nat → Nat) : PC → Nat
  | .idle => 0
  | .readA _ => 10
  | .incA k fd => 9 + if fd = cur (fst k) then 0 else 3
  | .casA k fd _ => 8 + if fd = cur (fst k) then 0 else 3
  | .readB .. => 5
  | .incB k _ sd => 4 + if sd = cur (snd k) then 0 else 3
  | .casB k _ sd _ => 3 + if sd = cur (snd k) then 0 else 3
  | .writeA .. => 2
  | .writeB .. => 1

def Thr.cost (T : Nat) (cur : Nat → Nat) (x : Thr) : Nat := (12 + 6 * T) * x.keys.length + 3 * T * x.pc.need + x.pc.cost cur

def Wr.cost (T : Nat) (s : Wr) : Nat := ∑ t ∈ range T, (s.thr t).cost T s.cur

theorem PC.cost_le (cur cur' : Nat → Nat) (pc : PC) : pc.cost cur' ≤ pc.cost cur + 3 := by
  cases pc <;> simp only [PC.cost] <;> (try split) <;> (try split) <;> omega

theorem Thr.cost_le (T : Nat) (cur cur' : Nat → Nat) (x : Thr) : x.cost T cur' ≤ x.cost T cur + 3 := by
  have := x.pc.cost_le cur cur'
  unfold Thr.cost
  omega

theorem cost_same {T : Nat} {s s' : Wr} {t : Nat} (ht : t < T) {x : Thr} (hc : s'.cur = s.cur) (hs : s'.thr = update s.thr t x)
    (h : x.cost T s.cur < (s.thr t).cost T s.cur) : s'.cost T < s.cost T := by
  have c := sum_upd (fun y : Thr => y.cost T s.cur) s.thr ht x
  unfold Wr.cost
  rw [hc, hs]
  omega

theorem cost_cas {T : Nat} {s s' : Wr} {t : Nat} (ht : t < T) {x : Thr} (hs : s'.thr = update s.thr t x)
    (h : x.cost T s'.cur + 3 * T ≤ (s.thr t).cost T s.cur) : s'.cost T < s.cost T := by
  have hm : t ∈ range T := mem_range.2 ht
  have h1 : s'.cost T ≤ ∑ y ∈ (range T).erase t, ((s.thr y).cost T s.cur + 3) + x.cost T s'.cur := by
    unfold Wr.cost
    rw [← Finset.sum_erase_add _ _ hm, hs, update_self]
    refine Nat.add_le_add_right (Finset.sum_le_sum fun y hy => ?_) _
    rw [update_of_ne (Finset.mem_erase.1 hy).1]
    exact Thr.cost_le T s.cur s'.cur _
  have h2 : s.cost T = ∑ y ∈ (range T).erase t, (s.thr y).cost T s.cur + (s.thr t).cost T s.cur := by
    unfold Wr.cost
    rw [← Finset.sum_erase_add _ _ hm]
  rw [Finset.sum_add_distrib, Finset.sum_const, Finset.card_erase_of_mem hm, Finset.card_range, show ((T - 1) • 3 : Nat) = (T - 1) * 3 from rfl] at h1
  omega

theorem stepWrite_cost (weight : Nat → Nat) {T : Nat} {s : Wr} {t : Nat} (ht : t < T)
    (h : (s.thr t).pc ≠ .idle ∨ (s.thr t).keys ≠ []) : (stepWrite weight s t).cost T < s.cost T := by
  unfold stepWrite
  cases he : (s.thr t).pc with
  | idle =>
    simp only
    cases hk : (s.thr t).keys with
    | nil => simp [he, hk] at h
    | cons k ks =>
      refine cost_same ht rfl rfl ?_
      simp only [Thr.cost, he, hk, PC.need, PC.cost, List.length_cons, Nat.mul_add]
      omega
  | readA k =>
    refine cost_same ht rfl rfl ?_
    simp only [Thr.cost, he, PC.need, PC.cost, if_true]
    omega
  | incA k fd =>
    refine cost_same ht rfl rfl ?_
    simp only [Thr.cost, he, PC.need, PC.cost]
    omega
  | casA k fd new =>
    simp only
    split
    · rename_i hc
      refine cost_cas ht rfl ?_
      simp only [Thr.cost, Wr.take, he, PC.need, PC.cost, hc, if_true]
      omega
    · rename_i hc
      refine cost_same ht rfl rfl ?_
      simp only [Thr.cost, he, PC.need, PC.cost]
      rw [if_neg (fun h => hc h.symm)]
      omega
  | readB k fd =>
    refine cost_same ht rfl rfl ?_
    simp only [Thr.cost, he, PC.need, PC.cost, if_true]
    omega
  | incB k fd sd =>
    refine cost_same ht rfl rfl ?_
    simp only [Thr.cost, he, PC.need, PC.cost]
    omega
  | casB k fd sd new =>
    simp only
    split
    · rename_i hc
      refine cost_cas ht rfl ?_
      simp only [Thr.cost, Wr.take, he, PC.need, PC.cost, hc, if_true]
      omega
    · rename_i hc
      refine cost_same ht rfl rfl ?_
      simp only [Thr.cost, he, PC.need, PC.cost]
      rw [if_neg (fun h => hc h.symm)]
      omega
  | writeA k fd sd =>
    refine cost_same ht rfl rfl ?_
    simp only [Thr.cost, he, PC.need, PC.cost]
    omega
  | writeB k sd =>
    refine cost_same ht rfl rfl ?_
    simp only [Thr.cost, he, PC.need, PC.cost]
    omega

end PCT
end VieCut
