import Verif.Proof.ParallelContract
import Mathlib.Data.List.Nodup
import Mathlib.Data.List.NodupEquivFin

/-! # Parallel contraction: writing the edges -/

namespace VieCut
open Finset Function

namespace PCT

/-- The key that still needs a position in the list of `p`. -/
def pcKey (p : Nat) : PC → List Nat
  | .readA k | .incA k _ | .casA k _ _ => if inc p k then [k] else []
  | .readB k _ | .incB k _ _ | .casB k _ _ _ => if snd k = p then [k] else []
  | _ => []

def Thr.pend (p : Nat) (x : Thr) : List Nat := pcKey p x.pc ++ x.keys.filter (inc p)

/-- The thread has to write the entry for `k` in the list of `p`. -/
def owes (p k : Nat) : PC → Prop
  | .readB k' _ | .incB k' _ _ | .casB k' _ _ _ => k' = k ∧ fst k = p
  | .writeA k' _ _ => k' = k ∧ (fst k = p ∨ snd k = p)
  | .writeB k' _ => k' = k ∧ snd k = p
  | _ => False

/-- Position `x` in the list of `p` is reserved for `k`. -/
def At (F : Nat → Nat) (slots : Nat → List Nat) (p k x : Nat) : Prop := ∃ i, x = F p + i ∧ (slots p)[i]? = some k

def PC.ok (F : Nat → Nat) (N : Nat) (cur : Nat → Nat) (slots : Nat → List Nat) : PC → Prop
  | .idle => True
  | .readA k => Key N k
  | .incA k fd => Key N k ∧ fd ≤ cur (fst k)
  | .casA k fd new => Key N k ∧ ∃ v, new = v + 1 ∧ fd ≤ v ∧ v ≤ cur (fst k)
  | .readB k fd => Key N k ∧ At F slots (fst k) k fd
  | .incB k fd sd => Key N k ∧ At F slots (fst k) k fd ∧ sd ≤ cur (snd k)
  | .casB k fd sd new => Key N k ∧ At F slots (fst k) k fd ∧ ∃ v, new = v + 1 ∧ sd ≤ v ∧ v ≤ cur (snd k)
  | .writeA k fd sd => Key N k ∧ At F slots (fst k) k fd ∧ At F slots (snd k) k sd
  | .writeB k sd => Key N k ∧ At F slots (snd k) k sd

theorem PC.ok.mono {F : Nat → Nat} {N : Nat} {cur cur' : Nat → Nat} {slots slots' : Nat → List Nat} (hc : ∀ p, cur p ≤ cur' p)
    (hs : ∀ p k x, At F slots p k x → At F slots' p k x) {pc : PC} (h : pc.ok F N cur slots) : pc.ok F N cur' slots' := by
  cases pc with
  | idle => trivial
  | readA k => exact h
  | incA k fd => exact ⟨h.1, h.2.trans (hc _)⟩
  | casA k fd new => obtain ⟨h1, v, a, b, c⟩ := h; exact ⟨h1, v, a, b, c.trans (hc _)⟩
  | readB k fd => exact ⟨h.1, hs _ _ _ h.2⟩
  | incB k fd sd => exact ⟨h.1, hs _ _ _ h.2.1, h.2.2.trans (hc _)⟩
  | casB k fd sd new => obtain ⟨h1, h2, v, a, b, c⟩ := h; exact ⟨h1, hs _ _ _ h2, v, a, b, c.trans (hc _)⟩
  | writeA k fd sd => exact ⟨h.1, hs _ _ _ h.2.1, hs _ _ _ h.2.2⟩
  | writeB k sd => exact ⟨h.1, hs _ _ _ h.2⟩

/-- The entry for key `k` in the list of `p`. -/
def content (weight : Nat → Nat) (p k : Nat) : Nat × Nat := (if fst k = p then snd k else fst k, weight k)

/-- Invariant of the third part. -/
structure Inv3 (T N : Nat) (deg : Nat → Nat) (K : Nat → Nat → Nat) (weight : Nat → Nat) (s : Wr) : Prop where
  cur : ∀ p, s.cur p = first deg p + (s.slots p).length
  cnt : ∀ p k, (s.slots p).count k + ∑ t ∈ range T, ((s.thr t).pend p).count k = K p k
  len : ∀ p, (s.slots p).length + ∑ t ∈ range T, ((s.thr t).pend p).length = deg p
  key : ∀ t, t < T → ∀ k ∈ (s.thr t).keys, Key N k
  ok : ∀ t, t < T → (s.thr t).pc.ok (first deg) N s.cur s.slots
  done : ∀ p i k, (s.slots p)[i]? = some k → s.edges (first deg p + i) = content weight p k ∨
    ∃ t, t < T ∧ owes p k (s.thr t).pc

section
variable {T N : Nat} {deg : Nat → Nat} {K : Nat → Nat → Nat} {weight : Nat → Nat} {s : Wr}

theorem first_succ (deg : Nat → Nat) (p : Nat) : first deg (p + 1) = first deg p + deg p := by
  simp [first, List.range_succ]

theorem first_mono (deg : Nat → Nat) {p q : Nat} (h : p < q) : first deg p + deg p ≤ first deg q := by
  induction q with
  | zero => omega
  | succ q ih =>
    rcases Nat.lt_or_ge p q with h' | h'
    · rw [first_succ]; have := ih h'; omega
    · have : p = q := by omega
      subst this; rw [first_succ]

/-- Different positions in the lists are different places in the array. -/
theorem Inv3.inj (h : Inv3 T N deg K weight s) {p q i j a b : Nat} (hi : (s.slots p)[i]? = some a)
    (hj : (s.slots q)[j]? = some b) (he : first deg p + i = first deg q + j) : p = q ∧ i = j := by
  have h1 := (List.getElem?_eq_some_iff.1 hi).1
  have h2 := (List.getElem?_eq_some_iff.1 hj).1
  have l1 := h.len p
  have l2 := h.len q
  rcases Nat.lt_trichotomy p q with hpq | hpq | hpq
  · have := first_mono deg hpq; omega
  · subst hpq; exact ⟨rfl, by omega⟩
  · have := first_mono deg hpq; omega

theorem goto_thr_self (s : Wr) (t : Nat) (pc : PC) : (s.goto t pc).thr t = { s.thr t with pc := pc } := by simp [Wr.goto]

/-- A step that changes only the position of a thread. -/
theorem Inv3.move (h : Inv3 T N deg K weight s) {t : Nat} (ht : t < T) {pc : PC}
    (hk : ∀ p, pcKey p pc = pcKey p (s.thr t).pc) (hok : pc.ok (first deg) N s.cur s.slots)
    (ho : ∀ p k, owes p k (s.thr t).pc → owes p k pc) : Inv3 T N deg K weight (s.goto t pc) := by
  have hp : ∀ p, Thr.pend p { s.thr t with pc := pc } = Thr.pend p (s.thr t) := fun p => by simp [Thr.pend, hk]
  refine ⟨h.cur, ?_, ?_, ?_, ?_, ?_⟩
  · intro p k
    have c := sum_upd (fun x : Thr => (x.pend p).count k) s.thr ht { s.thr t with pc := pc }
    have h0 := h.cnt p k
    simp only [hp] at c
    simp only [Wr.goto]
    omega
  · intro p
    have c := sum_upd (fun x : Thr => (x.pend p).length) s.thr ht { s.thr t with pc := pc }
    have h0 := h.len p
    simp only [hp] at c
    simp only [Wr.goto]
    omega
  · intro t' ht' k hk'
    by_cases he : t' = t
    · subst he; rw [goto_thr_self] at hk'; exact h.key t' ht' k hk'
    · simp only [Wr.goto, update_of_ne he] at hk'; exact h.key t' ht' k hk'
  · intro t' ht'
    by_cases he : t' = t
    · subst he; rw [goto_thr_self]; exact hok
    · simp only [Wr.goto, update_of_ne he]; exact h.ok t' ht'
  · intro p i k hi
    rcases h.done p i k hi with h1 | ⟨t', ht', h1⟩
    · exact Or.inl h1
    · refine Or.inr ⟨t', ht', ?_⟩
      by_cases he : t' = t
      · subst he; rw [goto_thr_self]; exact ho p k h1
      · simp only [Wr.goto, update_of_ne he]; exact h1

/-- A step that reserves a position. -/
theorem Inv3.take (h : Inv3 T N deg K weight s) {t : Nat} (ht : t < T) {pc : PC} {v k : Nat}
    (hv : pcKey v (s.thr t).pc = [k]) (hv' : pcKey v pc = [])
    (hk : ∀ p, p ≠ v → pcKey p pc = pcKey p (s.thr t).pc)
    (hok : pc.ok (first deg) N (update s.cur v (s.cur v + 1)) (update s.slots v (s.slots v ++ [k])))
    (ho : ∀ p k, owes p k (s.thr t).pc → owes p k pc) (hn : owes v k pc) :
    Inv3 T N deg K weight ((s.take v k (s.cur v + 1)).goto t pc) := by
  have hp : ∀ p, p ≠ v → Thr.pend p { s.thr t with pc := pc } = Thr.pend p (s.thr t) := fun p hp => by
    simp [Thr.pend, hk p hp]
  have hpv : Thr.pend v (s.thr t) = k :: Thr.pend v { s.thr t with pc := pc } := by simp [Thr.pend, hv, hv']
  have hat : ∀ p k' x, At (first deg) s.slots p k' x → At (first deg) (update s.slots v (s.slots v ++ [k])) p k' x := by
    rintro p k' x ⟨i, rfl, hi⟩
    refine ⟨i, rfl, ?_⟩
    by_cases he : p = v
    · subst he
      rw [update_self, List.getElem?_append_left (List.getElem?_eq_some_iff.1 hi).1]; exact hi
    · rw [update_of_ne he]; exact hi
  have hc : ∀ p, s.cur p ≤ update s.cur v (s.cur v + 1) p := by
    intro p; rw [update_apply]; split
    · subst_vars; omega
    · exact le_refl _
  refine ⟨?_, ?_, ?_, ?_, ?_, ?_⟩
  · intro p
    by_cases he : p = v
    · subst he; simp only [Wr.goto, Wr.take, update_self, List.length_append, List.length_singleton, h.cur p]; omega
    · simp only [Wr.goto, Wr.take, update_of_ne he]; exact h.cur p
  · intro p k'
    have c := sum_upd (fun x : Thr => (x.pend p).count k') s.thr ht { s.thr t with pc := pc }
    have h0 := h.cnt p k'
    by_cases he : p = v
    · subst he
      simp only [hpv] at c
      simp only [Wr.goto, Wr.take, update_self, List.count_append, List.count_cons, List.count_nil] at c h0 ⊢
      omega
    · simp only [hp p he] at c
      simp only [Wr.goto, Wr.take, update_of_ne he]
      omega
  · intro p
    have c := sum_upd (fun x : Thr => (x.pend p).length) s.thr ht { s.thr t with pc := pc }
    have h0 := h.len p
    by_cases he : p = v
    · subst he
      simp only [hpv] at c
      simp only [Wr.goto, Wr.take, update_self, List.length_append, List.length_nil, List.length_cons] at c h0 ⊢
      omega
    · simp only [hp p he] at c
      simp only [Wr.goto, Wr.take, update_of_ne he]
      omega
  · intro t' ht' k' hk'
    by_cases he : t' = t
    · subst he; rw [goto_thr_self] at hk'; exact h.key t' ht' k' hk'
    · simp only [Wr.goto, Wr.take, update_of_ne he] at hk'; exact h.key t' ht' k' hk'
  · intro t' ht'
    by_cases he : t' = t
    · subst he; rw [goto_thr_self]; exact hok
    · simp only [Wr.goto, update_of_ne he]; exact (h.ok t' ht').mono hc hat
  · intro p i k' hi
    have old : (s.slots p)[i]? = some k' → s.edges (first deg p + i) = content weight p k' ∨
        ∃ t', t' < T ∧ owes p k' (((s.take v k (s.cur v + 1)).goto t pc).thr t').pc := by
      intro hi
      rcases h.done p i k' hi with h1 | ⟨t', ht', h1⟩
      · exact Or.inl h1
      · refine Or.inr ⟨t', ht', ?_⟩
        by_cases he : t' = t
        · subst he; rw [goto_thr_self]; exact ho p k' h1
        · simp only [Wr.goto, Wr.take, update_of_ne he]; exact h1
    by_cases he : p = v
    · subst he
      simp only [Wr.goto, Wr.take, update_self] at hi
      rcases Nat.lt_or_ge i (s.slots p).length with hlt | hge
      · rw [List.getElem?_append_left hlt] at hi
        exact old hi
      · rw [List.getElem?_append_right hge] at hi
        have hk' : k' = k := by
          rw [List.getElem?_singleton] at hi
          split at hi
          · exact (Option.some.inj hi).symm
          · cases hi
        subst hk'
        exact Or.inr ⟨t, ht, by rw [goto_thr_self]; exact hn⟩
    · simp only [Wr.goto, Wr.take, update_of_ne he] at hi
      exact old hi

/-- A step that writes an entry. -/
theorem Inv3.write (h : Inv3 T N deg K weight s) (hK : ∀ p k, K p k ≤ 1) {t : Nat} (ht : t < T) {pc : PC} {v k x : Nat}
    (hx : At (first deg) s.slots v k x) (hk : ∀ p, pcKey p pc = pcKey p (s.thr t).pc)
    (hok : pc.ok (first deg) N s.cur s.slots)
    (ho : ∀ p k', owes p k' (s.thr t).pc → owes p k' pc ∨ (p = v ∧ k' = k)) :
    Inv3 T N deg K weight ({ s with edges := update s.edges x (content weight v k) }.goto t pc) := by
  have hp : ∀ p, Thr.pend p { s.thr t with pc := pc } = Thr.pend p (s.thr t) := fun p => by simp [Thr.pend, hk]
  obtain ⟨j, rfl, hj⟩ := hx
  refine ⟨h.cur, ?_, ?_, ?_, ?_, ?_⟩
  · intro p k
    have c := sum_upd (fun x : Thr => (x.pend p).count k) s.thr ht { s.thr t with pc := pc }
    have h0 := h.cnt p k
    simp only [hp] at c
    simp only [Wr.goto]
    omega
  · intro p
    have c := sum_upd (fun x : Thr => (x.pend p).length) s.thr ht { s.thr t with pc := pc }
    have h0 := h.len p
    simp only [hp] at c
    simp only [Wr.goto]
    omega
  · intro t' ht' k hk'
    by_cases he : t' = t
    · subst he; rw [goto_thr_self] at hk'; exact h.key t' ht' k hk'
    · simp only [Wr.goto, update_of_ne he] at hk'; exact h.key t' ht' k hk'
  · intro t' ht'
    by_cases he : t' = t
    · subst he; rw [goto_thr_self]; exact hok
    · simp only [Wr.goto, update_of_ne he]; exact h.ok t' ht'
  · intro p i k' hi
    replace hi : (s.slots p)[i]? = some k' := hi
    simp only [Wr.goto]
    by_cases heq : first deg p + i = first deg v + j
    · obtain ⟨rfl, rfl⟩ := h.inj hi hj heq
      rw [hj] at hi
      obtain rfl := Option.some.inj hi
      exact Or.inl (by rw [update_self])
    · rw [update_of_ne heq]
      rcases h.done p i k' hi with h1 | ⟨t', ht', h1⟩
      · exact Or.inl h1
      · refine Or.inr ⟨t', ht', ?_⟩
        by_cases he : t' = t
        · subst he
          rw [update_self]
          rcases ho p k' h1 with h2 | ⟨rfl, rfl⟩
          · exact h2
          · exfalso
            have hnd : (s.slots p).count k' ≤ 1 := by have := h.cnt p k'; have := hK p k'; omega
            have : i ≠ j := fun e => heq (by rw [e])
            have hdup : List.Duplicate k' (s.slots p) := by
              rcases Nat.lt_or_ge i j with hlt | hge
              · exact List.duplicate_iff_exists_distinct_get.2 ⟨⟨i, (List.getElem?_eq_some_iff.1 hi).1⟩,
                  ⟨j, (List.getElem?_eq_some_iff.1 hj).1⟩, hlt, (List.getElem?_eq_some_iff.1 hi).2.symm,
                  (List.getElem?_eq_some_iff.1 hj).2.symm⟩
              · exact List.duplicate_iff_exists_distinct_get.2 ⟨⟨j, (List.getElem?_eq_some_iff.1 hj).1⟩,
                  ⟨i, (List.getElem?_eq_some_iff.1 hi).1⟩, by show j < i; omega, (List.getElem?_eq_some_iff.1 hj).2.symm,
                  (List.getElem?_eq_some_iff.1 hi).2.symm⟩
            rw [List.duplicate_iff_two_le_count] at hdup
            omega
        · rw [update_of_ne he]; exact h1

theorem Inv3.step (h : Inv3 T N deg K weight s) (hK : ∀ p k, K p k ≤ 1) {t : Nat} (ht : t < T) :
    Inv3 T N deg K weight (stepWrite weight s t) := by
  have hok := h.ok t ht
  unfold stepWrite
  cases he : (s.thr t).pc with
  | idle =>
    simp only
    cases hks : (s.thr t).keys with
    | nil => exact h
    | cons k ks =>
      simp only
      have hkey := h.key t ht
      rw [hks] at hkey
      have hp : ∀ p, (Thr.pend p { keys := ks, pc := .readA k }) = Thr.pend p (s.thr t) := by
        intro p
        simp only [Thr.pend, he, hks, pcKey, List.nil_append, List.filter_cons]
        split <;> simp
      refine ⟨h.cur, ?_, ?_, ?_, ?_, ?_⟩
      · intro p k'
        have c := sum_upd (fun x : Thr => (x.pend p).count k') s.thr ht { keys := ks, pc := .readA k }
        have h0 := h.cnt p k'
        simp only [hp] at c ⊢
        omega
      · intro p
        have c := sum_upd (fun x : Thr => (x.pend p).length) s.thr ht { keys := ks, pc := .readA k }
        have h0 := h.len p
        simp only [hp] at c ⊢
        omega
      · intro t' ht' k' hk'
        simp only at hk'
        by_cases hte : t' = t
        · subst hte; rw [update_self] at hk'; exact hkey k' (by simp [show k' ∈ ks from hk'])
        · rw [update_of_ne hte] at hk'; exact h.key t' ht' k' hk'
      · intro t' ht'
        simp only
        by_cases hte : t' = t
        · subst hte; rw [update_self]; exact hkey k (by simp)
        · rw [update_of_ne hte]; exact h.ok t' ht'
      · intro p i k' hi
        rcases h.done p i k' hi with h1 | ⟨t', ht', h1⟩
        · exact Or.inl h1
        · refine Or.inr ⟨t', ht', ?_⟩
          by_cases hte : t' = t
          · subst hte; rw [he] at h1; exact absurd h1 (by simp [owes])
          · simp only [update_of_ne hte]; exact h1
  | readA k =>
    rw [he] at hok
    exact h.move ht (fun p => by rw [he]; rfl) ⟨hok, le_refl _⟩ (fun p k' => by rw [he]; exact fun x => x)
  | incA k fd =>
    rw [he] at hok
    exact h.move ht (fun p => by rw [he]; rfl) ⟨hok.1, _, rfl, hok.2, le_refl _⟩ (fun p k' => by rw [he]; exact fun x => x)
  | casA k fd new =>
    rw [he] at hok
    obtain ⟨hkey, v, rfl, h1, h2⟩ := hok
    simp only
    split
    · rename_i hc
      have hv : v = s.cur (fst k) := by omega
      have hne : fst k ≠ snd k := by have := hkey.1; omega
      rw [hv]
      refine h.take ht ?_ ?_ ?_ ?_ ?_ ?_
      · rw [he]; simp [pcKey, inc]
      · simp [pcKey, Ne.symm hne]
      · intro p hp
        rw [he]
        simp [pcKey, inc, Ne.symm hp]
      · refine ⟨hkey, (s.slots (fst k)).length, ?_, ?_⟩
        · rw [← h.cur]; exact hc.symm
        · rw [update_self]; simp
      · intro p k' hk'; rw [he] at hk'; exact absurd hk' (by simp [owes])
      · exact ⟨rfl, rfl⟩
    · exact h.move ht (fun p => by rw [he]; rfl) hkey (fun p k' => by rw [he]; exact fun x => x)
  | readB k fd =>
    rw [he] at hok
    exact h.move ht (fun p => by rw [he]; rfl) ⟨hok.1, hok.2, le_refl _⟩ (fun p k' => by rw [he]; exact fun x => x)
  | incB k fd sd =>
    rw [he] at hok
    exact h.move ht (fun p => by rw [he]; rfl) ⟨hok.1, hok.2.1, _, rfl, hok.2.2, le_refl _⟩
      (fun p k' => by rw [he]; exact fun x => x)
  | casB k fd sd new =>
    rw [he] at hok
    obtain ⟨hkey, hat, v, rfl, h1, h2⟩ := hok
    simp only
    split
    · rename_i hc
      have hv : v = s.cur (snd k) := by omega
      have hne : fst k ≠ snd k := by have := hkey.1; omega
      rw [hv]
      refine h.take ht ?_ ?_ ?_ ?_ ?_ ?_
      · rw [he]; simp [pcKey]
      · simp [pcKey]
      · intro p hp
        rw [he]
        simp [pcKey, Ne.symm hp]
      · refine ⟨hkey, ?_, (s.slots (snd k)).length, ?_, ?_⟩
        · obtain ⟨i, a, b⟩ := hat
          exact ⟨i, a, by rw [update_of_ne hne]; exact b⟩
        · rw [← h.cur]; exact hc.symm
        · rw [update_self]; simp
      · intro p k' hk'; rw [he] at hk'; exact ⟨hk'.1, Or.inl hk'.2⟩
      · exact ⟨rfl, Or.inr rfl⟩
    · exact h.move ht (fun p => by rw [he]; rfl) ⟨hkey, hat⟩ (fun p k' => by rw [he]; exact fun x => x)
  | writeA k fd sd =>
    rw [he] at hok
    obtain ⟨hkey, h1, h2⟩ := hok
    have hc : (snd k, weight k) = content weight (fst k) k := by simp [content]
    simp only
    rw [hc]
    refine h.write hK ht h1 (fun p => by rw [he]; rfl) ⟨hkey, h2⟩ ?_
    intro p k' hk'
    rw [he] at hk'
    obtain ⟨rfl, h3 | h3⟩ := hk'
    · exact Or.inr ⟨h3.symm, rfl⟩
    · exact Or.inl ⟨rfl, h3⟩
  | writeB k sd =>
    rw [he] at hok
    obtain ⟨hkey, h2⟩ := hok
    have hne : fst k ≠ snd k := by have := hkey.1; omega
    have hc : (fst k, weight k) = content weight (snd k) k := by simp [content, hne]
    simp only
    rw [hc]
    refine h.write hK ht h2 (fun p => by rw [he]; rfl) trivial ?_
    intro p k' hk'
    rw [he] at hk'
    obtain ⟨rfl, h3⟩ := hk'
    exact Or.inr ⟨h3.symm, rfl⟩

end

/-! ### The result -/

section
variable {G : Graph} (hG : G.WF) {φ : Nat → Nat} {N T : Nat} (hN : N ≤ 2 ^ 32)

theorem write_inv {s : St} (h : Inv2 G φ T N s) {sched : List Nat} (hs : ∀ t ∈ sched, t < T) :
    Inv3 T N s.degrees (fun p k => if inc p k ∧ (s.table k).isSome then 1 else 0) (fun k => (s.table k).getD 0)
      (write s sched) := by
  have h0 : Inv3 T N s.degrees (fun p k => if inc p k ∧ (s.table k).isSome then 1 else 0) (fun k => (s.table k).getD 0)
      (startWrite s) := by
    refine ⟨fun p => by simp [startWrite], ?_, ?_, ?_, ?_, ?_⟩
    · intro p k
      have hk := h.keys k
      simp only [startWrite, Thr.pend, pcKey, List.nil_append, List.count_nil, Nat.zero_add]
      by_cases hi : inc p k = true
      · simp only [List.count_filter hi, hi, true_and]
        exact hk
      · have : ∀ t, ((s.keys t).filter (inc p)).count k = 0 := by
          intro t
          rw [List.count_eq_zero]
          intro hm
          exact hi (List.mem_filter.1 hm).2
        simp [this, hi]
    · intro p
      simp only [startWrite, Thr.pend, pcKey, List.nil_append, List.length_nil, Nat.zero_add, ← List.countP_eq_length_filter]
      exact (h.deg p).symm
    · exact h.key
    · intro t _; trivial
    · intro p i k hi; simp [startWrite] at hi
  unfold write
  generalize startWrite s = w at h0
  induction sched generalizing w with
  | nil => exact h0
  | cons t l ih =>
    refine ih (fun x hx => hs x (by simp [hx])) _ (h0.step ?_ (hs t (by simp)))
    intro p k
    split <;> omega

/-- The adjacency lists of the result. -/
theorem lists {s : St} (h : Inv2 G φ T N s) {sched : List Nat} (hs : ∀ t ∈ sched, t < T)
    (hd : ∀ t, t < T → ((write s sched).thr t).pc = .idle ∧ ((write s sched).thr t).keys = []) :
    ∃ slots : Nat → List Nat, (∀ p, (slots p).Nodup ∧ ∀ k, k ∈ slots p ↔ inc p k = true ∧ (s.table k).isSome = true) ∧
      ∀ p, p < N → (result N s.degrees (write s sched).edges).edges p =
        (slots p).map (content (fun k => (s.table k).getD 0) p) := by
  have h3 := write_inv h hs
  have hp : ∀ t, t < T → ∀ p, ((write s sched).thr t).pend p = [] := fun t ht p => by
    simp [Thr.pend, hd t ht, pcKey]
  have hc0 : ∀ p k, ∑ t ∈ range T, (((write s sched).thr t).pend p).count k = 0 := fun p k =>
    Finset.sum_eq_zero fun t ht => by rw [hp t (mem_range.1 ht)]; rfl
  have hl0 : ∀ p, ∑ t ∈ range T, (((write s sched).thr t).pend p).length = 0 := fun p =>
    Finset.sum_eq_zero fun t ht => by rw [hp t (mem_range.1 ht)]; rfl
  have hcnt : ∀ p k, ((write s sched).slots p).count k = if inc p k = true ∧ (s.table k).isSome then 1 else 0 := fun p k => by
    have := h3.cnt p k; rw [hc0] at this; simpa using this
  have hlen : ∀ p, ((write s sched).slots p).length = s.degrees p := fun p => by
    have := h3.len p; rw [hl0] at this; simpa using this
  refine ⟨(write s sched).slots, fun p => ⟨?_, fun k => ?_⟩, fun p hpN => ?_⟩
  · rw [List.nodup_iff_count_le_one]
    intro k; rw [hcnt]; split <;> omega
  · rw [← List.count_pos_iff, hcnt]
    split
    · rename_i h; simp [h]
    · rename_i h; simp only [Nat.lt_irrefl, false_iff]; exact h
  · have he : (result N s.degrees (write s sched).edges).edges p =
        (List.range (s.degrees p)).map fun i => (write s sched).edges (first s.degrees p + i) := by
      simp [result, Graph.edges, hpN]
    rw [he]
    refine List.ext_getElem? fun i => ?_
    rw [List.getElem?_map, List.getElem?_map]
    rcases Nat.lt_or_ge i (s.degrees p) with hi | hi
    · rw [List.getElem?_range hi]
      have hi' : i < ((write s sched).slots p).length := by rw [hlen]; exact hi
      rw [List.getElem?_eq_getElem hi']
      simp only [Option.map_some]
      rcases h3.done p i _ (List.getElem?_eq_getElem hi') with h1 | ⟨t, ht, h1⟩
      · rw [h1]
      · rw [(hd t ht).1] at h1; exact absurd h1 (by simp [owes])
    · rw [List.getElem?_eq_none (by simpa using hi), List.getElem?_eq_none (by rw [hlen]; exact hi)]
      rfl

include hG hN in
theorem result_spec (hφ : ∀ u, u < G.n → φ u < N) (hsurj : ∀ p, p < N → ∃ u, u < G.n ∧ φ u = p) {s : St}
    (h : Inv2 G φ T N s) {sched : List Nat} (hs : ∀ t ∈ sched, t < T)
    (hd : ∀ t, t < T → ((write s sched).thr t).pc = .idle ∧ ((write s sched).thr t).keys = []) :
    IsContraction G (result N s.degrees (write s sched).edges) φ ∧ 
      ∀ u, u < (result N s.degrees (write s sched).edges).n →
        (((result N s.degrees (write s sched).edges).edges u).map (·.1)).Nodup := by
  obtain ⟨slots, hsl, hed⟩ := lists h hs hd
  generalize hH : result N s.degrees (write s sched).edges = H at hed ⊢
  have hn : H.n = N := by rw [← hH]; simp [result, Graph.n]
  have hkey : ∀ p k, k ∈ slots p → Key N k := by
    intro p k hk
    have h1 := h.keys k
    rw [if_pos ((hsl p).2 k |>.1 hk).2] at h1
    obtain ⟨t, ht, h2⟩ := Finset.exists_ne_zero_of_sum_ne_zero (by rw [h1]; decide : ∑ t ∈ range T, (s.keys t).count k ≠ 0)
    exact h.key t (mem_range.1 ht) k (List.count_pos_iff.1 (by omega))
  have hbw : ∀ p q, between G φ p q = ∑ u ∈ range G.n, ∑ v ∈ range G.n, if φ u = p ∧ φ v = q then G.wt u v else 0 := by
    intro p q
    unfold between
    refine Finset.sum_congr rfl fun u _ => ?_
    by_cases hu : φ u = p
    · simp [hu, sumMap_edges hG]
    · simp [hu]
  have hsym : ∀ p q, between G φ p q = between G φ q p := by
    intro p q
    rw [hbw, hbw, Finset.sum_comm]
    refine Finset.sum_congr rfl fun u hu => Finset.sum_congr rfl fun v hv => ?_
    rw [hG.symm v u (mem_range.1 hv) (mem_range.1 hu)]
    by_cases h1 : φ v = p <;> by_cases h2 : φ u = q <;> simp [h1, h2]
  -- the other end determines the key
  have hend : ∀ p k, k ∈ slots p → ∀ w : Nat → Nat, (content w p k).1 ≠ p ∧ (content w p k).1 < N ∧
      k = pack p (content w p k).1 := by
    intro p k hk w
    have hkk := hkey p k hk
    have hi := ((hsl p).2 k |>.1 hk).1
    simp only [inc, Bool.or_eq_true, decide_eq_true_eq] at hi
    have hpk := hkk.pack
    obtain ⟨h1, h2⟩ := hkk
    simp only [content]
    by_cases hf : fst k = p
    · rw [if_pos hf]
      subst hf
      exact ⟨by omega, h2, by rw [pack_comm]; exact hpk.symm⟩
    · rw [if_neg hf]
      have : snd k = p := hi.resolve_left hf
      subst this
      exact ⟨by omega, by omega, hpk.symm⟩
  have hwt : ∀ p q, p < N → q < N → p ≠ q → H.wt p q = between G φ p q := by
    intro p q hp hq hpq
    unfold Graph.wt
    rw [hed p hp]
    have hT : (s.table (pack p q)).getD 0 = between G φ p q := by
      rcases Nat.lt_or_ge q p with h1 | h1
      · exact h.val p q h1 hp
      · rw [pack_comm, hsym]; exact h.val q p (by omega) hq
    have hinc : inc p (pack p q) = true := by
      rcases Nat.lt_or_ge q p with h1 | h1
      · simp [inc, snd_pack h1 (by omega : p < 2 ^ 32)]
      · rw [pack_comm]; simp [inc, fst_pack (show p < q by omega) (by omega : q < 2 ^ 32)]
    have hfil : ∀ k ∈ slots p, ((content (fun k => (s.table k).getD 0) p k).1 == q) = (k == pack p q) := by
      intro k hk
      rw [Bool.eq_iff_iff, beq_iff_eq, beq_iff_eq]
      obtain ⟨e1, e2, e3⟩ := hend p k hk (fun k => (s.table k).getD 0)
      constructor
      · intro he; rw [he] at e3; exact e3
      · intro he
        rw [e3] at he
        generalize (content (fun k => (s.table k).getD 0) p k).1 = x at *
        rcases Nat.lt_or_ge q p with h1 | h1 <;> rcases Nat.lt_or_ge x p with h2 | h2
        · exact (pack_inj h2 (by omega) h1 (by omega) he).2
        · rw [pack_comm p x] at he
          have := pack_inj (show p < x by omega) (by omega) h1 (by omega) he; omega
        · rw [pack_comm p q] at he
          have := pack_inj h2 (by omega) (show p < q by omega) (by omega) he; omega
        · rw [pack_comm p q, pack_comm p x] at he
          exact (pack_inj (show p < x by omega) (by omega) (show p < q by omega) (by omega) he).1
    rw [List.filter_map, List.map_map]
    have hf2 : (slots p).filter ((fun e : Nat × Nat => e.1 == q) ∘ content (fun k => (s.table k).getD 0) p) =
        (slots p).filter (· == pack p q) := List.filter_congr fun k hk => hfil k hk
    rw [hf2, List.filter_beq]
    by_cases hm : pack p q ∈ slots p
    · rw [List.count_eq_one_of_mem (hsl p).1 hm]
      simp [content, hT]
    · rw [List.count_eq_zero_of_not_mem hm]
      have : (s.table (pack p q)).isSome = false := by
        cases hx : (s.table (pack p q)).isSome with
        | false => rfl
        | true => exact absurd ((hsl p).2 _ |>.2 ⟨hinc, hx⟩) hm
      rw [← hT, Option.isNone_iff_eq_none.1 (by simpa using this : (s.table (pack p q)).isNone = true)]
      simp
  have hempty : ∀ p, ¬ p < N → H.edges p = [] := by
    intro p hp
    unfold Graph.edges
    have hn' : H.n ≤ p := by omega
    unfold Graph.n at hn'
    simp [hn']
  refine ⟨⟨by rw [hn]; exact hφ, by rw [hn]; exact hsurj, ⟨?_, ?_, ?_⟩, ?_⟩, ?_⟩
  · intro u e he
    by_cases hu : u < N
    · rw [hed u hu] at he
      obtain ⟨k, hk, rfl⟩ := List.mem_map.1 he
      rw [hn]; exact (hend u k hk _).2.1
    · rw [hempty u hu] at he; cases he
  · intro u e he
    by_cases hu : u < N
    · rw [hed u hu] at he
      obtain ⟨k, hk, rfl⟩ := List.mem_map.1 he
      exact (hend u k hk _).1
    · rw [hempty u hu] at he; cases he
  · intro u v hu hv
    rw [hn] at hu hv
    by_cases huv : u = v
    · rw [huv]
    · rw [hwt u v hu hv huv, hwt v u hv hu (Ne.symm huv), hsym]
  · intro p q hp hq hpq
    rw [hn] at hp hq
    rw [hwt p q hp hq hpq, hbw]
  · intro u hu
    rw [hn] at hu
    rw [hed u hu, List.map_map]
    refine List.Nodup.map_on ?_ (hsl u).1
    intro x hx y hy he
    have h1 := (hend u x hx (fun k => (s.table k).getD 0)).2.2
    have h2 := (hend u y hy (fun k => (s.table k).getD 0)).2.2
    simp only [comp] at he
    rw [he] at h1
    rw [h1, ← h2]

end

end PCT
end VieCut
