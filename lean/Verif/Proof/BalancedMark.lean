import Verif.Proof.BalancedDFS

/-! # The result of the search and the marked side -/

namespace VieCut
namespace Balanced
open Finset MGraph Function

variable {E : Env}

theorem run_spec (hF : Facts E.C E.mincut) (htot : E.total = ∑ q ∈ range E.C.n, E.vw q) (hpos : 0 < E.total) (hs : E.start < E.C.n) :
    ∃ z, runDFS E = some (result E.C z) ∧ Valid E E.mincut z ∧
      ∀ X, ProperCut E.C.n X → cutValue E.C.n E.C.toGraph.wt X = E.mincut → lighter E.total (ws E.C E.vw X) ≤ z.weight := by
  have h0 : Inv E init [] (fun _ => ∅) := by
    refine ⟨?_, ?_, ?_, ?_, ?_, ?_, ?_, ?_, ?_, ?_, ?_, ?_, ?_, ?_, ?_, ?_, ?_⟩ <;> simp [init]
  obtain ⟨s, D, hP, hreal⟩ := visit_spec hF htot hpos (E.C.n + 1) E.start [] init (fun _ => ∅) h0
    ⟨hs, rfl, fun h => absurd rfl h⟩ (by
      have := Finset.card_filter_le (range E.C.n) fun v => init.status v = .undiscovered
      rw [Finset.card_range] at this
      unfold und
      omega)
  have hfin : ∀ v, s.status v = .finished ↔ v ∈ D E.start := by
    intro v
    rw [hP.fin]
    simp [init]
  have hcls : ∀ v, s.status v ≠ .undiscovered → s.status v = .finished := by
    intro v hv
    rw [hfin]
    by_contra hn
    exact hv ((hP.dis v).2 ⟨rfl, hn⟩)
  have hall : D E.start = range E.C.n := by
    refine Finset.Subset.antisymm (fun v hv => ?_) (fun v hv => ?_)
    · exact Finset.mem_range.2 (hP.inv.lt v (by rw [(hfin v).2 hv]; simp))
    · by_contra hn
      have hcon := hF.con (fun x => decide (x ∈ D E.start)) ⟨⟨E.start, hs, by simp [hP.self]⟩, v, Finset.mem_range.1 hv, by simp [hn]⟩
      obtain ⟨p, hp, hw⟩ : ∃ p ∈ pairs E.C.n (fun x => decide (x ∈ D E.start)), E.C.toGraph.wt p.1 p.2 ≠ 0 := by
        by_contra hn
        push Not at hn
        rw [cutValue_pairs, Finset.sum_eq_zero hn] at hcon
        omega
      obtain ⟨⟨a1, a2⟩, a3, a4⟩ := mem_pairs.1 (show (p.1, p.2) ∈ _ from hp)
      have b3 : p.1 ∈ D E.start := by simpa using a3
      have b4 : p.2 ∉ D E.start := by simpa using a4
      exact b4 ((hfin _).1 (hcls _ (hP.inv.closed _ _ ((hfin _).2 b3) (adj_of_wt a1 hw))))
  have hlt : ∀ x, x < E.C.n → s.status x = .finished := fun x hx => (hfin x).2 (by rw [hall]; exact Finset.mem_range.2 hx)
  have T : Tree E.C E.start s.parent D := by
    have hpar : ∀ x, x < E.C.n → x ≠ E.start → s.status (s.parent x) = .finished ∧ D x ⊆ D (s.parent x) ∧ s.parent x ∉ D x := by
      intro x hx hne
      rcases hP.inv.par x (hlt x hx) hne with h1 | h1
      · exact h1
      · simp at h1
    refine ⟨hs, hall, fun x hx => hP.inv.self x (hlt x hx), ?_, fun x hx => hP.inv.trans x (hlt x hx), fun x hx => hP.inv.up x (hlt x hx), ?_,
      fun x hx hne => (hpar x hx hne).2.1, fun x hx hne => (hpar x hx hne).2.2, fun x hx => hP.inv.padj x (hlt x hx), ?_⟩
    · intro x hx y hy
      rw [← hall, ← hfin]
      exact hP.inv.sub x (hlt x hx) y hy
    · intro x hx hne
      exact hP.inv.lt _ (by rw [(hpar x hx hne).1]; simp)
    · intro x y hx hxy
      rcases hP.inv.edge x y (hlt x hx) hxy with h1 | h1
      · simp at h1
      · exact h1.2
  obtain ⟨z, i1, _, i3, _, i5⟩ := hreal s.parent D T (fun v _ => ⟨rfl, rfl⟩) init (Frame.refl _) (Or.inl rfl)
  refine ⟨z, ?_, i3, ?_⟩
  · unfold runDFS
    rw [i1]
    rfl
  · intro X hX hc
    have := T.covered hF (vw := E.vw) (w := z.weight) (fun v hv hne hw => by
        rw [← htot]
        exact (i5 v (by rw [hall]; exact Finset.mem_range.2 hv)).1 hne hw)
      (fun t a k hb b f h1 h2 h3 => by
        rw [← htot]
        exact (i5 a (by rw [hall]; exact Finset.mem_range.2 hb.lt)).2 t k hb b f h1 h2 h3) hX hc
    rwa [← htot] at this

/-! ## The queue -/

/-- Vertices that are not yet checked. -/
def open_ (n : Nat) (ck : Nat → Bool) : Finset Nat := (range n).filter fun v => ck v = false

theorem open_update {n t : Nat} {ck : Nat → Bool} (ht : t < n) (h : ck t = false) : (open_ n (update ck t true)).card + 1 = (open_ n ck).card := by
  have : open_ n (update ck t true) = (open_ n ck).erase t := by
    ext v
    unfold open_
    rw [Finset.mem_erase, Finset.mem_filter, Finset.mem_filter]
    by_cases hv : v = t
    · subst hv; simp
    · rw [update_of_ne hv]; simp [hv]
  have hm : t ∈ open_ n ck := Finset.mem_filter.2 ⟨Finset.mem_range.2 ht, h⟩
  rw [this, Finset.card_erase_of_mem hm]
  have : 0 < (open_ n ck).card := Finset.card_pos.2 ⟨t, hm⟩
  omega

theorem pushAll_spec {n : Nat} : ∀ (ts : List Nat), (∀ y ∈ ts, y < n) → ∀ (q : List Nat) (ck : Nat → Bool),
    (∀ y, y ∈ (pushAll ts q ck).1 ↔ y ∈ q ∨ (y ∈ ts ∧ ck y = false)) ∧
    (∀ y, (pushAll ts q ck).2 y = true ↔ ck y = true ∨ y ∈ ts) ∧
    (pushAll ts q ck).1.length + (open_ n (pushAll ts q ck).2).card = q.length + (open_ n ck).card := by
  intro ts
  induction ts with
  | nil => intro _ q ck; simp [pushAll]
  | cons t ts ih =>
    intro hlt q ck
    have hlt' : ∀ y ∈ ts, y < n := fun y hy => hlt y (List.mem_cons_of_mem _ hy)
    by_cases hc : ck t = true
    · have hstep : pushAll (t :: ts) q ck = pushAll ts q ck := by
        unfold pushAll
        rw [List.foldl_cons, if_pos hc]
      rw [hstep]
      obtain ⟨i1, i2, i3⟩ := ih hlt' q ck
      refine ⟨fun y => ?_, fun y => ?_, i3⟩
      · rw [i1, List.mem_cons]
        constructor
        · rintro (h | ⟨h1, h2⟩)
          · exact Or.inl h
          · exact Or.inr ⟨Or.inr h1, h2⟩
        · rintro (h | ⟨h1 | h1, h2⟩)
          · exact Or.inl h
          · subst h1; rw [hc] at h2; simp at h2
          · exact Or.inr ⟨h1, h2⟩
      · rw [i2, List.mem_cons]
        constructor
        · rintro (h | h)
          · exact Or.inl h
          · exact Or.inr (Or.inr h)
        · rintro (h | h | h)
          · exact Or.inl h
          · subst h; exact Or.inl hc
          · exact Or.inr h
    · have hstep : pushAll (t :: ts) q ck = pushAll ts (q ++ [t]) (update ck t true) := by
        unfold pushAll
        rw [List.foldl_cons, if_neg hc]
      have hcf : ck t = false := by simpa using hc
      rw [hstep]
      obtain ⟨i1, i2, i3⟩ := ih hlt' (q ++ [t]) (update ck t true)
      have hu : ∀ y, update ck t true y = true ↔ ck y = true ∨ y = t := by
        intro y
        by_cases hy : y = t
        · subst hy; simp
        · rw [update_of_ne hy]; simp [hy]
      have hu' : ∀ y, update ck t true y = false ↔ ck y = false ∧ y ≠ t := by
        intro y
        by_cases hy : y = t
        · subst hy; simp
        · rw [update_of_ne hy]; simp [hy]
      refine ⟨fun y => ?_, fun y => ?_, ?_⟩
      · rw [i1, hu', List.mem_append, List.mem_singleton, List.mem_cons]
        by_cases hy : y = t
        · subst hy; simp [hcf]
        · simp [hy]
      · rw [i2, hu, List.mem_cons]
        tauto
      · rw [i3, List.length_append, List.length_singleton, ← open_update (hlt t List.mem_cons_self) hcf]
        omega

theorem foldl_flag (l : List Nat) : ∀ (fl : Nat → Bool) (v : Nat), (l.foldl (fun fl v => update fl v true) fl) v = true ↔ fl v = true ∨ v ∈ l := by
  induction l with
  | nil => simp
  | cons x l ih =>
    intro fl v
    rw [List.foldl_cons, ih, List.mem_cons]
    by_cases hv : v = x
    · subst hv; simp
    · rw [update_of_ne hv]; simp [hv]

variable {C : MGraph} {c : Nat}

theorem spread_spec (hF : Facts C c) {X : Nat → Bool} {r : (Nat × Nat) × (Nat × Nat)} (hd : Delim C X r) : ∀ (f : Nat) (q P : List Nat)
    (ck flags : Nat → Bool), q.length + (open_ C.n ck).card ≤ f → (∀ v ∈ q, v < C.n ∧ X v = true) → (∀ v ∈ P, v < C.n ∧ X v = true) →
    (∀ v, v < C.n → ck v = true → X v = true → v ∈ P ∨ v ∈ q) → (∀ p ∈ P, ∀ y, C.Adj p y → ck y = true) →
    ck r.1.1 = true → ck r.2.1 = true → ck (C.edge r.1.1 r.1.2).target = true → ck (C.edge r.2.1 r.2.2).target = true →
    (∀ v, flags v = true ↔ ∃ p ∈ P, v ∈ C.cont p) →
    ∃ S, spread C f q ck flags = some S ∧ ∀ v, S v = true ↔ ∃ p, p < C.n ∧ X p = true ∧ v ∈ C.cont p := by
  intro f
  induction f with
  | zero =>
    intro q P ck flags hf hq hPm hck hcl c1 c2 c3 c4 hfl
    have : q = [] := List.eq_nil_of_length_eq_zero (by omega)
    subst this
    refine ⟨flags, by unfold spread; rfl, ?_⟩
    have hop : (open_ C.n ck).card = 0 := by omega
    intro v
    rw [hfl]
    constructor
    · rintro ⟨p, hp, hv⟩; exact ⟨p, (hPm p hp).1, (hPm p hp).2, hv⟩
    · rintro ⟨p, h1, h2, hv⟩
      refine ⟨p, ?_, hv⟩
      rcases hck p h1 (by
        by_contra hn
        have : p ∈ open_ C.n ck := Finset.mem_filter.2 ⟨Finset.mem_range.2 h1, by simpa using hn⟩
        rw [Finset.card_eq_zero] at hop
        rw [hop] at this
        simp at this) h2 with h3 | h3
      · exact h3
      · simp at h3
  | succ f ih =>
    intro q P ck flags hf hq hPm hck hcl c1 c2 c3 c4 hfl
    cases q with
    | nil =>
      refine ⟨flags, by unfold spread; rfl, ?_⟩
      have hck' : ∀ v, v < C.n → ck v = true → X v = true → v ∈ P := fun v h1 h2 h3 => (hck v h1 h2 h3).resolve_right (by simp)
      have hall : ∀ p, p < C.n → X p = true → p ∈ P := by
        by_contra hn
        push Not at hn
        obtain ⟨p, hp, hXp, hpP⟩ := hn
        have hcon := hF.con (fun x => X x && !decide (x ∈ P)) ⟨⟨p, hp, by simp [hXp, hpP]⟩, r.1.1, hd.lt1, by
          simp [hck' _ hd.lt1 c1 hd.in1]⟩
        obtain ⟨p, hp, hw⟩ : ∃ p ∈ pairs C.n (fun x => X x && !decide (x ∈ P)), C.toGraph.wt p.1 p.2 ≠ 0 := by
          by_contra hn
          push Not at hn
          rw [cutValue_pairs, Finset.sum_eq_zero hn] at hcon
          omega
        obtain ⟨⟨a1, a2⟩, a3, a4⟩ := mem_pairs.1 (show (p.1, p.2) ∈ _ from hp)
        have hadj := adj_of_wt a1 hw
        have b3 : X p.1 = true ∧ p.1 ∉ P := by simpa using a3
        by_cases hX2 : X p.2 = true
        · have b4 : p.2 ∈ P := by simpa [hX2] using a4
          exact b3.2 (hck' _ a1 (hcl _ b4 _ (adj_symm hF.cons a1 hadj)) b3.1)
        · rcases hd.only _ _ a1 hadj b3.1 (by simpa using hX2) with h1 | h1
          · exact b3.2 (hck' _ a1 (by rw [h1.1]; exact c1) b3.1)
          · exact b3.2 (hck' _ a1 (by rw [h1.1]; exact c2) b3.1)
      intro v
      rw [hfl]
      constructor
      · rintro ⟨p, hp, hv⟩; exact ⟨p, (hPm p hp).1, (hPm p hp).2, hv⟩
      · rintro ⟨p, h1, h2, hv⟩; exact ⟨p, hall p h1 h2, hv⟩
    | cons top q =>
      unfold spread
      dsimp only
      obtain ⟨htl, htX⟩ := hq top List.mem_cons_self
      have hts : ∀ y, y ∈ (List.range (C.len top)).map (fun e => (C.edge top e).target) ↔ C.Adj top y := by
        intro y
        rw [List.mem_map]
        constructor
        · rintro ⟨e, he, rfl⟩; exact ⟨e, List.mem_range.1 he, rfl⟩
        · rintro ⟨e, he, rfl⟩; exact ⟨e, List.mem_range.2 he, rfl⟩
      obtain ⟨i1, i2, i3⟩ := pushAll_spec (n := C.n) ((List.range (C.len top)).map fun e => (C.edge top e).target)
        (fun y hy => adj_lt hF.cons htl ((hts y).1 hy)) q ck
      have hmono : ∀ y, ck y = true → (pushAll ((List.range (C.len top)).map fun e => (C.edge top e).target) q ck).2 y = true :=
        fun y hy => (i2 y).2 (Or.inl hy)
      rw [List.length_cons] at hf
      refine ih _ (top :: P) _ _ (by omega) ?_ ?_ ?_ ?_ (hmono _ c1) (hmono _ c2) (hmono _ c3) (hmono _ c4) ?_
      · intro v hv
        rcases (i1 v).1 hv with h1 | ⟨h1, h2⟩
        · exact hq v (List.mem_cons_of_mem _ h1)
        · have hadj := (hts v).1 h1
          refine ⟨adj_lt hF.cons htl hadj, ?_⟩
          by_contra hn
          rcases hd.only _ _ htl hadj htX (by simpa using hn) with h3 | h3
          · rw [h3.2, c3] at h2; simp at h2
          · rw [h3.2, c4] at h2; simp at h2
      · intro v hv
        rcases List.mem_cons.1 hv with h1 | h1
        · rw [h1]; exact ⟨htl, htX⟩
        · exact hPm v h1
      · intro v h1 h2 h3
        by_cases hcv : ck v = true
        · rcases hck v h1 hcv h3 with h4 | h4
          · exact Or.inl (List.mem_cons_of_mem _ h4)
          · rcases List.mem_cons.1 h4 with h5 | h5
            · rw [h5]; exact Or.inl List.mem_cons_self
            · exact Or.inr ((i1 v).2 (Or.inl h5))
        · rcases (i2 v).1 h2 with h4 | h4
          · exact absurd h4 hcv
          · exact Or.inr ((i1 v).2 (Or.inr ⟨h4, by simpa using hcv⟩))
      · intro p hp y hy
        rcases List.mem_cons.1 hp with h1 | h1
        · subst h1; exact (i2 y).2 (Or.inr ((hts y).2 hy))
        · exact hmono y (hcl p h1 y hy)
      · intro v
        rw [foldl_flag, hfl]
        constructor
        · rintro (⟨p, hp, hv⟩ | hv)
          · exact ⟨p, List.mem_cons_of_mem _ hp, hv⟩
          · exact ⟨top, List.mem_cons_self, hv⟩
        · rintro ⟨p, hp, hv⟩
          rcases List.mem_cons.1 hp with h1 | h1
          · subst h1; exact Or.inr hv
          · exact Or.inl ⟨p, h1, hv⟩

theorem markSide_spec (hF : Facts C c) {X : Nat → Bool} {r : (Nat × Nat) × (Nat × Nat)} (hd : Delim C X r) :
    ∃ S, markSide C r = some S ∧ ∀ v, S v = true ↔ ∃ p, p < C.n ∧ X p = true ∧ v ∈ C.cont p := by
  unfold markSide
  dsimp only
  have key : ∀ ck : Nat → Bool, (∀ v, ck v = true ↔ v = r.1.1 ∨ v = r.2.1 ∨ v = (C.edge r.1.1 r.1.2).target ∨ v = (C.edge r.2.1 r.2.2).target) →
      ∀ q : List Nat, (∀ v, v ∈ q ↔ v = r.1.1 ∨ v = r.2.1) → q.Nodup →
      ∃ S, spread C (C.n + 1) q ck (fun _ => false) = some S ∧ ∀ v, S v = true ↔ ∃ p, p < C.n ∧ X p = true ∧ v ∈ C.cont p := by
    intro ck hck q hq hnd
    refine spread_spec hF hd (C.n + 1) q [] ck _ ?_ ?_ (by simp) ?_ (by simp) ((hck _).2 (Or.inl rfl)) ((hck _).2 (Or.inr (Or.inl rfl)))
      ((hck _).2 (Or.inr (Or.inr (Or.inl rfl)))) ((hck _).2 (Or.inr (Or.inr (Or.inr rfl)))) (by simp)
    · have h1 : Disjoint q.toFinset (open_ C.n ck) := by
        rw [Finset.disjoint_left]
        intro v hv hv'
        rw [List.mem_toFinset, hq] at hv
        have := (Finset.mem_filter.1 hv').2
        rw [(hck v).2 (by tauto)] at this
        simp at this
      have h2 : q.toFinset ∪ open_ C.n ck ⊆ range C.n := by
        intro v hv
        rcases Finset.mem_union.1 hv with h | h
        · rw [List.mem_toFinset, hq] at h
          rcases h with h | h <;> rw [h, Finset.mem_range]
          · exact hd.lt1
          · exact hd.lt2
        · exact (Finset.mem_filter.1 h).1
      have h3 := Finset.card_le_card h2
      rw [Finset.card_union_of_disjoint h1, List.toFinset_card_of_nodup hnd, Finset.card_range] at h3
      omega
    · intro v hv
      rcases (hq v).1 hv with h | h <;> rw [h]
      · exact ⟨hd.lt1, hd.in1⟩
      · exact ⟨hd.lt2, hd.in2⟩
    · intro v _ h2 h3
      right
      rw [hq]
      rcases (hck v).1 h2 with h | h | h | h
      · exact Or.inl h
      · exact Or.inr h
      · rw [h, hd.out1] at h3; simp at h3
      · rw [h, hd.out2] at h3; simp at h3
  by_cases hne : r.1.1 ≠ r.2.1
  · rw [if_pos hne, if_pos hne]
    refine key _ ?_ _ (by simp) (by simp [hne])
    intro v
    simp only [update_apply]
    split_ifs <;> simp_all
  · rw [if_neg hne, if_neg hne]
    push Not at hne
    refine key _ ?_ _ (by simp [hne]) (by simp)
    intro v
    simp only [update_apply]
    split_ifs <;> simp_all

end Balanced
end VieCut
