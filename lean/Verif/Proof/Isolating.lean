import Verif.Proof.LowDegree

namespace VieCut
open Finset

variable {n : Nat} {w : Nat → Nat → Nat}

theorem two_cutValue (hw : ∀ u v, w u v = w v u) (S : Nat → Bool) :
    wsum n w (fun u v => ind (S u ≠ S v)) = 2 * cutValue n w S := by
  rw [cutValue_eq_wsum, Nat.two_mul]
  conv_rhs => rw [← wsum_swap hw]
  conv_rhs => arg 2; rw [← wsum_swap hw]
  rw [← wsum_add]
  refine wsum_congr fun u v _ _ => ?_
  cases hu : S u <;> cases hv : S v <;> simp [ind]

/-- Posimodularity of cuts. -/
theorem cutValue_posimodular (hw : ∀ u v, w u v = w v u) (S T : Nat → Bool) :
    cutValue n w (fun x => S x && !T x) + cutValue n w (fun x => T x && !S x) ≤ cutValue n w S + cutValue n w T := by
  have h1 := two_cutValue (n := n) hw S
  have h2 := two_cutValue (n := n) hw T
  have h3 := two_cutValue (n := n) hw (fun x => S x && !T x)
  have h4 := two_cutValue (n := n) hw (fun x => T x && !S x)
  have h5 : wsum n w (fun u v => ind ((S u && !T u) ≠ (S v && !T v)) + ind ((T u && !S u) ≠ (T v && !S v))) ≤
      wsum n w (fun u v => ind (S u ≠ S v) + ind (T u ≠ T v)) := by
    refine wsum_mono fun u v _ _ => ?_
    cases S u <;> cases S v <;> cases T u <;> cases T v <;> simp [ind]
  rw [wsum_add, wsum_add] at h5
  omega

/-- A cut inside `S` that loses weight. -/
theorem cutValue_inter (S A : Nat → Bool)
    (h : cutValue n w S ≤ cutValue n w (fun x => S x && A x)) :
    wsum n w (fun u v => ind ((S u = true ∧ A u = false) ∧ S v = false)) ≤
      wsum n w (fun u v => ind ((S u = true ∧ A u = true) ∧ (S v = true ∧ A v = false))) := by
  rw [cutValue_eq_wsum, cutValue_eq_wsum] at h
  have h1 : wsum n w (fun u v => ind (S u = true ∧ S v = false)) =
      wsum n w (fun u v => ind ((S u = true ∧ A u = false) ∧ S v = false)) +
      wsum n w (fun u v => ind ((S u = true ∧ A u = true) ∧ S v = false)) := by
    rw [← wsum_add]
    refine wsum_congr fun u v _ _ => ?_
    cases S u <;> cases S v <;> cases A u <;> simp [ind]
  have h2 : wsum n w (fun u v => ind ((S u && A u) = true ∧ (S v && A v) = false)) =
      wsum n w (fun u v => ind ((S u = true ∧ A u = true) ∧ (S v = true ∧ A v = false))) +
      wsum n w (fun u v => ind ((S u = true ∧ A u = true) ∧ S v = false)) := by
    rw [← wsum_add]
    refine wsum_congr fun u v _ _ => ?_
    cases S u <;> cases S v <;> cases A u <;> cases A v <;> simp [ind]
  omega

/-- Moving a minimum isolating cut to the label of its centre does not make a solution heavier. -/
theorem IsolatingCut.relabel_le (hw : ∀ u v, w u v = w v u) {ts : List Nat} {r : Nat} {S : Nat → Bool}
    (h : IsolatingCut n w ts r S) (f : Nat → Nat) :
    multicutValue n w (relabel f (fun x => S x = true) (f r)) ≤ multicutValue n w f := by
  refine VieCut.relabel_le hw ?_
  have h1 := cutValue_inter (n := n) (w := w) S (fun x => decide (f x = f r)) (h.min _ (by simp [h.source]) (fun t ht hne => by
    simp [h.sinks t ht hne]))
  refine Nat.le_trans ?_ (Nat.le_trans h1 (Nat.le_trans ?_ (Nat.le_add_left _ _)))
  · refine wsum_mono fun u v _ _ => ind_mono ?_
    rintro ⟨a, b, c, _⟩
    exact ⟨⟨a, by simpa using c⟩, by simpa using b⟩
  · refine wsum_mono fun u v _ _ => ind_mono ?_
    rintro ⟨⟨a, b⟩, c, d⟩
    exact ⟨a, c, by simpa using b, by simpa using d⟩

/-- What remains of a minimum isolating cut outside another terminal's minimum isolating cut is one, too. -/
theorem IsolatingCut.diff (hw : ∀ u v, w u v = w v u) {ts : List Nat} {r s : Nat} {S T : Nat → Bool}
    (hS : IsolatingCut n w ts r S) (hT : IsolatingCut n w ts s T) (hr : r ∈ ts) (hs : s ∈ ts) (hne : r ≠ s) :
    IsolatingCut n w ts r (fun x => S x && !T x) := by
  refine ⟨?_, ?_, ?_⟩
  · simp [hS.source, hT.sinks r hr hne]
  · intro t ht htr
    simp [hS.sinks t ht htr]
  · intro S' h1 h2
    have h3 := hS.min S' h1 h2
    have h4 := hT.min (fun x => T x && !S x) (by simp [hT.source, hS.sinks s hs (Ne.symm hne)])
      (fun t ht hts => by simp [hT.sinks t ht hts])
    have h5 := cutValue_posimodular (n := n) hw S T
    omega

/-- Disjoint minimum isolating cuts may be merged simultaneously. -/
theorem isolating_safe (hw : ∀ u v, w u v = w v u) {ts : List Nat} (L : List (Nat × (Nat → Bool)))
    (hL : ∀ q ∈ L, IsolatingCut n w ts q.1 q.2)
    (hd : L.Pairwise (fun q q' => ∀ x, q.2 x = true → q'.2 x = false)) (f : Nat → Nat) (hf : Separates ts f) :
    ∃ f', Separates ts f' ∧ multicutValue n w f' ≤ multicutValue n w f ∧
      (∀ q ∈ L, ∀ x, q.2 x = true → f' x = f' q.1) := by
  suffices ∀ L : List (Nat × (Nat → Bool)), (∀ q ∈ L, IsolatingCut n w ts q.1 q.2) →
      L.Pairwise (fun q q' => ∀ x, q.2 x = true → q'.2 x = false) → ∀ f, Separates ts f →
      ∃ f', Separates ts f' ∧ multicutValue n w f' ≤ multicutValue n w f ∧
      (∀ q ∈ L, ∀ x, q.2 x = true → f' x = f' q.1) ∧ ∀ x, (∀ q ∈ L, q.2 x = false) → f' x = f x by
    obtain ⟨f', h1, h2, h3, _⟩ := this L hL hd f hf
    exact ⟨f', h1, h2, h3⟩
  intro L
  induction L with
  | nil => intro _ _ f hf; exact ⟨f, hf, Nat.le_refl _, by simp, by simp⟩
  | cons q L ih =>
    intro hL hd f hf
    obtain ⟨hd1, hd2⟩ := List.pairwise_cons.1 hd
    have hq := hL q (by simp)
    obtain ⟨f', h1, h2, h3, h4⟩ := ih (fun q' hq' => hL q' (by simp [hq'])) hd2 (relabel f (fun x => q.2 x = true) (f q.1))
      (separates_relabel hf fun t ht hS => by
        by_cases e : t = q.1
        · rw [e]
        · have := hq.sinks t ht e; rw [hS] at this; exact absurd this (by simp))
    have hin : ∀ x, q.2 x = true → f' x = f q.1 := by
      intro x hx
      rw [h4 x (fun q' hq' => hd1 q' hq' x hx)]
      exact relabel_in (S := fun x => q.2 x = true) hx
    refine ⟨f', h1, h2.trans (hq.relabel_le hw f), ?_, ?_⟩
    · intro q' hq' x hx
      rcases List.mem_cons.1 hq' with rfl | hq'
      · rw [hin x hx, hin _ hq.source]
      · exact h3 q' hq' x hx
    · intro x hx
      rw [h4 x (fun q' hq' => hx q' (by simp [hq']))]
      have := hx q (by simp)
      exact relabel_out (S := fun x => q.2 x = true) (by rw [this]; simp)

namespace Problem
open MGraph

/-! ### Flows from non-terminals -/

theorem flowUnions_rep (N : Nat) (flows : List (Nat × List Nat)) (h : ∀ q ∈ flows, q.1 < N ∧ ∀ x ∈ q.2, x < N) :
    ∃ ps, (flowUnions N flows).Rep ps ∧ (flowUnions N flows).size = N ∧
      ∀ a b, (a, b) ∈ ps ↔ ∃ q ∈ flows, b = q.1 ∧ a ∈ q.2 := by
  have inner : ∀ (r : Nat) (S : List Nat) (uf : UF) (ps : List (Nat × Nat)), uf.Rep ps → uf.size = N → r < N →
      (∀ x ∈ S, x < N) → (S.foldl (fun uf s => (uf.union s r).2) uf).Rep (ps ++ S.map (fun s => (s, r))) ∧
      (S.foldl (fun uf s => (uf.union s r).2) uf).size = N := by
    intro r S
    induction S with
    | nil => intro uf ps h1 h2 _ _; simpa using ⟨h1, h2⟩
    | cons s S ih =>
      intro uf ps h1 h2 hr hS
      have hu := UF.union_spec h1 (l := s) (r := r) (by rw [h2]; exact hS s (by simp)) (by rw [h2]; exact hr)
      have := ih _ _ hu.1 (hu.2.2.trans h2) hr (fun x hx => hS x (by simp [hx]))
      rw [List.foldl_cons, List.map_cons]
      rw [List.append_assoc] at this
      exact this
  have outer : ∀ (fl : List (Nat × List Nat)) (uf : UF) (ps : List (Nat × Nat)), uf.Rep ps → uf.size = N →
      (∀ q ∈ fl, q.1 < N ∧ ∀ x ∈ q.2, x < N) →
      (fl.foldl (fun uf rs => rs.2.foldl (fun uf s => (uf.union s rs.1).2) uf) uf).Rep
        (ps ++ fl.flatMap (fun q => q.2.map (fun s => (s, q.1)))) ∧
      (fl.foldl (fun uf rs => rs.2.foldl (fun uf s => (uf.union s rs.1).2) uf) uf).size = N := by
    intro fl
    induction fl with
    | nil => intro uf ps h1 h2 _; simpa using ⟨h1, h2⟩
    | cons q fl ih =>
      intro uf ps h1 h2 hfl
      have hq := hfl q (by simp)
      obtain ⟨i1, i2⟩ := inner q.1 q.2 uf ps h1 h2 hq.1 hq.2
      have := ih _ _ i1 i2 (fun q' hq' => hfl q' (by simp [hq']))
      rw [List.foldl_cons, List.flatMap_cons, ← List.append_assoc]
      exact this
  obtain ⟨o1, o2⟩ := outer flows (UF.mk' N) [] (UF.init_rep N) rfl h
  refine ⟨_, o1, o2, ?_⟩
  intro a b
  rw [List.nil_append, List.mem_flatMap]
  constructor
  · rintro ⟨q, hq, hm⟩
    obtain ⟨s, hs, e⟩ := List.mem_map.1 hm
    cases e
    exact ⟨q, hq, rfl, hs⟩
  · rintro ⟨q, hq, rfl, ha⟩
    exact ⟨q, hq, List.mem_map.2 ⟨a, ha, rfl⟩⟩

variable {ots : List Nat} {p : Problem}

/-- Merging pairwise disjoint source sets is safe. -/
theorem flowUnions_safe (h : Ok ots p) (flows : List (Nat × List Nat))
    (hlt : ∀ q ∈ flows, q.1 < p.graph.n ∧ ∀ x ∈ q.2, x < p.graph.n)
    (hcut : ∀ q ∈ flows, IsolatingCut p.graph.n p.graph.toGraph.wt (p.spots ots) q.1 (fun x => decide (x ∈ q.2)))
    (hdis : flows.Pairwise (fun q q' => ∀ x ∈ q.2, x ∉ q'.2)) :
    (flowUnions p.graph.n flows).Inv ∧ (flowUnions p.graph.n flows).size = p.graph.n ∧
    MergeSafe p.graph.n p.graph.toGraph.wt (p.spots ots) (flowUnions p.graph.n flows).root := by
  obtain ⟨ps, h1, h2, h3⟩ := flowUnions_rep p.graph.n flows hlt
  refine ⟨h1.inv, h2, mergeSafe_of_rep h1 fun f hf => ?_⟩
  obtain ⟨f', k1, k2, k3⟩ := isolating_safe (n := p.graph.n) (ts := p.spots ots) h.valid.wf.wt_symm
    (flows.map (fun q : Nat × List Nat => (q.1, fun x => decide (x ∈ q.2)))) (by
      intro q hq
      obtain ⟨q', hq', rfl⟩ := List.mem_map.1 hq
      exact hcut q' hq') (by
      rw [List.pairwise_map]
      refine hdis.imp ?_
      intro a b hab x hx
      simp only [decide_eq_true_eq, decide_eq_false_iff_not] at hx ⊢
      exact hab x hx) f hf
  refine ⟨f', k1, k2, ?_⟩
  rintro ⟨a, b⟩ hab
  obtain ⟨q, hq, rfl, ha⟩ := (h3 a b).1 hab
  exact k3 (q.1, fun x => decide (x ∈ q.2)) (List.mem_map.2 ⟨q, hq, rfl⟩) a (by simpa using ha)

/-! ### Isolating blocks -/

theorem modify_last {α : Type} (B : List α) (x : α) (g : α → α) : (B ++ [x]).modify B.length g = B ++ [g x] := by
  induction B with
  | nil => rfl
  | cons y B ih => rw [List.cons_append, List.length_cons, List.modify_succ_cons, ih]; rfl

/-- One block of the first loop of `contractIsolatingBlocks`. -/
theorem isoBlock_fold (b : List Nat) (hb : b.Nodup) (B : List (List Nat)) (last : List Nat) (A : List Nat) :
    b.foldl (fun s n => if n ∈ s.2 then s else (s.1.modify (s.1.length - 1) (· ++ [n]), s.2 ++ [n])) (B ++ [last], A) =
      (B ++ [last ++ b.filter (fun x => decide (x ∉ A))], A ++ b.filter (fun x => decide (x ∉ A))) := by
  induction b generalizing last A with
  | nil => simp
  | cons x b ih =>
    rw [List.foldl_cons]
    obtain ⟨hx, hb'⟩ := List.nodup_cons.1 hb
    by_cases hA : x ∈ A
    · simp only [hA, if_true]
      rw [ih hb', List.filter_cons]
      simp [hA]
    · simp only [hA, if_false]
      have hm : (B ++ [last]).modify ((B ++ [last]).length - 1) (· ++ [x]) = B ++ [last ++ [x]] := by
        rw [List.length_append, List.length_singleton, Nat.add_sub_cancel, modify_last]
      rw [hm, ih hb']
      have hf : b.filter (fun y => decide (y ∉ A ++ [x])) = b.filter (fun y => decide (y ∉ A)) := by
        refine List.filter_congr fun y hy => ?_
        have : y ≠ x := fun e => hx (e ▸ hy)
        simp [this]
      rw [hf, List.filter_cons]
      simp [hA]

/-- The bases, computed block by block. -/
def isoSpec : List (List Nat) → List Nat → List (List Nat)
  | [], _ => []
  | b :: bs, A =>
    if b.length > 1 then (b.filter fun x => decide (x ∉ A)) :: isoSpec bs (A ++ b.filter fun x => decide (x ∉ A))
    else [] :: isoSpec bs A

theorem isoBases_eq (blocks : List (List Nat)) (hnd : ∀ b ∈ blocks, b.Nodup) :
    (isoBases blocks).1 = isoSpec blocks [] := by
  have key : ∀ (bs : List (List Nat)) (B : List (List Nat)) (A : List Nat), (∀ b ∈ bs, b.Nodup) →
      (bs.foldl (fun s b =>
        if b.length > 1 then
          b.foldl (fun s n => if n ∈ s.2 then s else (s.1.modify (s.1.length - 1) (· ++ [n]), s.2 ++ [n]))
            (s.1 ++ [[]], s.2)
        else (s.1 ++ [[]], s.2)) (B, A)).1 = B ++ isoSpec bs A := by
    intro bs
    induction bs with
    | nil => intro B A _; simp [isoSpec]
    | cons b bs ih =>
      intro B A h
      rw [List.foldl_cons]
      unfold isoSpec
      by_cases hl : b.length > 1
      · simp only [hl, if_true]
        rw [isoBlock_fold b (h b (by simp)), ih _ _ (fun b' hb' => h b' (by simp [hb']))]
        simp
      · simp only [hl, if_false]
        rw [ih _ _ (fun b' hb' => h b' (by simp [hb']))]
        simp
  have := key blocks [] [] hnd
  rw [List.nil_append] at this
  exact this

/-- The bases are pairwise disjoint minimum isolating cuts. -/
theorem isoSpec_isolating {N : Nat} {w : Nat → Nat → Nat} (hw : ∀ u v, w u v = w v u) {ts : List Nat}
    (Q : List (Nat × List Nat)) (A : List Nat) (hts : ∀ q ∈ Q, q.1 ∈ ts) (hnd : (Q.map Prod.fst).Nodup)
    (hQ : ∀ q ∈ Q, IsolatingCut N w ts q.1 (fun x => decide (x ∈ q.2) && !decide (x ∈ A))) :
    ∃ L : List (Nat × (Nat → Bool)), (∀ q ∈ L, IsolatingCut N w ts q.1 q.2) ∧
      L.Pairwise (fun q q' => ∀ x, q.2 x = true → q'.2 x = false) ∧
      (∀ q ∈ L, ∀ x ∈ A, q.2 x = false) ∧
      (∀ c ∈ isoSpec (Q.map Prod.snd) A, c = [] ∨ ∃ q ∈ L, ∀ x, x ∈ c ↔ q.2 x = true) ∧
      (isoSpec (Q.map Prod.snd) A).Pairwise (fun c c' => ∀ x ∈ c, x ∉ c') ∧
      (∀ c ∈ isoSpec (Q.map Prod.snd) A, ∀ x ∈ c, x ∉ A ∧ ∃ q ∈ Q, x ∈ q.2) := by
  induction Q generalizing A with
  | nil => exact ⟨[], by simp, by simp, by simp, by simp [isoSpec], by simp [isoSpec], by simp [isoSpec]⟩
  | cons q Q ih =>
    rw [List.map_cons] at hnd ⊢
    obtain ⟨hq0, hnd'⟩ := List.nodup_cons.1 hnd
    have hq := hQ q (by simp)
    unfold isoSpec
    by_cases hl : q.2.length > 1
    · rw [if_pos hl]
      have hA' : ∀ x, x ∈ A ++ q.2.filter (fun x => decide (x ∉ A)) ↔ x ∈ A ∨ x ∈ q.2 := by
        intro x
        rw [List.mem_append, List.mem_filter]
        by_cases hx : x ∈ A <;> simp [hx]
      obtain ⟨L, h1, h2, h3, h4, h5, h6⟩ := ih (A ++ q.2.filter (fun x => decide (x ∉ A)))
        (fun q' hq' => hts q' (by simp [hq'])) hnd' (by
          intro q' hq'
          have hne : q'.1 ≠ q.1 := fun e => hq0 (e ▸ List.mem_map.2 ⟨q', hq', rfl⟩)
          have := (hQ q' (by simp [hq'])).diff hw hq (hts q' (by simp [hq'])) (hts q (by simp)) hne
          refine (congrArg (fun S => IsolatingCut N w ts q'.1 S) ?_).mp this
          funext x
          have := hA' x
          by_cases a : x ∈ A <;> by_cases b : x ∈ q.2 <;> by_cases c : x ∈ q'.2 <;> simp [a, b, c])
      refine ⟨(q.1, fun x => decide (x ∈ q.2) && !decide (x ∈ A)) :: L, ?_, ?_, ?_, ?_, ?_, ?_⟩
      · intro q' hq'
        rcases List.mem_cons.1 hq' with rfl | hq'
        · exact hq
        · exact h1 q' hq'
      · refine List.pairwise_cons.2 ⟨fun q' hq' x hx => h3 q' hq' x ((hA' x).2 (Or.inr ?_)), h2⟩
        simp only [Bool.and_eq_true, decide_eq_true_eq] at hx
        exact hx.1
      · intro q' hq' x hx
        rcases List.mem_cons.1 hq' with rfl | hq'
        · simp [hx]
        · exact h3 q' hq' x ((hA' x).2 (Or.inl hx))
      · intro c hc
        rcases List.mem_cons.1 hc with rfl | hc
        · exact Or.inr ⟨_, List.mem_cons_self, fun x => by simp⟩
        · rcases h4 c hc with h | ⟨q', hq', h⟩
          · exact Or.inl h
          · exact Or.inr ⟨q', List.mem_cons_of_mem _ hq', h⟩
      · refine List.pairwise_cons.2 ⟨fun c hc x hx hxc => ?_, h5⟩
        exact (h6 c hc x hxc).1 (List.mem_append.2 (Or.inr hx))
      · intro c hc x hx
        rcases List.mem_cons.1 hc with rfl | hc
        · have := List.mem_filter.1 hx
          exact ⟨by simpa using this.2, q, by simp, this.1⟩
        · obtain ⟨a, q', b, c⟩ := h6 c hc x hx
          exact ⟨fun ha => a ((hA' x).2 (Or.inl ha)), q', by simp [b], c⟩
    · rw [if_neg hl]
      obtain ⟨L, h1, h2, h3, h4, h5, h6⟩ := ih A (fun q' hq' => hts q' (by simp [hq'])) hnd'
        (fun q' hq' => hQ q' (by simp [hq']))
      refine ⟨L, h1, h2, h3, ?_, ?_, ?_⟩
      · intro c hc
        rcases List.mem_cons.1 hc with rfl | hc
        · exact Or.inl rfl
        · exact h4 c hc
      · exact List.pairwise_cons.2 ⟨by simp, h5⟩
      · intro c hc x hx
        rcases List.mem_cons.1 hc with rfl | hc
        · simp at hx
        · obtain ⟨a, q', b, c⟩ := h6 c hc x hx
          exact ⟨a, q', by simp [b], c⟩

theorem isoSpec_nodup (bs : List (List Nat)) (A : List Nat) (h : ∀ b ∈ bs, b.Nodup) : ∀ c ∈ isoSpec bs A, c.Nodup := by
  induction bs generalizing A with
  | nil => simp [isoSpec]
  | cons b bs ih =>
    unfold isoSpec
    intro c hc
    split at hc
    · rcases List.mem_cons.1 hc with rfl | hc
      · exact (h b (by simp)).filter _
      · exact ih _ (fun b' hb' => h b' (by simp [hb'])) c hc
    · rcases List.mem_cons.1 hc with rfl | hc
      · exact List.nodup_nil
      · exact ih _ (fun b' hb' => h b' (by simp [hb'])) c hc

/-- Classes given by disjoint sets. -/
theorem mergeSafe_sets {N : Nat} {w : Nat → Nat → Nat} (hw : ∀ u v, w u v = w v u) {ts : List Nat}
    (L : List (Nat × (Nat → Bool))) (hL : ∀ q ∈ L, IsolatingCut N w ts q.1 q.2)
    (hd : L.Pairwise (fun q q' => ∀ x, q.2 x = true → q'.2 x = false)) :
    ∃ cls : Nat → Nat, MergeSafe N w ts cls ∧ ∀ q ∈ L, ∀ u v, q.2 u = true → q.2 v = true → cls u = cls v := by
  classical
  have huniq : ∀ q ∈ L, ∀ q' ∈ L, ∀ x, q.2 x = true → q'.2 x = true → q.1 = q'.1 := by
    intro q hq q' hq' x hx hx'
    by_contra hne
    haveI : Std.Symm (fun q q' : Nat × (Nat → Bool) => ∀ x, q.2 x = true → q'.2 x = false) := ⟨by
      intro a b hab x hx
      by_contra hc
      rw [hab x (by simpa using hc)] at hx
      exact absurd hx (by simp)⟩
    have := (hd.forall hq hq' (fun e => hne (by rw [e]))) x hx
    rw [this] at hx'
    exact absurd hx' (by simp)
  let cls : Nat → Nat := fun x => if h : ∃ q ∈ L, q.2 x = true then N + (Classical.choose h).1 else x
  have hin : ∀ q ∈ L, ∀ x, q.2 x = true → cls x = N + q.1 := by
    intro q hq x hx
    have hex : ∃ q ∈ L, q.2 x = true := ⟨q, hq, hx⟩
    have hc := Classical.choose_spec hex
    simp only [cls, dif_pos hex]
    rw [huniq _ hc.1 q hq x hc.2 hx]
  have hout : ∀ x, (¬ ∃ q ∈ L, q.2 x = true) → cls x = x := fun x hx => by simp only [cls, dif_neg hx]
  refine ⟨cls, ?_, fun q hq u v hu hv => by rw [hin q hq u hu, hin q hq v hv]⟩
  intro f hf
  obtain ⟨f', h1, h2, h3⟩ := isolating_safe hw L hL hd f hf
  refine ⟨f', h1, h2, fun u v hu hv e => ?_⟩
  by_cases cu : ∃ q ∈ L, q.2 u = true
  · obtain ⟨q, hq, hqu⟩ := cu
    rw [hin q hq u hqu] at e
    by_cases cv : ∃ q ∈ L, q.2 v = true
    · obtain ⟨q', hq', hqv⟩ := cv
      rw [hin q' hq' v hqv] at e
      have e' : q.1 = q'.1 := by omega
      rw [h3 q hq u hqu, h3 q' hq' v hqv, e']
    · rw [hout v cv] at e; omega
  · rw [hout u cu] at e
    by_cases cv : ∃ q ∈ L, q.2 v = true
    · obtain ⟨q', hq', hqv⟩ := cv
      rw [hin q' hq' v hqv] at e; omega
    · rw [hout v cv] at e; rw [e]

/-- Contracting minimum isolating cuts of the terminals, each without the vertices of earlier ones, keeps the optimum. -/
theorem contractIsolatingBlocks_ok (h : Ok ots p) {ord : Nat → List Nat → List Nat} (ho : IsOrder ord)
    (Q : List (Nat × List Nat)) (hts : ∀ q ∈ Q, q.1 ∈ p.spots ots) (hnd : (Q.map Prod.fst).Nodup)
    (hblk : ∀ q ∈ Q, q.2.Nodup ∧ ∀ x ∈ q.2, x < p.graph.n)
    (hcut : ∀ q ∈ Q, IsolatingCut p.graph.n p.graph.toGraph.wt (p.spots ots) q.1 (fun x => decide (x ∈ q.2))) :
    Ok ots (p.contractIsolatingBlocks ord (Q.map Prod.snd)) ∧
    (∀ c, Optimum ots p c ↔ Optimum ots (p.contractIsolatingBlocks ord (Q.map Prod.snd)) c) := by
  have hb : ∀ b ∈ Q.map Prod.snd, b.Nodup := by
    intro b hb
    obtain ⟨q, hq, rfl⟩ := List.mem_map.1 hb
    exact (hblk q hq).1
  obtain ⟨L, h1, h2, _, h4, h5, h6⟩ := isoSpec_isolating h.valid.wf.wt_symm Q [] hts hnd (by
    intro q hq
    refine (congrArg (fun S => IsolatingCut p.graph.n p.graph.toGraph.wt (p.spots ots) q.1 S) ?_).mp (hcut q hq)
    funext x
    simp)
  obtain ⟨cls, c1, c2⟩ := mergeSafe_sets h.valid.wf.wt_symm L h1 h2
  have hk := contract_ok h ho (rev := (isoBases (Q.map Prod.snd)).1) (by
      rw [isoBases_eq _ hb]
      intro c hc
      refine ⟨fun x hx => ?_, isoSpec_nodup _ _ hb c hc⟩
      obtain ⟨_, q, hq, hxq⟩ := h6 c hc x hx
      exact (hblk q hq).2 x hxq) (by rw [isoBases_eq _ hb]; exact h5) (cls := cls) (by
      rw [isoBases_eq _ hb]
      intro c hc u hu v hv
      rcases h4 c hc with rfl | ⟨q, hq, hh⟩
      · simp at hu
      · exact c2 q hq u v ((hh u).1 hu) ((hh v).1 hv)) c1
      (p' := p.contractIsolatingBlocks ord (Q.map Prod.snd)) rfl rfl rfl
  exact ⟨hk.1, hk.2.1⟩

end Problem
end VieCut
