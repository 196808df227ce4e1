import Verif.Model.Terminals
import Verif.Spec.Terminals
import Verif.Proof.Cut
import Mathlib.Data.Finset.Card

/-!
# Distant terminals
-/

namespace VieCut
namespace Terminals
open Function

/-- `v` can be reached from a vertex of `S`. -/
def ReachFrom (G : Graph) (S : List Nat) (v : Nat) : Prop := ∃ s ∈ S, ∃ k, Walk G s v k

theorem exists_dist {G : Graph} {S : List Nat} {v : Nat} (h : ReachFrom G S v) : ∃ d, IsDistFrom G S v d := by
  classical
  have hex : ∃ k, ∃ s ∈ S, Walk G s v k := by
    obtain ⟨s, hs, k, hk⟩ := h
    exact ⟨k, s, hs, hk⟩
  exact ⟨Nat.find hex, Nat.find_spec hex, fun s hs k hk => Nat.find_min' hex ⟨s, hs, hk⟩⟩

theorem IsDistFrom.unique {G : Graph} {S : List Nat} {v d d' : Nat} (h : IsDistFrom G S v d) (h' : IsDistFrom G S v d') : d = d' := by
  obtain ⟨⟨s, hs, hw⟩, h1⟩ := h
  obtain ⟨⟨s', hs', hw'⟩, h1'⟩ := h'
  exact Nat.le_antisymm (h1 s' hs' _ hw') (h1' s hs _ hw)

theorem walk_lt {G : Graph} (hG : G.WF) {s v k : Nat} (hs : s < G.n) (h : Walk G s v k) : v < G.n := by
  induction h with
  | nil => exact hs
  | snoc _ hv _ =>
    obtain ⟨e, he, rfl⟩ := List.mem_map.1 hv
    exact hG.tgt_lt _ e he

/-- A function with the distances from `S`. -/
structure Dists (G : Graph) (S : List Nat) (δ : Nat → Nat) : Prop where
  dist : ∀ v, ReachFrom G S v → IsDistFrom G S v (δ v)

theorem exists_dists (G : Graph) (S : List Nat) : ∃ δ, Dists G S δ := by
  classical
  refine ⟨fun v => if h : ReachFrom G S v then (exists_dist h).choose else 0, ⟨fun v h => ?_⟩⟩
  rw [dif_pos h]
  exact (exists_dist h).choose_spec

theorem reach_start {G : Graph} {S : List Nat} {v : Nat} (h : v ∈ S) : ReachFrom G S v := ⟨v, h, 0, .nil⟩

theorem reach_edge {G : Graph} {S : List Nat} {u v : Nat} (h : ReachFrom G S u) (he : v ∈ (G.edges u).map (·.1)) : ReachFrom G S v := by
  obtain ⟨s, hs, k, hk⟩ := h
  exact ⟨s, hs, k + 1, hk.snoc he⟩

theorem Dists.zero {G : Graph} {S : List Nat} {δ : Nat → Nat} (h : Dists G S δ) {v : Nat} (hv : v ∈ S) : δ v = 0 :=
  Nat.le_zero.1 ((h.dist v (reach_start hv)).2 v hv 0 .nil)

theorem Dists.edge {G : Graph} {S : List Nat} {δ : Nat → Nat} (h : Dists G S δ) {u v : Nat} (hu : ReachFrom G S u)
    (he : v ∈ (G.edges u).map (·.1)) : δ v ≤ δ u + 1 := by
  obtain ⟨⟨s, hs, hw⟩, _⟩ := h.dist u hu
  exact (h.dist v (reach_edge hu he)).2 s hs _ (hw.snoc he)

theorem Dists.pred {G : Graph} {S : List Nat} {δ : Nat → Nat} (h : Dists G S δ) {v : Nat} (hv : ReachFrom G S v) :
    v ∈ S ∨ ∃ u, ReachFrom G S u ∧ v ∈ (G.edges u).map (·.1) ∧ δ v = δ u + 1 := by
  obtain ⟨⟨s, hs, hw⟩, hmin⟩ := h.dist v hv
  generalize hd : δ v = d at hw hmin
  cases hw with
  | nil => exact Or.inl hs
  | @snoc u _ k hw he =>
    right
    have hu : ReachFrom G S u := ⟨s, hs, k, hw⟩
    refine ⟨u, hu, he, ?_⟩
    have h1 := h.edge hu he
    have h2 := (h.dist u hu).2 s hs _ hw
    omega

/-- The number of vertices that have not been found. -/
def unfound (n : Nat) (f : Nat → Bool) : Nat := ((Finset.range n).filter fun v => f v = false).card

theorem unfound_update {n : Nat} {f : Nat → Bool} {v : Nat} (hv : v < n) (h : f v = false) :
    unfound n (update f v true) + 1 = unfound n f := by
  unfold unfound
  rw [← Finset.card_insert_of_notMem (a := v) (by simp)]
  congr 1
  ext x
  by_cases hx : x = v
  · subst hx; simp [hv, h]
  · simp [hx, update_of_ne hx]

theorem searchFold {G : Graph} (l : List Nat) (hl : ∀ v ∈ l, v < G.n) (s : Search) :
    let s' := l.foldl searchEdge s
    s'.last = s.last ∧ (∃ added, s'.queue = s.queue ++ added ∧ (∀ v ∈ added, v ∈ l ∧ s.found v = false ∧ s'.found v = true)) ∧
      (∀ v, s'.found v = true ↔ s.found v = true ∨ v ∈ l) ∧
      (∀ v, s'.found v = true → s.found v = true ∨ v ∈ s'.queue) ∧
      s'.queue.length + unfound G.n s'.found = s.queue.length + unfound G.n s.found := by
  induction l generalizing s with
  | nil => exact ⟨rfl, ⟨[], by simp, by simp⟩, by simp, fun v hv => Or.inl hv, rfl⟩
  | cons v l ih =>
    rw [List.foldl_cons]
    have hl' : ∀ v ∈ l, v < G.n := fun y hy => hl y (List.mem_cons_of_mem _ hy)
    by_cases hf : s.found v = true
    · have e : searchEdge s v = s := by unfold searchEdge; rw [if_pos hf]
      rw [e]
      obtain ⟨a1, ⟨added, a2, a3⟩, a4, a5, a6⟩ := ih hl' s
      refine ⟨a1, ⟨added, a2, fun y hy => ⟨List.mem_cons_of_mem _ (a3 y hy).1, (a3 y hy).2⟩⟩, fun y => ?_, a5, a6⟩
      rw [a4 y, List.mem_cons]
      constructor
      · rintro (h | h)
        · exact Or.inl h
        · exact Or.inr (Or.inr h)
      · rintro (h | rfl | h)
        · exact Or.inl h
        · exact Or.inl hf
        · exact Or.inr h
    · have hf' : s.found v = false := by simpa using hf
      have e : searchEdge s v = { s with queue := s.queue ++ [v], found := update s.found v true } := by
        unfold searchEdge; rw [if_neg hf]
      rw [e]
      obtain ⟨a1, ⟨added, a2, a3⟩, a4, a5, a6⟩ := ih hl' { s with queue := s.queue ++ [v], found := update s.found v true }
      generalize l.foldl searchEdge { s with queue := s.queue ++ [v], found := update s.found v true } = s' at a1 a2 a3 a4 a5 a6
      dsimp only at a1 a2 a3 a4 a5 a6
      have hmem : ∀ y, update s.found v true y = true ↔ s.found y = true ∨ y = v := by
        intro y
        by_cases hy : y = v
        · subst hy; simp
        · rw [update_of_ne hy]; simp [hy]
      refine ⟨a1, ⟨v :: added, by rw [a2]; simp, fun y hy => ?_⟩, fun y => ?_, fun y hy => ?_, ?_⟩
      · rcases List.mem_cons.1 hy with rfl | hy
        · exact ⟨List.mem_cons_self, hf', (a4 y).2 (Or.inl (update_self _ _ _))⟩
        · obtain ⟨b1, b2, b3⟩ := a3 y hy
          refine ⟨List.mem_cons_of_mem _ b1, ?_, b3⟩
          by_cases hyv : y = v
          · rw [hyv]; exact hf'
          · rwa [update_of_ne hyv] at b2
      · rw [a4 y, hmem y, List.mem_cons]; tauto
      · rcases a5 y hy with h | h
        · rcases (hmem y).1 h with h | rfl
          · exact Or.inl h
          · right; rw [a2]; simp
        · exact Or.inr h
      · rw [a6, ← unfound_update (hl v List.mem_cons_self) hf']
        simp only [List.length_append, List.length_singleton]
        omega

/-- State at the head of the while loop. -/
structure SInv (G : Graph) (S : List Nat) (δ : Nat → Nat) (s : Search) : Prop where
  reach : ∀ v, s.found v = true → ReachFrom G S v
  start : ∀ v ∈ S, s.found v = true
  qfound : ∀ v ∈ s.queue, s.found v = true
  proc : ∀ v, s.found v = true → v ∉ s.queue → ∀ t ∈ (G.edges v).map (·.1), s.found t = true
  sorted : s.queue.Pairwise fun a b => δ a ≤ δ b
  hi : ∀ a ∈ s.queue, ∀ b ∈ s.queue, δ b ≤ δ a + 1
  lo : ∀ v, s.found v = true → v ∉ s.queue → ∀ q ∈ s.queue, δ v ≤ δ q

/-- The last vertex is one of the farthest, once a vertex has been taken. -/
def LastOk (G : Graph) (S : List Nat) (δ : Nat → Nat) (s : Search) : Prop :=
  s.found s.last = true ∧ ∀ v, s.found v = true → v ∉ s.queue → δ v ≤ δ s.last

theorem SInv.near {G : Graph} {S : List Nat} {δ : Nat → Nat} {s : Search} (hδ : Dists G S δ) (h : SInv G S δ s) {q : Nat} {qs : List Nat}
    (hq : s.queue = q :: qs) : ∀ d v, δ v = d → ReachFrom G S v → δ v ≤ δ q → s.found v = true := by
  intro d
  induction d with
  | zero =>
    intro v hd hv _
    rcases hδ.pred hv with h1 | ⟨u, _, _, h3⟩
    · exact h.start v h1
    · omega
  | succ d ih =>
    intro v hd hv hle
    rcases hδ.pred hv with h1 | ⟨u, h1, h2, h3⟩
    · exact h.start v h1
    · have hu := ih u (by omega) h1 (by omega)
      refine h.proc u hu ?_ v h2
      intro hmem
      have hs := h.sorted
      rw [hq] at hs hmem
      have : δ q ≤ δ u := by
        rcases List.mem_cons.1 hmem with rfl | hm
        · exact Nat.le_refl _
        · exact (List.pairwise_cons.1 hs).1 u hm
      omega

theorem searchStep_inv {G : Graph} (hG : G.WF) {S : List Nat} {δ : Nat → Nat} {s : Search} (hδ : Dists G S δ) (h : SInv G S δ s)
    (hl : s.queue = [] → LastOk G S δ s) :
    SInv G S δ (searchStep G s) ∧ LastOk G S δ (searchStep G s) ∧
    (s.queue = [] ∧ searchStep G s = s ∨
      (searchStep G s).queue.length + unfound G.n (searchStep G s).found + 1 = s.queue.length + unfound G.n s.found) := by
  unfold searchStep
  cases hq : s.queue with
  | nil => exact ⟨h, hl hq, Or.inl ⟨rfl, rfl⟩⟩
  | cons q qs =>
    dsimp only
    have hlt : ∀ v ∈ (G.edges q).map (·.1), v < G.n := by
      intro v hv
      obtain ⟨e, he, rfl⟩ := List.mem_map.1 hv
      exact hG.tgt_lt _ e he
    obtain ⟨a1, ⟨added, a2, a3⟩, a4, a5, a6⟩ := searchFold ((G.edges q).map (·.1)) hlt { s with queue := qs, last := q }
    generalize ((G.edges q).map (·.1)).foldl searchEdge { s with queue := qs, last := q } = s' at a1 a2 a3 a4 a5 a6
    dsimp only at a1 a2 a3 a4 a5 a6
    have hqf : s.found q = true := h.qfound q (by rw [hq]; simp)
    have hqr := h.reach q hqf
    have hnew : ∀ v ∈ added, δ v = δ q + 1 := by
      intro v hv
      obtain ⟨b1, b2, _⟩ := a3 v hv
      have h1 := hδ.edge hqr b1
      by_contra hc
      have := h.near hδ hq _ v rfl (reach_edge hqr b1) (by omega)
      rw [b2] at this; cases this
    have hs := h.sorted
    rw [hq] at hs
    have hqs : ∀ v ∈ qs, δ q ≤ δ v ∧ δ v ≤ δ q + 1 := fun v hv =>
      ⟨(List.pairwise_cons.1 hs).1 v hv, h.hi q (by rw [hq]; simp) v (by rw [hq]; exact List.mem_cons_of_mem _ hv)⟩
    have hall : ∀ v ∈ s'.queue, δ q ≤ δ v ∧ δ v ≤ δ q + 1 := by
      intro v hv
      rw [a2] at hv
      rcases List.mem_append.1 hv with hv | hv
      · exact hqs v hv
      · rw [hnew v hv]; omega
    have hproc : ∀ v, s'.found v = true → v ∉ s'.queue → s.found v = true ∧ (v = q ∨ v ∉ s.queue) := by
      intro v hv hn
      rcases a5 v hv with h1 | h1
      · refine ⟨h1, ?_⟩
        by_cases hvq : v = q
        · exact Or.inl hvq
        · right
          rw [hq, List.mem_cons]
          rintro (h2 | h2)
          · exact hvq h2
          · exact hn (by rw [a2]; exact List.mem_append_left _ h2)
      · exact absurd h1 hn
    have hlow : ∀ v, s'.found v = true → v ∉ s'.queue → δ v ≤ δ q := by
      intro v hv hn
      obtain ⟨h1, rfl | h2⟩ := hproc v hv hn
      · exact Nat.le_refl _
      · exact h.lo v h1 h2 q (by rw [hq]; simp)
    refine ⟨⟨fun v hv => ?_, fun v hv => (a4 v).2 (Or.inl (h.start v hv)), fun v hv => ?_, fun v hv hn t ht => ?_, ?_, ?_, ?_⟩, ?_, Or.inr ?_⟩
    · rcases (a4 v).1 hv with h1 | h1
      · exact h.reach v h1
      · exact reach_edge hqr h1
    · rw [a2] at hv
      rcases List.mem_append.1 hv with hv | hv
      · exact (a4 v).2 (Or.inl (h.qfound v (by rw [hq]; exact List.mem_cons_of_mem _ hv)))
      · exact (a3 v hv).2.2
    · obtain ⟨h1, rfl | h2⟩ := hproc v hv hn
      · exact (a4 t).2 (Or.inr ht)
      · exact (a4 t).2 (Or.inl (h.proc v h1 h2 t ht))
    · rw [a2, List.pairwise_append]
      refine ⟨(List.pairwise_cons.1 hs).2, ?_, fun a ha b hb => ?_⟩
      · rw [List.pairwise_iff_forall_sublist]
        intro a b hab
        have ha := hab.subset (List.mem_cons_self)
        have hb : b ∈ added := hab.subset (by simp)
        rw [hnew a ha, hnew b hb]
      · rw [hnew b hb]; exact (hqs a ha).2
    · intro a ha b hb
      have h1 := (hall a ha).1
      have h2 := (hall b hb).2
      omega
    · intro v hv hn x hx
      exact Nat.le_trans (hlow v hv hn) (hall x hx).1
    · unfold LastOk
      rw [a1]
      exact ⟨(a4 q).2 (Or.inl hqf), hlow⟩
    · rw [a6, List.length_cons]; omega

theorem searchIter {G : Graph} (hG : G.WF) {S : List Nat} {δ : Nat → Nat} (hδ : Dists G S δ) (N : Nat) {s : Search} (h : SInv G S δ s)
    (hl : s.queue = [] → LastOk G S δ s) (hN : s.queue.length + unfound G.n s.found ≤ N) :
    SInv G S δ ((searchStep G)^[N] s) ∧ LastOk G S δ ((searchStep G)^[N] s) ∧ ((searchStep G)^[N] s).queue = [] := by
  induction N generalizing s with
  | zero =>
    have hq : s.queue = [] := List.eq_nil_of_length_eq_zero (by omega)
    exact ⟨h, hl hq, hq⟩
  | succ N ih =>
    rw [iterate_succ_apply]
    obtain ⟨a1, a2, a3⟩ := searchStep_inv hG hδ h hl
    rcases a3 with ⟨h1, h2⟩ | h1
    · rw [h2, iterate_fixed h2]
      exact ⟨h, hl h1, h1⟩
    · exact ih a1 (fun _ => a2) (by omega)

theorem search_end {G : Graph} (hG : G.WF) {S : List Nat} (hS : S ≠ []) {δ : Nat → Nat} (hδ : Dists G S δ) {N : Nat} (hN : G.n + S.length ≤ N) :
    SInv G S δ ((searchStep G)^[N] (searchInit S)) ∧ LastOk G S δ ((searchStep G)^[N] (searchInit S)) ∧
      ((searchStep G)^[N] (searchInit S)).queue = [] := by
  refine searchIter hG hδ N ?_ (fun h => absurd h hS) ?_
  · have hf : ∀ v, (searchInit S).found v = true ↔ v ∈ S := fun v => decide_eq_true_iff
    have hz : ∀ v ∈ S, δ v = 0 := fun v hv => hδ.zero hv
    refine ⟨fun v hv => reach_start ((hf v).1 hv), fun v hv => (hf v).2 hv, fun v hv => (hf v).2 hv,
      fun v hv hn => absurd ((hf v).1 hv) hn, ?_, fun a ha b hb => ?_, fun v hv hn => absurd ((hf v).1 hv) hn⟩
    · rw [List.pairwise_iff_forall_sublist]
      intro a b hab
      rw [hz a (hab.subset (by simp))]
      exact Nat.zero_le _
    · rw [hz b hb]; exact Nat.zero_le _
  · have : unfound G.n (searchInit S).found ≤ G.n := by
      unfold unfound
      refine Nat.le_trans (Finset.card_filter_le _ _) ?_
      rw [Finset.card_range]
    show S.length + _ ≤ N
    omega

theorem farthest_spec {G : Graph} (hG : G.WF) {S : List Nat} (hS : S ≠ []) :
    ∃ d, IsDistFrom G S (farthest G S) d ∧ ∀ v d', IsDistFrom G S v d' → d' ≤ d := by
  obtain ⟨δ, hδ⟩ := exists_dists G S
  obtain ⟨h1, h2, h3⟩ := search_end hG hS hδ (Nat.le_refl (G.n + S.length))
  unfold farthest
  generalize (searchStep G)^[G.n + S.length] (searchInit S) = s at h1 h2 h3
  refine ⟨δ s.last, hδ.dist _ (h1.reach _ h2.1), fun v d' hd => ?_⟩
  have hr : ReachFrom G S v := by
    obtain ⟨⟨x, hx, hw⟩, _⟩ := hd
    exact ⟨x, hx, _, hw⟩
  have hf : ∀ x ∈ S, ∀ v k, Walk G x v k → s.found v = true := by
    intro x hx v k hk
    induction hk with
    | nil => exact h1.start x hx
    | snoc hw hv ih => exact h1.proc _ ih (by rw [h3]; simp) _ hv
  have he := IsDistFrom.unique (hδ.dist v hr) hd
  rw [← he]
  obtain ⟨x, hx, k, hk⟩ := hr
  exact h2.2 v (hf x hx v k hk) (by rw [h3]; simp)

theorem distant_succ (G : Graph) (r k : Nat) : distant G r (k + 1) = distant G r k ++ [farthest G (r :: distant G r k)] := by
  unfold distant
  rw [List.range_succ, List.foldl_append]
  rfl

theorem distant_length (G : Graph) (r k : Nat) : (distant G r k).length = k := by
  induction k with
  | zero => rfl
  | succ k ih => rw [distant_succ, List.length_append, ih]; rfl

theorem distant_get {G : Graph} {r k i : Nat} (hi : i < k) :
    (distant G r k)[i]? = some (farthest G (r :: distant G r i)) ∧ (distant G r k).take i = distant G r i := by
  induction k with
  | zero => omega
  | succ k ih =>
    rw [distant_succ]
    by_cases hik : i = k
    · subst hik
      constructor
      · rw [List.getElem?_append_right (by rw [distant_length])]; simp [distant_length]
      · rw [List.take_append_of_le_length (by rw [distant_length]), List.take_of_length_le (by rw [distant_length])]
    · obtain ⟨h1, h2⟩ := ih (by omega)
      constructor
      · rw [List.getElem?_append_left (by rw [distant_length]; omega)]; exact h1
      · rw [List.take_append_of_le_length (by rw [distant_length]; omega)]; exact h2

theorem walk_trans {G : Graph} {a b c k l : Nat} (h1 : Walk G a b k) (h2 : Walk G b c l) : Walk G a c (k + l) := by
  induction h2 with
  | nil => exact h1
  | snoc _ he ih => exact ih.snoc he

theorem distant_reach {G : Graph} (hG : G.WF) (r k : Nat) : ∀ t ∈ distant G r k, ∃ l, Walk G r t l := by
  induction k with
  | zero => intro t ht; cases ht
  | succ k ih =>
    intro t ht
    rw [distant_succ] at ht
    rcases List.mem_append.1 ht with ht | ht
    · exact ih t ht
    · rw [List.mem_singleton] at ht
      subst ht
      obtain ⟨d, ⟨⟨s, hs, hw⟩, _⟩, _⟩ := farthest_spec hG (S := r :: distant G r k) (by simp)
      rcases List.mem_cons.1 hs with rfl | hs
      · exact ⟨d, hw⟩
      · obtain ⟨l, hl⟩ := ih s hs
        exact ⟨l + d, walk_trans hl hw⟩

theorem distant_nodup {G : Graph} (hG : G.WF) (r k : Nat) (C : Finset Nat) (hC : ∀ v ∈ C, ∃ l, Walk G r v l) (hk : k < C.card) :
    (r :: distant G r k).Nodup := by
  induction k with
  | zero => exact List.nodup_singleton r
  | succ k ih =>
    have hn := ih (by omega)
    rw [distant_succ, ← List.cons_append]
    rw [List.nodup_append]
    refine ⟨hn, List.nodup_singleton _, ?_⟩
    intro a ha b hb
    rw [List.mem_singleton] at hb
    subst hb
    rintro rfl
    obtain ⟨d, hd, hmax⟩ := farthest_spec hG (S := r :: distant G r k) (by simp)
    have hd0 : d = 0 := Nat.le_zero.1 (hd.2 _ ha 0 .nil)
    subst hd0
    have hsub : C ⊆ (r :: distant G r k).toFinset := by
      intro v hv
      obtain ⟨l, hl⟩ := hC v hv
      obtain ⟨d', hd'⟩ := exists_dist (S := r :: distant G r k) ⟨r, by simp, l, hl⟩
      have := hmax v d' hd'
      have h0 : d' = 0 := by omega
      subst h0
      obtain ⟨⟨s, hs, hw⟩, _⟩ := hd'
      cases hw
      exact List.mem_toFinset.2 hs
    have h1 := Finset.card_le_card hsub
    rw [List.toFinset_card_of_nodup hn, List.length_cons, distant_length] at h1
    omega

end Terminals
end VieCut
