import Verif.Model.NOI
import Verif.Proof.Contract
import Verif.Proof.BucketPQ
import Verif.Proof.NodeHeap
import Verif.Proof.Capforest

namespace VieCut
open Finset Graph

/-- Size conditions under which the selected queue represents all keys up to `B`
(32-bit bucket addresses `key + span`). -/
def PQFits (kind : PQKind) (n B : Nat) : Prop :=
  B < 2 ^ 32 ∧
  match kind with
  | .default => 2 * n < 2 ^ 32
  | .bqueue => 2 * B < 2 ^ 32
  | .heap => True
  | .bstack => 2 * B < 2 ^ 32

theorem PQFits.mono {kind : PQKind} {n n' B B' : Nat} (h : PQFits kind n B) (hn : n' ≤ n) (hB : B' ≤ B) :
    PQFits kind n' B' := by
  obtain ⟨h1, h2⟩ := h
  refine ⟨by omega, ?_⟩
  cases kind <;> simp only at h2 ⊢ <;> omega

theorem selectPQ_lawful {kind : PQKind} {limited : Bool} {G : Graph} {L : Nat}
    (h : PQFits kind G.n (if limited then L else G.maxDegree)) :
    ∃ K, Nonempty ((selectPQ kind limited G.n L G.maxDegree).toPQ.Lawful G.n K) ∧ KeyBound limited G L K := by
  generalize hB : (if limited = true then L else G.maxDegree) = B at *
  refine ⟨B, ?_, h.1, ?_⟩
  · unfold selectPQ
    rw [hB]
    simp only
    obtain ⟨h1, h2⟩ := h
    cases kind with
    | default =>
      simp only at h2 ⊢
      split
      · exact ⟨(NH.sim G.n B).lawful⟩
      · exact ⟨(FQ.sim (by omega)).lawful⟩
    | bqueue => exact ⟨(FQ.sim h2).lawful⟩
    | heap => exact ⟨(NH.sim G.n B).lawful⟩
    | bstack => exact ⟨(BQ.sim h2 false).lawful⟩
  · cases limited
    · simp only [Bool.false_eq_true, if_false] at hB ⊢; omega
    · simp only [if_true] at hB ⊢; omega

/-- Requirement on the contraction routine. -/
def ContractOK {γ : Type} [GraphLike γ] (good : γ → Prop) (c : γ → UF → γ × (Nat → Nat)) : Prop :=
  ∀ x uf, good x → uf.Inv → uf.size = (GraphLike.view x).n → good (c x uf).1 ∧
    IsContraction (GraphLike.view x) (GraphLike.view (c x uf).1) (c x uf).2 ∧
    (GraphLike.view (c x uf).1).n = uf.cnt ∧
    (∀ u v, u < (GraphLike.view x).n → v < (GraphLike.view x).n →
      ((c x uf).2 u = (c x uf).2 v ↔ uf.root u = uf.root v))

theorem cutValue_le_total {G : Graph} (hG : G.WF) (S : Nat → Bool) : cutValue G.n G.wt S ≤ G.totalWeight := by
  have h1 : G.totalWeight = ∑ u ∈ range G.n, G.deg u := by
    have := sum_filter_range G.n (fun _ => true) G.deg
    simpa [Graph.totalWeight] using this
  rw [h1]
  unfold cutValue
  refine Finset.sum_le_sum fun u _ => ?_
  rw [hG.deg_eq]
  refine Finset.sum_le_sum fun v _ => ?_
  split
  · exact le_refl _
  · exact Nat.zero_le _

theorem exists_minDegree' {G : Graph} (hn : 0 < G.n) (hb : ∀ u, u < G.n → G.deg u < 2 ^ 64) :
    ∃ u, u < G.n ∧ G.deg u = G.minDegree := by
  rcases (foldl_min_le G.deg (List.range G.n) (2 ^ 64 - 1)).2.2 with h | ⟨u, hu, h⟩
  · refine ⟨0, hn, ?_⟩
    have h1 := minDegree_le hn
    have h2 := hb 0 hn
    unfold Graph.minDegree at *
    omega
  · exact ⟨u, by simpa using hu, h.symm⟩

theorem minimumIndex_spec {G : Graph} (h : ∃ u, u < G.n ∧ G.deg u = G.minDegree) :
    minimumIndex G < G.n ∧ G.deg (minimumIndex G) = G.minDegree := by
  obtain ⟨u, hu, hd⟩ := h
  unfold minimumIndex
  cases hf : (List.range G.n).find? (fun v => G.deg v == G.minDegree) with
  | none =>
    rw [List.find?_eq_none] at hf
    have := hf u (by simpa using hu)
    simp [hd] at this
  | some v =>
    have h1 := List.find?_some hf
    have h2 := List.mem_of_find?_eq_some hf
    simp only [Option.getD_some]
    exact ⟨by simpa using h2, by simpa using h1⟩

/-- Invariant of the NOI loop for input graph `G`. -/
structure NOIInv {γ : Type} [GraphLike γ] (good : γ → Prop) (G : Graph) (save : Bool) (s : NOIState γ) : Prop where
  ok : good s.cur
  wf : s.view.WF
  lt : ∀ u, u < G.n → coarseID s.maps u < s.view.n
  surj : ∀ p, p < s.view.n → ∃ u, u < G.n ∧ coarseID s.maps u = p
  cut : ∀ T, cutValue s.view.n s.view.wt T = cutValue G.n G.wt (fun x => T (coarseID s.maps x))
  mindeg : 2 ≤ s.view.n → ∀ u, u < s.view.n → s.mincut ≤ s.view.deg u
  sat : ∀ S, cutValue G.n G.wt S < s.mincut → ∀ u v, u < G.n → v < G.n →
    coarseID s.maps u = coarseID s.maps v → S u = S v
  attained : ∃ S, ProperCut G.n S ∧ cutValue G.n G.wt S = s.mincut
  flags : save = true → ProperCut G.n s.inCut ∧ cutValue G.n G.wt s.inCut = s.mincut
  le : s.mincut ≤ G.minDegree

theorem decide_eq_beq (a : Nat) : (fun x : Nat => decide (x = a)) = (fun x => x == a) := by
  funext x; rfl

variable {γ : Type} [GraphLike γ] {good : γ → Prop}

theorem NOIInv.init {x : γ} (hx : good x) {G : Graph} (hGx : GraphLike.view x = G) (hG : G.WF) (hn : 2 ≤ G.n)
    (hb : G.totalWeight < 2 ^ 64) (save : Bool)
    (inCut0 : Nat → Bool) : NOIInv good G save (noiInit save x inCut0) := by
  subst hGx
  obtain ⟨hi1, hi2⟩ := minimumIndex_spec (exists_minDegree (by omega) hb)
  refine ⟨hx, hG, fun u hu => hu, fun p hp => ⟨p, hp, rfl⟩, fun T => rfl, fun _ u hu => minDegree_le hu, ?_, ?_, ?_,
    le_refl _⟩
  · intro S _ u v _ _ h
    have : u = v := h
    rw [this]
  · exact ⟨_, properCut_singleton hn hi1, by rw [hG.cut_singleton hi1, hi2]; rfl⟩
  · intro hs
    simp only [noiInit, hs, if_true]
    rw [decide_eq_beq]
    exact ⟨properCut_singleton hn hi1, by rw [hG.cut_singleton hi1, hi2]⟩

theorem NOIInv.deg_le {G : Graph} (hG : G.WF) {save : Bool} {s : NOIState γ} (h : NOIInv good G save s) {u : Nat}
    (hu : u < s.view.n) : s.view.deg u ≤ G.totalWeight := by
  rw [← h.wf.cut_singleton hu, h.cut]
  exact cutValue_le_total hG _

theorem coarseID_snoc (maps : List (Nat → Nat)) (φ : Nat → Nat) (u : Nat) :
    coarseID (maps ++ [φ]) u = φ (coarseID maps u) := by
  simp [coarseID]

/-- Conditions on the configuration that make every level's queue large enough. -/
def CfgFits (cfg : NOICfg) (G : Graph) : Prop :=
  PQFits cfg.kind G.n (if cfg.limited then G.minDegree else G.totalWeight)

theorem NOIInv.le_n {G : Graph} {save : Bool} {s : NOIState γ} (h : NOIInv good G save s) : s.view.n ≤ G.n := by
  have : range s.view.n ⊆ (range G.n).image (coarseID s.maps) := by
    intro p hp
    obtain ⟨u, hu, he⟩ := h.surj p (mem_range.1 hp)
    exact mem_image.2 ⟨u, mem_range.2 hu, he⟩
  have h1 := card_le_card this
  have h2 := card_image_le (s := range G.n) (f := coarseID s.maps)
  simp at h1 h2
  omega

theorem maxDegree_le {G : Graph} {B : Nat} (h : ∀ u, u < G.n → G.deg u ≤ B) : G.maxDegree ≤ B := by
  have : ∀ (l : List Nat) (m : Nat), (∀ u ∈ l, G.deg u ≤ B) → m ≤ B →
      l.foldl (fun m u => if G.deg u > m then G.deg u else m) m ≤ B := by
    intro l
    induction l with
    | nil => intro m _ hm; exact hm
    | cons a l ih =>
      intro m hl hm
      refine ih _ (fun u hu => hl u (by simp [hu])) ?_
      simp only
      split
      · exact hl a (by simp)
      · exact hm
  exact this _ 0 (fun u hu => h u (by simpa using hu)) (Nat.zero_le _)

theorem NOIInv.fits {G : Graph} (hG : G.WF) {cfg : NOICfg} (hf : CfgFits cfg G) {s : NOIState γ}
    (h : NOIInv good G cfg.save s) :
    PQFits cfg.kind s.view.n (if cfg.limited then s.mincut else s.view.maxDegree) := by
  refine hf.mono h.le_n ?_
  cases cfg.limited
  · simp only [Bool.false_eq_true, if_false]
    exact maxDegree_le fun u hu => h.deg_le hG hu
  · simp only [if_true]; exact h.le

/-- Contracting classes that no cut lighter than the bound separates. -/
theorem NOIInv.coarsen {G : Graph} (hG : G.WF) (hb : G.totalWeight < 2 ^ 64) {save : Bool}
    {c : γ → UF → γ × (Nat → Nat)} (hc : ContractOK good c) {uf : UF}
    {s : NOIState γ} (h : NOIInv good G save s) (hi : uf.Inv) (hsz : uf.size = s.view.n)
    (hsafe : ∀ {a b}, uf.root a = uf.root b → Safe s.view s.mincut a b) :
    NOIInv good G save (coarsen save c uf s) ∧ (VieCut.coarsen save c uf s).view.n = uf.cnt := by
  unfold VieCut.coarsen
  obtain ⟨k0, k1, k2, k3⟩ := hc s.cur uf h.ok hi hsz
  rcases hH : c s.cur uf with ⟨y, φ⟩
  rw [hH] at k0 k1 k2 k3
  simp only [NOIState.view] at k0 k1 k2 k3 ⊢
  set H := GraphLike.view y with hHy
  have hcid := coarseID_snoc s.maps φ
  have hcut : ∀ T, cutValue H.n H.wt T = cutValue G.n G.wt (fun x => T (coarseID (s.maps ++ [φ]) x)) := by
    intro T
    rw [cutValue_quotient k1.lt k1.wt T, h.cut]
    simp only [hcid]
  have hlt : ∀ u, u < G.n → coarseID (s.maps ++ [φ]) u < H.n := by
    intro u hu; rw [hcid]; exact k1.lt _ (h.lt u hu)
  have hsurj : ∀ p, p < H.n → ∃ u, u < G.n ∧ coarseID (s.maps ++ [φ]) u = p := by
    intro p hp
    obtain ⟨q, hq, rfl⟩ := k1.surj p hp
    obtain ⟨u, hu, rfl⟩ := h.surj q hq
    exact ⟨u, hu, hcid u⟩
  have hdeg : ∀ u, u < H.n → H.deg u ≤ G.totalWeight := by
    intro u hu
    rw [← k1.wf.cut_singleton hu, hcut]
    exact cutValue_le_total hG _
  have hsat : ∀ S, cutValue G.n G.wt S < s.mincut → ∀ u v, u < G.n → v < G.n →
      coarseID (s.maps ++ [φ]) u = coarseID (s.maps ++ [φ]) v → S u = S v := by
    intro S hS u v hu hv he
    rw [hcid, hcid, k3 _ _ (h.lt u hu) (h.lt v hv)] at he
    -- pull `S` back to the current graph
    classical
    choose! rep hrep1 hrep2 using h.surj
    have hSrep : ∀ x, x < G.n → S (rep (coarseID s.maps x)) = S x := by
      intro x hx
      exact h.sat S hS _ _ (hrep1 _ (h.lt x hx)) hx (hrep2 _ (h.lt x hx))
    have hTcut : cutValue s.view.n s.view.wt (fun p => S (rep p)) = cutValue G.n G.wt S := by
      rw [h.cut]
      exact cutValue_congr (fun x hx => hSrep x hx)
    by_contra hne
    have := hsafe he (fun p => S (rep p)) (by rw [hSrep u hu, hSrep v hv]; exact hne)
    rw [hTcut] at this
    omega
  refine ⟨?_, k2⟩
  by_cases hHn : H.n > 1
  · have hmi := minimumIndex_spec (exists_minDegree' (by omega) (fun u hu => lt_of_le_of_lt (hdeg u hu) hb))
    have hsing : ProperCut G.n (fun x => decide (coarseID (s.maps ++ [φ]) x = minimumIndex H)) ∧
        cutValue G.n G.wt (fun x => decide (coarseID (s.maps ++ [φ]) x = minimumIndex H)) = H.minDegree := by
      constructor
      · obtain ⟨⟨p, hp, hp'⟩, ⟨q, hq, hq'⟩⟩ := properCut_singleton (G := H) (by omega) hmi.1
        obtain ⟨u, hu, rfl⟩ := hsurj p hp
        obtain ⟨v, hv, rfl⟩ := hsurj q hq
        exact ⟨⟨u, hu, hp'⟩, ⟨v, hv, hq'⟩⟩
      · rw [← hmi.2, ← k1.wf.cut_singleton hmi.1, hcut]
        rfl
    simp only [updateCut, if_pos hHn]
    refine ⟨k0, k1.wf, hlt, hsurj, hcut, ?_, ?_, ?_, ?_, ?_⟩
    · intro _ u hu
      simp only
      exact le_trans (min_le_right _ _) (minDegree_le hu)
    · intro S hS
      exact hsat S (lt_of_lt_of_le hS (min_le_left _ _))
    · simp only
      by_cases hlt' : H.minDegree < s.mincut
      · rw [min_eq_right (by omega)]; exact ⟨_, hsing⟩
      · rw [min_eq_left (by omega)]; exact h.attained
    · intro hs
      simp only [hs, if_true]
      by_cases hlt' : H.minDegree < s.mincut
      · rw [if_pos hlt', min_eq_right (by omega)]; exact hsing
      · rw [if_neg hlt', min_eq_left (by omega)]; exact h.flags hs
    · exact le_trans (min_le_left _ _) h.le
  · simp only [updateCut, if_neg hHn, ite_self]
    exact ⟨k0, k1.wf, hlt, hsurj, hcut, fun h2 => absurd h2 (by show ¬ 2 ≤ H.n; omega), hsat, h.attained, h.flags, h.le⟩

theorem NOIInv.step {G : Graph} (hG : G.WF) (hb : G.totalWeight < 2 ^ 64) {cfg : NOICfg}
    (hf : CfgFits cfg G) {c : Nat → γ → UF → γ × (Nat → Nat)} (hc : ∀ l, ContractOK good (c l)) {lvl : Nat}
    {s : NOIState γ} (h : NOIInv good G cfg.save s) (hn : 2 < s.view.n) (hm : 0 < s.mincut) :
    NOIInv good G cfg.save (noiStep cfg c lvl s) ∧ (noiStep cfg c lvl s).view.n < s.view.n := by
  obtain ⟨K, ⟨lp⟩, hK⟩ := selectPQ_lawful (h.fits hG hf)
  have hstart : cfg.rnd lvl % s.view.n < s.view.n := Nat.mod_lt _ (by omega)
  have hsafe := @capforest_safe _ _ _ cfg.limited s.mincut (cfg.rnd lvl % s.view.n) lp h.wf hK hstart
  have hinv := @capforest_inv _ _ _ cfg.limited s.mincut (cfg.rnd lvl % s.view.n) lp h.wf hK hstart
  have hprog := @capforest_progress _ _ _ cfg.limited s.mincut (cfg.rnd lvl % s.view.n) lp h.wf hK hstart hm
    (h.mindeg (by omega))
  obtain ⟨k1, k2⟩ := h.coarsen hG hb (hc lvl) hinv.1 hinv.2 hsafe
  exact ⟨k1, lt_of_eq_of_lt k2 hprog⟩

theorem NOIInv.loop {G : Graph} (hG : G.WF) (hb : G.totalWeight < 2 ^ 64) {cfg : NOICfg}
    (hf : CfgFits cfg G) {c : Nat → γ → UF → γ × (Nat → Nat)} (hc : ∀ l, ContractOK good (c l)) (f : Nat) :
    ∀ (lvl : Nat) (s : NOIState γ), NOIInv good G cfg.save s → s.view.n ≤ f →
    NOIInv good G cfg.save (noiLoop cfg c f lvl s) ∧
    ¬ ((noiLoop cfg c f lvl s).view.n > 2 ∧ (noiLoop cfg c f lvl s).mincut > 0) := by
  induction f with
  | zero => intro lvl s h hs; exact ⟨h, by simp only [noiLoop]; omega⟩
  | succ f ih =>
    intro lvl s h hs
    unfold noiLoop
    by_cases hcond : s.view.n > 2 ∧ s.mincut > 0
    · rw [if_pos hcond]
      obtain ⟨h1, h2⟩ := h.step hG hb hf hc (lvl := lvl) hcond.1 hcond.2
      exact ih _ _ h1 (by omega)
    · rw [if_neg hcond]; exact ⟨h, hcond⟩

theorem NOIInv.final {G : Graph} {save : Bool} {s : NOIState γ} (h : NOIInv good G save s)
    (hend : ¬ (s.view.n > 2 ∧ s.mincut > 0)) : IsMinCut G.n G.wt s.mincut := by
  refine ⟨h.attained, ?_⟩
  intro S hS
  by_contra hlt
  have hsat := h.sat S (by omega)
  have hle2 : s.view.n ≤ 2 := by omega
  obtain ⟨⟨u, hu, hSu⟩, ⟨v, hv, hSv⟩⟩ := hS
  have hne : coarseID s.maps u ≠ coarseID s.maps v := by
    intro he
    have := hsat u v hu hv he
    rw [hSu, hSv] at this; simp at this
  have hn2 : s.view.n = 2 := by
    have h1 := h.lt u hu
    have h2 := h.lt v hv
    omega
  -- `S` is the pull-back of the singleton of `u`'s class
  have hEq : cutValue G.n G.wt S = s.view.deg (coarseID s.maps u) := by
    rw [← h.wf.cut_singleton (h.lt u hu), h.cut]
    refine cutValue_congr fun x hx => ?_
    by_cases hxu : coarseID s.maps x = coarseID s.maps u
    · rw [hsat x u hx hu hxu, hSu]; simp [hxu]
    · have hxv : coarseID s.maps x = coarseID s.maps v := by
        have h1 := h.lt u hu
        have h2 := h.lt v hv
        have h3 := h.lt x hx
        omega
      rw [hsat x v hx hv hxv, hSv]; simp [hxu]
  have := h.mindeg (by omega) _ (h.lt u hu)
  omega

theorem fromUnionFind_ok {ord : Nat → List Nat → List Nat} (ho : IsOrder ord) :
    ContractOK Graph.WF (fun H uf => fromUnionFind H uf ord) :=
  fun _ _ hG hu hs =>
    have h := fromUnionFind_spec hG hu hs ord ho
    ⟨h.1.wf, h⟩

end VieCut
