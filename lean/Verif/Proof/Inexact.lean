import Verif.Proof.Levels

/-! # Padberg-Rinaldi and Matula -/

namespace VieCut
open Finset Graph Function

variable {γ : Type} [GraphLike γ] {good : γ → Prop}

/-- Either the bound has reached the minimum cut `c`, or `c` is still the minimum cut of the current graph. -/
def Kept (c : Nat) (s : NOIState γ) : Prop := s.mincut ≤ c ∨ IsMinCut s.view.n s.view.wt c

theorem isMinCut_two_le {n : Nat} {w : Nat → Nat → Nat} {c : Nat} (h : IsMinCut n w c) : 2 ≤ n := by
  obtain ⟨⟨S, ⟨⟨u, hu, hu'⟩, ⟨v, hv, hv'⟩⟩, _⟩, _⟩ := h
  by_contra hlt
  have h1 : u = v := by omega
  rw [h1, hv'] at hu'
  cases hu'

/-- At most two vertices left: the bound is the minimum cut. -/
theorem LvlInv.kept_final {G : Graph} {s : NOIState γ} (h : LvlInv good G s) {c : Nat} (hc : IsMinCut G.n G.wt c)
    (hk : Kept c s) (hn : s.view.n ≤ 2) : s.mincut = c := by
  refine Nat.le_antisymm ?_ (h.ge hc)
  rcases hk with hk | hk
  · exact hk
  · have h2 := isMinCut_two_le hk
    obtain ⟨φ, hφ⟩ := h.con
    obtain ⟨⟨S, ⟨⟨u, hu, hu'⟩, ⟨v, hv, hv'⟩⟩, hS⟩, _⟩ := hk
    have hne : u ≠ v := by rintro rfl; rw [hu'] at hv'; cases hv'
    rw [← hS]
    have : cutValue s.view.n s.view.wt S = s.view.deg u := by
      rw [← hφ.wf.cut_singleton hu]
      refine cutValue_congr fun x hx => ?_
      by_cases hxu : x = u
      · simp [hxu, hu']
      · have : x = v := by omega
        simp [this, hv']
        omega
    rw [this]
    exact h.mindeg h2 u hu

/-- A contraction by a partition whose merged pairs are not separated by some minimum cut. -/
theorem Kept.push {save : Bool} {s : NOIState γ} {c : Nat} (hk : Kept c s) {r : γ × (Nat → Nat)} {φ : Nat → Nat}
    (hφ : IsContraction s.view (GraphLike.view r.1) φ) (hle : (pushLevel save s r).mincut ≤ s.mincut)
    (hS : c < s.mincut → IsMinCut s.view.n s.view.wt c → ∃ S, ProperCut s.view.n S ∧
      cutValue s.view.n s.view.wt S ≤ c ∧ ∀ u v, u < s.view.n → v < s.view.n → φ u = φ v → S u = S v) :
    Kept c (pushLevel save s r) := by
  by_cases hlt : s.mincut ≤ c
  · exact Or.inl (le_trans hle hlt)
  · rcases hk with hk | hk
    · exact absurd hk hlt
    · obtain ⟨S, h1, h2, h3⟩ := hS (by omega) hk
      exact Or.inr (hφ.isMinCut hk h1 h2 h3)

/-! ### Padberg-Rinaldi -/

theorem prStep_inv {G : Graph} (hG : G.WF) (hb : G.totalWeight < 2 ^ 64) {save : Bool}
    {c : Nat → γ → UF → γ × (Nat → Nat)} (hc : ∀ l, ContractOK good (c l)) {lvl : Nat} {s : NOIState γ}
    (h : LvlInv good G s) :
    LvlInv good G (prStep save c lvl s) ∧ (save = true → FlagInv G s → FlagInv G (prStep save c lvl s)) := by
  unfold prStep
  simp only
  obtain ⟨φ, hφ⟩ := h.con
  have i1 := prTests34_inv hφ.wf s.mincut false
  obtain ⟨a0, a1, a2, a3⟩ := hc (2 * lvl) s.cur _ h.ok i1.1 i1.2
  obtain ⟨b1, b2, b3⟩ := h.push (save := save) hG hb a0 a1
  generalize pushLevel save s (c (2 * lvl) s.cur (prTests34 s.view s.mincut false)) = s1 at *
  obtain ⟨φ1, hφ1⟩ := b1.con
  have i2 := prTests12_inv hφ1.wf s1.mincut false
  obtain ⟨c0, c1, c2, c3⟩ := hc (2 * lvl + 1) s1.cur _ b1.ok i2.1 i2.2
  obtain ⟨d1, d2, d3⟩ := b1.push (save := save) hG hb c0 c1
  exact ⟨d1, fun hs hf => d3 hs rfl (b3 hs rfl hf)⟩

theorem prLoop_inv {G : Graph} (hG : G.WF) (hb : G.totalWeight < 2 ^ 64) {save : Bool}
    {c : Nat → γ → UF → γ × (Nat → Nat)} (hc : ∀ l, ContractOK good (c l)) (f : Nat) :
    ∀ (lvl last : Nat) (s : NOIState γ), LvlInv good G s →
    LvlInv good G (prLoop save c f lvl last s) ∧
      (save = true → FlagInv G s → FlagInv G (prLoop save c f lvl last s)) := by
  induction f with
  | zero => intro lvl last s h; exact ⟨h, fun _ hf => hf⟩
  | succ f ih =>
    intro lvl last s h
    unfold prLoop
    split
    · obtain ⟨h1, h2⟩ := prStep_inv hG hb hc (save := save) (lvl := lvl) h
      obtain ⟨k1, k2⟩ := ih (lvl + 1) s.view.n _ h1
      exact ⟨k1, fun hs hf => k2 hs (h2 hs hf)⟩
    · exact ⟨h, fun _ hf => hf⟩

/-- With `last` rounds of fuel the loop ends by its own condition: more fuel changes nothing. -/
theorem prLoop_done {save : Bool} {c : Nat → γ → UF → γ × (Nat → Nat)} (f : Nat) :
    ∀ (k lvl last : Nat) (s : NOIState γ), last ≤ f →
    prLoop save c (f + k) lvl last s = prLoop save c f lvl last s := by
  induction f with
  | zero =>
    intro k lvl last s h
    cases k with
    | zero => rfl
    | succ k =>
      rw [Nat.zero_add]
      unfold prLoop
      rw [if_neg (by omega)]
  | succ f ih =>
    intro k lvl last s h
    rw [Nat.add_right_comm]
    unfold prLoop
    split
    · exact ih k (lvl + 1) s.view.n _ (by omega)
    · rfl

/-! ### Contracted graphs have no parallel edges -/

theorem sparseLoop_nodup (G : Graph) (φ : Nat → Nat) (order : Nat → List Nat → List Nat) (ho : IsOrder order)
    (rev : List (List Nat)) : ∀ (p0 : Nat) (w0 : Nat → Nat), ∀ l ∈ sparseLoop G φ order p0 rev w0, (l.map (·.1)).Nodup := by
  induction rev with
  | nil => intro p0 w0 l hl; simp [sparseLoop] at hl
  | cons m rest ih =>
    intro p0 w0 l hl
    simp only [sparseLoop, List.mem_cons] at hl
    rcases hl with rfl | hl
    · have h1 := (collect_spec φ p0 w0 (m.flatMap G.edges)).1
      have h2 : (collect G φ p0 m w0).1.Nodup := h1
      generalize collect G φ p0 m w0 = st at *
      have h3 := ((ho p0 st.1).nodup_iff).2 h2
      have h4 : (((order p0 st.1).map (fun t => (t, st.2 t))).map (·.1)).Nodup := by
        rw [List.map_map]; simpa [Function.comp_def] using h3
      exact h4.sublist (List.Sublist.map _ List.filter_sublist)
    · exact ih _ _ l hl

theorem fromUnionFind_simple (G : Graph) (uf : UF) {order : Nat → List Nat → List Nat} (ho : IsOrder order) (u : Nat) :
    (((fromUnionFind G uf order).1.edges u).map (·.1)).Nodup := by
  unfold fromUnionFind contractSparse Graph.edges
  simp only
  by_cases h : u < (sparseLoop G (fuLoop G.n uf).map order 0 (fuLoop G.n uf).rev (fun _ => 0)).length
  · rw [List.getD_eq_getElem?_getD, List.getElem?_eq_getElem h]
    exact sparseLoop_nodup _ _ _ ho _ _ _ _ (List.getElem_mem h)
  · rw [List.getD_eq_getElem?_getD, List.getElem?_eq_none (by omega)]
    simp

/-- Well-formed and without parallel edges. -/
def SimpleWF (G : Graph) : Prop := G.WF ∧ ∀ u, u < G.n → ((G.edges u).map (·.1)).Nodup

theorem fromUnionFind_ok_simple {ord : Nat → List Nat → List Nat} (ho : IsOrder ord) :
    ContractOK SimpleWF (fun H uf => fromUnionFind H uf ord) := by
  intro G uf hG hu hs
  have h := fromUnionFind_spec hG.1 hu hs ord ho
  exact ⟨⟨h.1.wf, fun u _ => fromUnionFind_simple G uf ho u⟩, h⟩

/-! ### Padberg-Rinaldi keeps the minimum cut -/

theorem pushLevel_le (save : Bool) (s : NOIState γ) (r : γ × (Nat → Nat)) :
    (pushLevel save s r).mincut ≤ s.mincut := by
  unfold pushLevel updateCut
  simp only
  split
  · exact min_le_left _ _
  · exact le_refl _

theorem kept_pr12 {save : Bool} {G : Graph} (hG : G.WF) (hb : G.totalWeight < 2 ^ 32) {s : NOIState γ}
    (h : LvlInv good G s) {c : Nat} (hk : Kept c s) {r : γ × (Nat → Nat)}
    (hφ : IsContraction s.view (GraphLike.view r.1) r.2)
    (hker : ∀ u v, u < s.view.n → v < s.view.n → (r.2 u = r.2 v ↔
      (prTests12 s.view s.mincut false).root u = (prTests12 s.view s.mincut false).root v)) :
    Kept c (pushLevel save s r) := by
  refine hk.push hφ (pushLevel_le _ _ _) ?_
  intro hlt hmin
  obtain ⟨ψ, hψ⟩ := h.con
  obtain ⟨⟨S, h1, h2⟩, h3⟩ := id hmin
  refine ⟨S, h1, le_of_eq h2, ?_⟩
  intro u v hu hv he
  exact prTests12_spec hψ.wf (fun u hu => lt_of_le_of_lt (hψ.deg_le hG hu) hb) h1
    (fun T hT => by rw [h2]; exact h3 T hT) (by omega) (Or.inr (h.mindeg (isMinCut_two_le hmin))) u v
    ((hker u v hu hv).1 he)

theorem kept_pr34 {save : Bool} {G : Graph} {s : NOIState γ} (h : LvlInv good G s)
    (hsim : ∀ u, u < s.view.n → ((s.view.edges u).map (·.1)).Nodup) {c : Nat} (hk : Kept c s) {r : γ × (Nat → Nat)}
    (hφ : IsContraction s.view (GraphLike.view r.1) r.2)
    (hker : ∀ u v, u < s.view.n → v < s.view.n → (r.2 u = r.2 v ↔
      (prTests34 s.view s.mincut false).root u = (prTests34 s.view s.mincut false).root v)) :
    Kept c (pushLevel save s r) := by
  refine hk.push hφ (pushLevel_le _ _ _) ?_
  intro hlt hmin
  obtain ⟨ψ, hψ⟩ := h.con
  obtain ⟨⟨S, h1, h2⟩, h3⟩ := id hmin
  obtain ⟨⟨T, t1, t2, t3⟩, _⟩ := PRClosed.prTests34 hψ.wf (Or.inl hsim)
    (prClosed_one hψ.wf (h.mindeg (isMinCut_two_le hmin)) ⟨S, h1, le_of_eq h2⟩ hlt)
  exact ⟨T, t1, t2, fun u v hu hv he => t3 u v ((hker u v hu hv).1 he)⟩

theorem prStep_kept {G : Graph} (hG : G.WF) (hb : G.totalWeight < 2 ^ 32) {save : Bool}
    (hgood : ∀ x, good x → ∀ u, u < (GraphLike.view x).n → (((GraphLike.view x).edges u).map (·.1)).Nodup)
    {c : Nat → γ → UF → γ × (Nat → Nat)} (hc : ∀ l, ContractOK good (c l)) {lvl : Nat} {s : NOIState γ}
    (h : LvlInv good G s) {k : Nat} (hk : Kept k s) : Kept k (prStep save c lvl s) := by
  unfold prStep
  simp only
  obtain ⟨φ, hφ⟩ := h.con
  have i1 := prTests34_inv hφ.wf s.mincut false
  obtain ⟨a0, a1, a2, a3⟩ := hc (2 * lvl) s.cur _ h.ok i1.1 i1.2
  obtain ⟨b1, b2, b3⟩ := h.push (save := save) hG (by omega) a0 a1
  have k1 := kept_pr34 (save := save) h (hgood _ h.ok) hk a1 a3
  generalize pushLevel save s (c (2 * lvl) s.cur (prTests34 s.view s.mincut false)) = s1 at *
  obtain ⟨φ1, hφ1⟩ := b1.con
  have i2 := prTests12_inv hφ1.wf s1.mincut false
  obtain ⟨c0, c1, c2, c3⟩ := hc (2 * lvl + 1) s1.cur _ b1.ok i2.1 i2.2
  exact kept_pr12 hG hb b1 k1 c1 c3

theorem prLoop_kept {G : Graph} (hG : G.WF) (hb : G.totalWeight < 2 ^ 32) {save : Bool}
    (hgood : ∀ x, good x → ∀ u, u < (GraphLike.view x).n → (((GraphLike.view x).edges u).map (·.1)).Nodup)
    {c : Nat → γ → UF → γ × (Nat → Nat)} (hc : ∀ l, ContractOK good (c l)) {k : Nat} (f : Nat) :
    ∀ (lvl last : Nat) (s : NOIState γ), LvlInv good G s → Kept k s → Kept k (prLoop save c f lvl last s) := by
  induction f with
  | zero => intro lvl last s _ hk; exact hk
  | succ f ih =>
    intro lvl last s h hk
    unfold prLoop
    split
    · exact ih _ _ _ (prStep_inv hG (by omega) hc h).1 (prStep_kept hG hb hgood hc h hk)
    · exact hk

/-! ### Matula -/

theorem matulaStep_inv {G : Graph} (hG : G.WF) (hb : G.totalWeight < 2 ^ 64) {cfg : NOICfg} (hf : CfgFits cfg G)
    {c : Nat → γ → UF → γ × (Nat → Nat)} (hc : ∀ l, ContractOK good (c l)) {lvl : Nat} {s : NOIState γ}
    (h : LvlInv good G s) (hn : 2 < s.view.n) (hm : 0 < s.mincut) :
    LvlInv good G (matulaStep cfg c lvl s) ∧ (matulaStep cfg c lvl s).view.n < s.view.n ∧
    (cfg.save = true → FlagInv G s → FlagInv G (matulaStep cfg c lvl s)) ∧
    ∀ k, k < max (s.mincut / 2) 1 → Kept k s → Kept k (matulaStep cfg c lvl s) := by
  obtain ⟨φ, hφ⟩ := h.con
  have hB : max (s.mincut / 2) 1 ≤ s.mincut := max_le (Nat.div_le_self _ _) hm
  have hfit : PQFits cfg.kind s.view.n (if cfg.limited then max (s.mincut / 2) 1 else s.view.maxDegree) := by
    refine hf.mono hφ.le_n ?_
    cases cfg.limited
    · simp only [Bool.false_eq_true, if_false]
      exact maxDegree_le fun u hu => hφ.deg_le hG hu
    · simp only [if_true]; exact le_trans hB h.le
  obtain ⟨K, ⟨lp⟩, hK⟩ := selectPQ_lawful hfit
  have hstart : cfg.rnd lvl % s.view.n < s.view.n := Nat.mod_lt _ (by omega)
  have hsafe := @capforest_safe _ _ _ cfg.limited (max (s.mincut / 2) 1) (cfg.rnd lvl % s.view.n) lp hφ.wf hK hstart
  have hinv := @capforest_inv _ _ _ cfg.limited (max (s.mincut / 2) 1) (cfg.rnd lvl % s.view.n) lp hφ.wf hK hstart
  have hprog := @capforest_progress _ _ _ cfg.limited (max (s.mincut / 2) 1) (cfg.rnd lvl % s.view.n) lp hφ.wf hK hstart
    (by omega) (fun u hu => le_trans hB (h.mindeg (by omega) u hu))
  unfold matulaStep
  simp only
  generalize capforest (selectPQ cfg.kind cfg.limited s.view.n (max (s.mincut / 2) 1) s.view.maxDegree).toPQ cfg.limited
    s.view (max (s.mincut / 2) 1) (cfg.rnd lvl % s.view.n) = uf at *
  obtain ⟨k0, k1, k2, k3⟩ := hc lvl s.cur uf h.ok hinv.1 hinv.2
  obtain ⟨b1, b2, b3⟩ := h.push (save := cfg.save) hG hb k0 k1
  refine ⟨b1, ?_, fun hs hf => b3 hs rfl hf, ?_⟩
  · show (GraphLike.view (c lvl s.cur uf).1).n < s.view.n
    rw [k2]; exact hprog
  · intro k hkb hk
    refine hk.push k1 (pushLevel_le _ _ _) ?_
    rintro _ ⟨⟨S, h1, h2⟩, h3⟩
    refine ⟨S, h1, le_of_eq h2, ?_⟩
    intro u v hu hv he
    by_contra hne
    have := hsafe ((k3 u v hu hv).1 he) S hne
    omega

theorem matulaLoop_inv {G : Graph} (hG : G.WF) (hb : G.totalWeight < 2 ^ 64) {cfg : NOICfg} (hf : CfgFits cfg G)
    {c : Nat → γ → UF → γ × (Nat → Nat)} (hc : ∀ l, ContractOK good (c l)) (f : Nat) :
    ∀ (lvl : Nat) (s : NOIState γ), LvlInv good G s → s.view.n ≤ f →
    LvlInv good G (matulaLoop cfg c f lvl s) ∧
    (cfg.save = true → FlagInv G s → FlagInv G (matulaLoop cfg c f lvl s)) ∧
    ¬ ((matulaLoop cfg c f lvl s).view.n > 2 ∧ (matulaLoop cfg c f lvl s).mincut > 0) ∧
    ∀ k, Kept k s → (0 < k ∧ (matulaLoop cfg c f lvl s).mincut ≤ 2 * k + 1) ∨ Kept k (matulaLoop cfg c f lvl s) := by
  induction f with
  | zero => intro lvl s h hs; exact ⟨h, fun _ hf => hf, by simp only [matulaLoop]; omega, fun k hk => Or.inr hk⟩
  | succ f ih =>
    intro lvl s h hs
    unfold matulaLoop
    by_cases hcond : s.view.n > 2 ∧ s.mincut > 0
    · rw [if_pos hcond]
      obtain ⟨h1, h2, h3, h4⟩ := matulaStep_inv hG hb hf hc (lvl := lvl) h hcond.1 hcond.2
      obtain ⟨a1, a2, a3, a4⟩ := ih (lvl + 1) _ h1 (by omega)
      refine ⟨a1, fun hs hf => a2 hs (h3 hs hf), a3, ?_⟩
      intro k hk
      by_cases hkb : k < max (s.mincut / 2) 1
      · exact a4 k (h4 k hkb hk)
      · left
        have : s.mincut ≤ 2 * k + 1 := by
          have := le_max_left (s.mincut / 2) 1
          omega
        refine ⟨by have := le_max_right (s.mincut / 2) 1; omega, le_trans ?_ this⟩
        -- the bound never grows
        have hmono : ∀ f lvl (s : NOIState γ), (matulaLoop cfg c f lvl s).mincut ≤ s.mincut := by
          intro f
          induction f with
          | zero => intro lvl s; exact le_refl _
          | succ f ih =>
            intro lvl s
            unfold matulaLoop
            split
            · exact le_trans (ih _ _) (pushLevel_le _ _ _)
            · exact le_refl _
        exact le_trans (hmono _ _ _) (pushLevel_le _ _ _)
    · rw [if_neg hcond]; exact ⟨h, fun _ hf => hf, hcond, fun k hk => Or.inr hk⟩

end VieCut
