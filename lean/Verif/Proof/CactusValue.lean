import Verif.Proof.CactusLocations

/-!
# The value returned by `findAllMincuts`
-/

namespace VieCut
namespace Cactus
open Function Finset

variable {γ : Type} [GraphLike γ]

theorem kernelInit_inv {good : γ → Prop} {G : Graph} (hG : G.WF) (hn : 2 ≤ G.n) (hb : G.totalWeight < 2 ^ 64) {x : γ} (hx : good x)
    (hGx : GraphLike.view x = G) {m : Nat} (hm : ∃ S, ProperCut G.n S ∧ cutValue G.n G.wt S = m) (hmd : m ≤ G.minDegree) (c : Nat)
    (save : Bool) (inCut0 : Nat → Bool) : KInv good G c (kernelInit save x inCut0 m) := by
  have h := (LvlInv.init (good := good) hx hGx hG hn hb save inCut0).1
  have hv : (kernelInit save x inCut0 m).lv.view = G := hGx
  refine ⟨⟨hx, h.con, ?_, hm, hmd⟩, hv, by simp [kernelInit], by simp [kernelInit], by simp [kernelInit]⟩
  intro _ u hu
  rw [hv] at hu ⊢
  exact le_trans hmd (Graph.minDegree_le hu)

theorem contractIf_le (save : Bool) (contract : γ → UF → γ × (Nat → Nat)) (uf : UF) (s : NOIState γ) :
    (contractIf save contract uf s).mincut ≤ s.mincut := by
  unfold contractIf
  split
  · exact pushLevel_le _ _ _
  · exact le_refl _

theorem kernelStep_le (cfg : NOICfg) (contract : Nat → γ → UF → γ × (Nat → Nat)) (lvl : Nat) (k : KState γ) :
    (kernelStep cfg contract lvl k).lv.mincut ≤ k.lv.mincut :=
  le_trans (contractIf_le _ _ _ _) (le_trans (contractIf_le _ _ _ _) (contractIf_le _ _ _ _))

theorem kernelLoop_le (cfg : NOICfg) (contract : Nat → γ → UF → γ × (Nat → Nat)) : ∀ (f lvl prev : Nat) (k : KState γ),
    (kernelLoop cfg contract f lvl prev k).lv.mincut ≤ k.lv.mincut := by
  intro f
  induction f with
  | zero => intro _ _ _; exact le_refl _
  | succ f ih =>
    intro lvl prev k
    unfold kernelLoop
    split
    · exact le_trans (ih _ _ _) (kernelStep_le _ _ _ _)
    · exact le_refl _

section
variable {good : γ → Prop} (hgood : ∀ x, good x → SimpleWF (GraphLike.view x)) {G : Graph} (hG : G.WF)
  (hb : G.totalWeight < 2 ^ 32) {cfg : NOICfg} (hfit : PQFits cfg.kind G.n (G.totalWeight + 1))
  {contract : Nat → γ → UF → γ × (Nat → Nat)} (hok : ∀ l, ContractOK good (contract l)) {c : Nat} (hc : 0 < c)
  (hmin : IsMinCut G.n G.wt c) (hGn : 0 < G.n)

include hGn in
theorem KInv.pos {k : KState γ} (h : KInv good G c k) : 0 < k.lv.view.n := by
  obtain ⟨ψ, hψ⟩ := h.lvl.con
  have := hψ.lt 0 hGn
  omega

include hgood hG hb hfit hok hc hmin hGn

/-- The number of rounds given to the loop does not matter once it exceeds the number of vertices. -/
theorem kernelLoop_done : ∀ (f j lvl prev : Nat) (k : KState γ), KInv good G c k →
    (k.lv.view.n < prev → ∀ x ∈ k.ge, x.1 < k.lv.maps.length) → k.lv.view.n < f →
    kernelLoop cfg contract (f + j) lvl prev k = kernelLoop cfg contract f lvl prev k := by
  intro f
  induction f with
  | zero => intro j lvl prev k _ _ h; omega
  | succ f ih =>
    intro j lvl prev k h hlt hf
    rw [Nat.add_right_comm]
    unfold kernelLoop
    split
    · have hn1 := KInv.pos hGn h
      have hstep := kernelStep_inv hgood hG hb hfit hok hc hmin lvl h hn1 (hlt (by omega))
      by_cases hlt' : (kernelStep cfg contract lvl k).lv.view.n < k.lv.view.n
      · exact ih j _ _ _ hstep.inv hstep.grown (by omega)
      · have heq := hstep.n_le
        have hstop : ∀ f', kernelLoop cfg contract f' (lvl + 1) k.lv.view.n (kernelStep cfg contract lvl k) =
            kernelStep cfg contract lvl k := by
          intro f'
          cases f' with
          | zero => rfl
          | succ f' => unfold kernelLoop; rw [if_neg (by omega)]
        rw [hstop, hstop]
    · rfl

/-- An iteration that does not shrink the graph finds a vertex whose degree is the bound. -/
theorem stuck_degree {k : KState γ} (h : KInv good G c k) (hn2 : 2 ≤ k.lv.view.n) (hlt : ∀ x ∈ k.ge, x.1 < k.lv.maps.length)
    (lvl : Nat) (hst : (kernelStep cfg contract lvl k).lv.view.n = k.lv.view.n) :
    (kernelStep cfg contract lvl k).lv = k.lv ∧ ∃ u, u < k.lv.view.n ∧ k.lv.view.deg u = k.lv.mincut := by
  have hA : k.lv.view.WF := (hgood _ h.lvl.ok).1
  obtain ⟨ψ, hψ⟩ := h.lvl.con
  have hmt : k.lv.mincut ≤ G.totalWeight := by
    obtain ⟨S, _, hv⟩ := h.lvl.attained
    rw [← hv]; exact cutValue_le_total hG S
  have hmx : k.lv.view.maxDegree ≤ G.totalWeight := maxDegree_le fun u hu => hψ.deg_le hG hu
  have hpf : PQFits cfg.kind k.lv.view.n (if cfg.limited then k.lv.mincut + 1 else k.lv.view.maxDegree) :=
    hfit.mono hψ.le_n (by split <;> omega)
  obtain ⟨K, ⟨lp⟩, hK⟩ := selectPQ_lawful (limited := cfg.limited) (L := k.lv.mincut + 1) hpf
  have hst' : cfg.rnd lvl % k.lv.view.n < k.lv.view.n := Nat.mod_lt _ (by omega)
  have hb64 : G.totalWeight < 2 ^ 64 := lt_trans hb (by norm_num)
  -- sizes never grow, so no contraction happened
  have hsz : ∀ (save : Bool) (l : Nat) (uf : UF) (s : NOIState γ), good s.cur → uf.Inv → uf.size = s.view.n →
      good (contractIf save (contract l) uf s).cur ∧ (contractIf save (contract l) uf s).view.n = uf.cnt ∧ uf.cnt ≤ s.view.n ∧
      (uf.cnt = s.view.n → contractIf save (contract l) uf s = s) := by
    intro save l uf s hs hu hsize
    have hle : uf.cnt ≤ s.view.n := by
      rw [← hsize, ← UF.image_root_card hu]
      have := Finset.card_image_le (s := range uf.size) (f := uf.root); simpa using this
    unfold contractIf
    split
    · obtain ⟨o1, _, o3, _⟩ := hok l s.cur uf hs hu hsize
      exact ⟨o1, o3, hle, fun h => by omega⟩
    · exact ⟨hs, by omega, hle, fun _ => rfl⟩
  have hp := (show PInv c k.lv.mincut k.lv.view (pendants cfg lvl k.lv) from by
    unfold pendants
    simp only
    obtain ⟨i1, i2⟩ := capforest_inv (L := k.lv.mincut + 1) lp hA hK hst'
    refine PInv.fold hA hc (h.lvl.ge hmin) (fun T hT => hψ.min_le hmin.2 hT) _ _ ⟨i1, i2, by simp, by simp, by simp, ?_⟩
      List.nodup_range (by simp) (by simp)
    intro S hS hv
    refine Or.inl fun a b hab => ?_
    have hsafe := capforest_safe lp hA hK hst' hab
    by_contra hne
    have := hsafe S hne
    have := h.lvl.ge hmin
    omega)
  unfold kernelStep at hst ⊢
  simp only at hst ⊢
  obtain ⟨a1, a2, a3, a4⟩ := hsz cfg.save (3 * lvl) (pendants cfg lvl k.lv).1 k.lv h.lvl.ok hp.inv hp.size
  generalize contractIf cfg.save (contract (3 * lvl)) (pendants cfg lvl k.lv).1 k.lv = s1 at *
  obtain ⟨i1, i2⟩ := prTests12_inv (hgood _ a1).1 (s1.mincut + 1) true
  obtain ⟨b1, b2, b3, b4⟩ := hsz cfg.save (3 * lvl + 1) (prTests12 s1.view (s1.mincut + 1) true) s1 a1 i1 i2
  generalize contractIf cfg.save (contract (3 * lvl + 1)) (prTests12 s1.view (s1.mincut + 1) true) s1 = s2 at *
  obtain ⟨j1, j2⟩ := prTests34_inv (hgood _ b1).1 (s2.mincut + 1) true
  obtain ⟨d1, d2, d3, d4⟩ := hsz cfg.save (3 * lvl + 2) (prTests34 s2.view (s2.mincut + 1) true) s2 b1 j1 j2
  generalize contractIf cfg.save (contract (3 * lvl + 2)) (prTests34 s2.view (s2.mincut + 1) true) s2 = s3 at *
  have hcnt : (pendants cfg lvl k.lv).1.cnt = k.lv.view.n := by omega
  have e1 := a4 hcnt
  have e2 := b4 (by omega)
  have e3 := d4 (by omega)
  refine ⟨by rw [e3, e2, e1], ?_⟩
  have hnil := hp.nil_of_cnt hA (by omega)
  -- without pendant vertices the partition is that of `modified_capforest`
  have hcap : (capforest (selectPQ cfg.kind cfg.limited k.lv.view.n (k.lv.mincut + 1) k.lv.view.maxDegree).toPQ cfg.limited
      k.lv.view (k.lv.mincut + 1) (cfg.rnd lvl % k.lv.view.n)).cnt = k.lv.view.n := by
    have key : ∀ (l : List Nat) (st : UF × List (Nat × Nat)), (l.foldl (pendantStep k.lv.view k.lv.mincut) st).2 = [] →
        (l.foldl (pendantStep k.lv.view k.lv.mincut) st).1 = st.1 := by
      have hmono : ∀ (l : List Nat) (st : UF × List (Nat × Nat)), st.2 ≠ [] →
          (l.foldl (pendantStep k.lv.view k.lv.mincut) st).2 ≠ [] := by
        intro l
        induction l with
        | nil => intro st h; exact h
        | cons n l ih =>
          intro st h
          refine ih _ ?_
          unfold pendantStep
          split
          · split
            · simp
            · exact h
          · exact h
      intro l
      induction l with
      | nil => intro st _; rfl
      | cons n l ih =>
        intro st h
        rw [List.foldl_cons] at h ⊢
        rw [ih _ h]
        have h2 : (pendantStep k.lv.view k.lv.mincut st n).2 = [] := by
          by_contra hne
          exact hmono l _ hne h
        revert h2
        unfold pendantStep
        split
        · split
          · intro h2; simp at h2
          · intro _; rfl
        · intro _; rfl
    have := key _ _ hnil
    refine Eq.trans ?_ hcnt
    exact congrArg UF.cnt this.symm
  by_contra hno
  have hall : ∀ u, u < k.lv.view.n → k.lv.mincut + 1 ≤ k.lv.view.deg u := by
    intro u hu
    have h1 := h.lvl.mindeg hn2 u hu
    have h2 : k.lv.view.deg u ≠ k.lv.mincut := fun he => hno ⟨u, hu, he⟩
    omega
  have := capforest_progress lp hA hK hst' (Nat.succ_pos _) hall
  omega

/-- For at most 100 vertices the loop ends only when a vertex has the degree of the bound, or one vertex is left. -/
theorem kernelLoop_small : ∀ (f lvl prev : Nat) (k : KState γ), KInv good G c k →
    (k.lv.view.n < prev → ∀ x ∈ k.ge, x.1 < k.lv.maps.length) → k.lv.view.n < f → k.lv.view.n ≤ 100 →
    101 * k.lv.view.n < 100 * prev →
    (kernelLoop cfg contract f lvl prev k).lv.view.n = 1 ∨
    ∃ u, u < (kernelLoop cfg contract f lvl prev k).lv.view.n ∧
      (kernelLoop cfg contract f lvl prev k).lv.view.deg u = (kernelLoop cfg contract f lvl prev k).lv.mincut := by
  intro f
  induction f with
  | zero => intro _ _ _ _ _ h; omega
  | succ f ih =>
    intro lvl prev k h hlt hf h100 hcond
    unfold kernelLoop
    rw [if_pos hcond]
    have hn1 := KInv.pos hGn h
    have hstep := kernelStep_inv hgood hG hb hfit hok hc hmin lvl h hn1 (hlt (by omega))
    by_cases hlt' : (kernelStep cfg contract lvl k).lv.view.n < k.lv.view.n
    · exact ih _ _ _ hstep.inv hstep.grown (by omega) (by omega) (by omega)
    · have heq : (kernelStep cfg contract lvl k).lv.view.n = k.lv.view.n := le_antisymm hstep.n_le (by omega)
      have hstop : kernelLoop cfg contract f (lvl + 1) k.lv.view.n (kernelStep cfg contract lvl k) =
          kernelStep cfg contract lvl k := by
        cases f with
        | zero => rfl
        | succ f' => unfold kernelLoop; rw [if_neg (by omega)]
      rw [hstop]
      by_cases hone : k.lv.view.n = 1
      · left; omega
      · right
        obtain ⟨e, u, hu, hdeg⟩ := stuck_degree hgood hG hb hfit hok hc hmin hGn h (by omega) (hlt (by omega)) lvl heq
        rw [e]
        exact ⟨u, hu, hdeg⟩

/-- The final call of `noi_minimum_cut` computes the minimum cut of the kernel. -/
theorem finalValue_spec {noiCfg : NOICfg} (hfitN : PQFits noiCfg.kind G.n (G.totalWeight + 1))
    {noiContract : Nat → γ → UF → γ × (Nat → Nat)} (hokN : ∀ l, ContractOK good (noiContract l)) {k : KState γ} (h : KInv good G c k) :
    (2 ≤ k.lv.view.n → IsMinCut k.lv.view.n k.lv.view.wt (finalValue noiCfg noiContract k)) ∧
    (k.lv.view.n = 1 → finalValue noiCfg noiContract k = k.lv.mincut) ∧
    ∃ S, ProperCut G.n S ∧ cutValue G.n G.wt S = finalValue noiCfg noiContract k := by
  have hpos := KInv.pos hGn h
  obtain ⟨ψ, hψ⟩ := h.lvl.con
  have h2 : 2 ≤ k.lv.view.n → IsMinCut k.lv.view.n k.lv.view.wt (finalValue noiCfg noiContract k) := by
    intro hn2
    unfold finalValue
    rw [if_pos (by omega)]
    have hA : k.lv.view.WF := (hgood _ h.lvl.ok).1
    have htot := hψ.total_le hG
    have hb64 : k.lv.view.totalWeight < 2 ^ 64 := lt_of_le_of_lt htot (lt_trans hb (by norm_num))
    have hmd : k.lv.view.minDegree ≤ k.lv.view.totalWeight := by
      refine le_trans (Graph.minDegree_le (u := 0) (by omega)) ?_
      rw [← hA.cut_singleton (u := 0) (by omega)]
      exact cutValue_le_total hA _
    have hcf : CfgFits noiCfg k.lv.view := hfitN.mono hψ.le_n (by split <;> omega)
    obtain ⟨a, b⟩ := NOIInv.loop hA hb64 (cfg := noiCfg) hcf hokN k.lv.view.n 0 _
      (NOIInv.init h.lvl.ok rfl hA hn2 hb64 noiCfg.save k.lv.inCut) (le_refl _)
    exact a.final b
  have h1 : k.lv.view.n = 1 → finalValue noiCfg noiContract k = k.lv.mincut := by
    intro h1
    unfold finalValue
    rw [if_neg (by omega)]
  refine ⟨h2, h1, ?_⟩
  by_cases hn2 : 2 ≤ k.lv.view.n
  · obtain ⟨⟨T, t1, t2⟩, _⟩ := h2 hn2
    exact ⟨_, hψ.proper t1, by rw [← hψ.cut]; exact t2⟩
  · rw [h1 (by omega)]; exact h.lvl.attained

end

end Cactus
end VieCut
