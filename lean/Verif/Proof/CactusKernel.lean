import Verif.Proof.CactusPendant

/-!
# The kernelization loop of `findAllMincuts` keeps all minimum cuts
-/

namespace VieCut
namespace Cactus
open Function Finset

variable {γ : Type} [GraphLike γ]

/-- The entry of `ge` for level `i`. -/
def entry (ge : List (Nat × List (Nat × Nat))) (i : Nat) : List (Nat × Nat) :=
  ((ge.find? (fun x => x.1 == i)).map (·.2)).getD []

/-- The levels from `G` to `K`, innermost first. -/
def Chain (c d : Nat) (E : Nat → List (Nat × Nat)) (G : Graph) : List (Nat → Nat) → Graph → Prop
  | [], K => K = G
  | φ :: maps, K => ∃ A, Chain c d E G maps A ∧ Level c d A K φ (E maps.length)

theorem Chain.congr {c d : Nat} {E E' : Nat → List (Nat × Nat)} {G : Graph} : ∀ (maps : List (Nat → Nat)) (K : Graph),
    Chain c d E G maps K → (∀ i, i < maps.length → E' i = E i) → Chain c d E' G maps K := by
  intro maps
  induction maps with
  | nil => intro K h _; exact h
  | cons φ maps ih =>
    intro K h he
    obtain ⟨A, h1, h2⟩ := h
    exact ⟨A, ih A h1 (fun i hi => he i (by simp; omega)), by rw [he _ (by simp)]; exact h2⟩

theorem Level.clear {c d d' : Nat} {A B : Graph} {φ : Nat → Nat} {es : List (Nat × Nat)} (hA : A.WF) (h : Level c d A B φ es)
    (hcd : c < d) : Level c d' A B φ [] := by
  refine ⟨h.con, by simp, by simp, by simp, fun S hS hv => ?_⟩
  rcases h.cuts S hS hv with hr | ⟨e, he, hsame⟩
  · exact Or.inl hr
  · exfalso
    obtain ⟨h1, h2, _⟩ := h.pend e he
    have hval : cutValue A.n A.wt S = A.deg e.1 := by
      rw [← hA.cut_singleton h1]
      obtain ⟨⟨a, ha, ha'⟩, ⟨b, hb, hb'⟩⟩ := hS
      cases hSe : S e.1
      · have hab : ∀ u, u < A.n → u ≠ e.1 → S u = true := by
          intro u hu hne
          rw [← ha']
          exact hsame u a hu ha hne (fun h => by rw [h, hSe] at ha'; cases ha')
        rw [← cutValue_compl hA.wt_symm S]
        refine cutValue_congr fun u hu => ?_
        by_cases hue : u = e.1
        · subst hue; simp [hSe]
        · simp [hue, hab u hu hue]
      · have hab : ∀ u, u < A.n → u ≠ e.1 → S u = false := by
          intro u hu hne
          rw [← hb']
          exact hsame u b hu hb hne (fun h => by rw [h, hSe] at hb'; cases hb')
        refine cutValue_congr fun u hu => ?_
        by_cases hue : u = e.1
        · subst hue; simp [hSe]
        · simp [hue, hab u hu hue]
    rw [deg_single h2] at hval
    omega

theorem Chain.wf {c d : Nat} {E : Nat → List (Nat × Nat)} {G : Graph} (hG : G.WF) {maps : List (Nat → Nat)} {K : Graph}
    (h : Chain c d E G maps K) : K.WF := by
  cases maps with
  | nil => rw [show K = G from h]; exact hG
  | cons φ maps => obtain ⟨A, _, h2⟩ := h; exact h2.con.wf

theorem Chain.clear {c d d' : Nat} {E : Nat → List (Nat × Nat)} {G : Graph} (hG : G.WF) (hcd : c < d) :
    ∀ (maps : List (Nat → Nat)) (K : Graph), Chain c d E G maps K → Chain c d' (fun _ => []) G maps K := by
  intro maps
  induction maps with
  | nil => intro K h; exact h
  | cons φ maps ih =>
    intro K h
    obtain ⟨A, h1, h2⟩ := h
    exact ⟨A, ih A h1, h2.clear (h1.wf hG) hcd⟩

theorem Level.change {c d d' : Nat} {A B : Graph} {φ : Nat → Nat} (h : Level c d A B φ []) : Level c d' A B φ [] :=
  ⟨h.con, by simp, by simp, by simp, h.cuts⟩

/-- A contraction that separates no minimum cut. -/
theorem Level.of_respects {c d : Nat} {A B : Graph} {φ : Nat → Nat} {uf : UF} (hcon : IsContraction A B φ)
    (hφ : ∀ u v, u < A.n → v < A.n → (φ u = φ v ↔ uf.root u = uf.root v))
    (hr : ∀ S, ProperCut A.n S → cutValue A.n A.wt S = c → Respects uf S) : Level c d A B φ [] :=
  ⟨hcon, by simp, by simp, by simp, fun S hS hv => Or.inl fun u v hu hv' he => hr S hS hv u v ((hφ u v hu hv').1 he)⟩

theorem entry_append_lt {ge : List (Nat × List (Nat × Nat))} {i : Nat} {x : Nat × List (Nat × Nat)} (h : x.1 ≠ i) :
    entry (ge ++ [x]) i = entry ge i := by
  unfold entry
  rw [List.find?_append]
  simp [h]

theorem entry_append_self {ge : List (Nat × List (Nat × Nat))} {x : Nat × List (Nat × Nat)} (h : ∀ y ∈ ge, y.1 ≠ x.1) :
    entry (ge ++ [x]) x.1 = x.2 := by
  unfold entry
  rw [List.find?_append]
  have : ge.find? (fun y => y.1 == x.1) = none := by
    rw [List.find?_eq_none]; intro y hy; simpa using h y hy
  rw [this]
  simp

theorem entry_none {ge : List (Nat × List (Nat × Nat))} {i : Nat} (h : ∀ y ∈ ge, y.1 ≠ i) : entry ge i = [] := by
  unfold entry
  have : ge.find? (fun y => y.1 == i) = none := by
    rw [List.find?_eq_none]; intro y hy; simpa using h y hy
  rw [this]; rfl

/-- Invariant of the kernelization loop: all graphs are contractions of the input, and the minimum cuts that are lost are in `ge`. -/
structure KInv (good : γ → Prop) (G : Graph) (c : Nat) (k : KState γ) : Prop where
  lvl : LvlInv good G k.lv
  chain : Chain c k.lv.mincut (entry k.ge) G k.lv.maps.reverse k.lv.view
  sorted : k.ge.Pairwise (fun a b => a.1 < b.1)
  le : ∀ x ∈ k.ge, x.1 ≤ k.lv.maps.length
  last : ∀ x ∈ k.ge, x.1 = k.lv.maps.length → x.2 = []

/-- What `contractIf` does to the list of levels. -/
theorem contractIf_level {good : γ → Prop} (hgood : ∀ x, good x → SimpleWF (GraphLike.view x)) {G : Graph} (hG : G.WF)
    (hb : G.totalWeight < 2 ^ 64) {c d : Nat} {E : Nat → List (Nat × Nat)} {s : NOIState γ} (hl : LvlInv good G s)
    (hch : Chain c d E G s.maps.reverse s.view) {save : Bool} {contract : γ → UF → γ × (Nat → Nat)} (hok : ContractOK good contract)
    {uf : UF} (hu : uf.Inv) (hs : uf.size = s.view.n)
    (hlev : ∀ B φ, IsContraction s.view B φ → (∀ u v, u < s.view.n → v < s.view.n → (φ u = φ v ↔ uf.root u = uf.root v)) →
      uf.cnt < s.view.n → Level c d s.view B φ (E s.maps.length)) :
    LvlInv good G (contractIf save contract uf s) ∧ (contractIf save contract uf s).mincut ≤ s.mincut ∧
    Chain c d E G (contractIf save contract uf s).maps.reverse (contractIf save contract uf s).view ∧
    (contractIf save contract uf s).view.n = uf.cnt ∧
    (if uf.cnt < s.view.n then (contractIf save contract uf s).maps.length = s.maps.length + 1
      else contractIf save contract uf s = s) := by
  unfold contractIf
  split
  · rename_i hlt
    obtain ⟨o1, o2, o3, o4⟩ := hok s.cur uf hl.ok hu hs
    obtain ⟨p1, p2, _⟩ := hl.push hG hb (save := save) (r := contract s.cur uf) o1 o2
    refine ⟨p1, p2, ?_, o3, by simp [pushLevel]⟩
    show Chain c d E G (s.maps ++ [(contract s.cur uf).2]).reverse _
    rw [List.reverse_append, List.reverse_singleton, List.singleton_append]
    refine ⟨s.view, hch, ?_⟩
    rw [List.length_reverse]
    exact hlev _ _ o2 o4 hlt
  · rename_i hlt
    refine ⟨hl, le_refl _, hch, ?_, rfl⟩
    have : uf.cnt ≤ uf.size := by
      rw [← UF.image_root_card hu]
      have := Finset.card_image_le (s := range uf.size) (f := uf.root); simpa using this
    omega

/-- The pieces of an iteration. -/
structure KStep (good : γ → Prop) (G : Graph) (c : Nat) (k k' : KState γ) : Prop where
  inv : KInv good G c k'
  le : k'.lv.mincut ≤ k.lv.mincut
  n_le : k'.lv.view.n ≤ k.lv.view.n
  grown : k'.lv.view.n < k.lv.view.n → ∀ x ∈ k'.ge, x.1 < k'.lv.maps.length

theorem deg_lt_of_lvl {good : γ → Prop} {G : Graph} (hG : G.WF) {s : NOIState γ} (h : LvlInv good G s) {B : Nat}
    (hb : G.totalWeight < B) {u : Nat} (hu : u < s.view.n) : s.view.deg u < B := by
  obtain ⟨φ, hφ⟩ := h.con
  exact lt_of_le_of_lt (hφ.deg_le hG hu) hb

theorem kernelStep_inv {good : γ → Prop} (hgood : ∀ x, good x → SimpleWF (GraphLike.view x)) {G : Graph} (hG : G.WF)
    (hb : G.totalWeight < 2 ^ 32) {cfg : NOICfg} (hfit : PQFits cfg.kind G.n (G.totalWeight + 1))
    {contract : Nat → γ → UF → γ × (Nat → Nat)} (hok : ∀ l, ContractOK good (contract l)) {c : Nat} (hc : 0 < c)
    (hmin : IsMinCut G.n G.wt c) (lvl : Nat) {k : KState γ} (h : KInv good G c k) (hn1 : 0 < k.lv.view.n)
    (hlt : ∀ x ∈ k.ge, x.1 < k.lv.maps.length) : KStep good G c k (kernelStep cfg contract lvl k) := by
  have hb64 : G.totalWeight < 2 ^ 64 := lt_trans hb (by norm_num)
  have hck : c ≤ k.lv.mincut := h.lvl.ge hmin
  have hA : k.lv.view.WF := (hgood _ h.lvl.ok).1
  obtain ⟨ψ, hψ⟩ := h.lvl.con
  have hminK : ∀ T, ProperCut k.lv.view.n T → c ≤ cutValue k.lv.view.n k.lv.view.wt T := fun T hT => hψ.min_le hmin.2 hT
  -- the partition found by `modified_capforest` and the loop over the vertices
  have hp : PInv c k.lv.mincut k.lv.view (pendants cfg lvl k.lv) := by
    unfold pendants
    simp only
    have hmt : k.lv.mincut ≤ G.totalWeight := by
      obtain ⟨S, _, hv⟩ := h.lvl.attained
      rw [← hv]; exact cutValue_le_total hG S
    have hmx : k.lv.view.maxDegree ≤ G.totalWeight := by
      exact maxDegree_le fun u hu => hψ.deg_le hG hu
    have hpf : PQFits cfg.kind k.lv.view.n (if cfg.limited then k.lv.mincut + 1 else k.lv.view.maxDegree) :=
      hfit.mono hψ.le_n (by split <;> omega)
    obtain ⟨K, ⟨lp⟩, hK⟩ := selectPQ_lawful (limited := cfg.limited) (L := k.lv.mincut + 1) hpf
    have hst : cfg.rnd lvl % k.lv.view.n < k.lv.view.n := Nat.mod_lt _ hn1
    obtain ⟨i1, i2⟩ := capforest_inv (L := k.lv.mincut + 1) lp hA hK hst
    refine PInv.fold hA hc hck hminK _ _ ⟨i1, i2, by simp, by simp, by simp, ?_⟩ List.nodup_range (by simp) (by simp)
    intro S hS hv
    refine Or.inl fun a b hab => ?_
    have hsafe := capforest_safe lp hA hK hst hab
    by_contra hne
    have := hsafe S hne
    omega
  generalize hpe : pendants cfg lvl k.lv = p at hp
  -- first contraction
  have hE0 : ∀ i, i < k.lv.maps.reverse.length → entry (k.ge ++ [(k.lv.maps.length, p.2)]) i = entry k.ge i := by
    intro i hi
    rw [List.length_reverse] at hi
    exact entry_append_lt (by simp only; omega)
  have hEself : entry (k.ge ++ [(k.lv.maps.length, p.2)]) k.lv.maps.length = p.2 :=
    entry_append_self (x := (k.lv.maps.length, p.2)) (fun y hy => ne_of_lt (hlt y hy))
  have hEgt : ∀ i, k.lv.maps.length < i → entry (k.ge ++ [(k.lv.maps.length, p.2)]) i = [] := by
    intro i hi
    refine entry_none fun y hy => ?_
    rcases List.mem_append.1 hy with hy | hy
    · have := hlt y hy; omega
    · rw [List.mem_singleton] at hy; subst hy; simp only; omega
  have hch0 := h.chain.congr _ _ hE0
  obtain ⟨l1, m1, c1, n1, g1⟩ := contractIf_level hgood hG hb64 h.lvl hch0 (save := cfg.save) (hok (3 * lvl)) hp.inv hp.size
    (fun B φ hcon hφ _ => by rw [hEself]; exact hp.level hA hcon hφ)
  unfold kernelStep
  simp only [hpe]
  generalize hs1 : contractIf cfg.save (contract (3 * lvl)) p.1 k.lv = s1 at *
  have hle1 : p.1.cnt ≤ k.lv.view.n := by
    rw [← hp.size, ← UF.image_root_card hp.inv]
    have := Finset.card_image_le (s := range p.1.size) (f := p.1.root); simpa using this
  -- if nothing was contracted there are no remembered edges, and level `maps.length` is still unused
  have hE1 : p.1.cnt < k.lv.view.n ∨ (p.2 = [] ∧ s1 = k.lv) := by
    by_cases hcnt : p.1.cnt < k.lv.view.n
    · exact Or.inl hcnt
    · rw [if_neg hcnt] at g1
      exact Or.inr ⟨hp.nil_of_cnt hA hcnt, g1⟩
  have hlen1 : k.lv.maps.length ≤ s1.maps.length := by
    rcases hE1 with h' | ⟨_, h'⟩
    · rw [if_pos h'] at g1; omega
    · rw [h']
  have hEs1 : ∀ i, s1.maps.length ≤ i → entry (k.ge ++ [(k.lv.maps.length, p.2)]) i = [] := by
    intro i hi
    rcases hE1 with h' | ⟨h', h''⟩
    · rw [if_pos h'] at g1; exact hEgt i (by omega)
    · rcases Nat.lt_or_ge k.lv.maps.length i with hlt' | hge
      · exact hEgt i hlt'
      · have : i = k.lv.maps.length := by rw [h''] at hi; omega
        rw [this, hEself, h']
  -- second contraction
  have hA1 : s1.view.WF := (hgood _ l1.ok).1
  have hck1 : c ≤ s1.mincut := l1.ge hmin
  obtain ⟨ψ1, hψ1⟩ := l1.con
  have hmin1 : ∀ T, ProperCut s1.view.n T → c ≤ cutValue s1.view.n s1.view.wt T := fun T hT => hψ1.min_le hmin.2 hT
  obtain ⟨i1, i2⟩ := prTests12_inv hA1 (s1.mincut + 1) true
  obtain ⟨l2, m2, c2, n2, g2⟩ := contractIf_level hgood hG hb64 l1 c1 (save := cfg.save) (hok (3 * lvl + 1)) i1 i2
    (fun B φ hcon hφ _ => by
      rw [hEs1 _ (le_refl _)]
      exact Level.of_respects hcon hφ (fun S hS hv => prTests12_spec hA1 (fun u hu => deg_lt_of_lvl hG l1 hb hu) hS
        (fun T hT => by rw [hv]; exact hmin1 T hT) (by omega) (Or.inl rfl)))
  have hle2 : (prTests12 s1.view (s1.mincut + 1) true).cnt ≤ s1.view.n := by
    rw [← i2, ← UF.image_root_card i1]
    have := Finset.card_image_le (s := range (prTests12 s1.view (s1.mincut + 1) true).size)
      (f := (prTests12 s1.view (s1.mincut + 1) true).root)
    simpa using this
  generalize hs2 : contractIf cfg.save (contract (3 * lvl + 1)) (prTests12 s1.view (s1.mincut + 1) true) s1 = s2 at *
  have hlen2 : s1.maps.length ≤ s2.maps.length ∧ (s2.view.n < s1.view.n → s1.maps.length < s2.maps.length) := by
    split at g2
    · exact ⟨by omega, fun _ => by omega⟩
    · rw [g2]; exact ⟨le_refl _, fun h => absurd h (lt_irrefl _)⟩
  -- third contraction
  have hA2 : s2.view.WF := (hgood _ l2.ok).1
  have hck2 : c ≤ s2.mincut := l2.ge hmin
  obtain ⟨ψ2, hψ2⟩ := l2.con
  have hmin2 : ∀ T, ProperCut s2.view.n T → c ≤ cutValue s2.view.n s2.view.wt T := fun T hT => hψ2.min_le hmin.2 hT
  obtain ⟨j1, j2⟩ := prTests34_inv hA2 (s2.mincut + 1) true
  obtain ⟨l3, m3, c3, n3, g3⟩ := contractIf_level hgood hG hb64 l2 c2 (save := cfg.save) (hok (3 * lvl + 2)) j1 j2
    (fun B φ hcon hφ _ => by
      rw [hEs1 _ hlen2.1]
      exact Level.of_respects hcon hφ (fun S hS hv => ((prClosed_all hA2 hS
        (fun T hT => by rw [hv]; exact hmin2 T hT) (by omega)).prTests34 hA2 (Or.inl (hgood _ l2.ok).2)).1))
  have hle3 : (prTests34 s2.view (s2.mincut + 1) true).cnt ≤ s2.view.n := by
    rw [← j2, ← UF.image_root_card j1]
    have := Finset.card_image_le (s := range (prTests34 s2.view (s2.mincut + 1) true).size)
      (f := (prTests34 s2.view (s2.mincut + 1) true).root)
    simpa using this
  generalize hs3 : contractIf cfg.save (contract (3 * lvl + 2)) (prTests34 s2.view (s2.mincut + 1) true) s2 = s3 at *
  have hlen3 : s2.maps.length ≤ s3.maps.length ∧ (s3.view.n < s2.view.n → s2.maps.length < s3.maps.length) := by
    split at g3
    · exact ⟨by omega, fun _ => by omega⟩
    · rw [g3]; exact ⟨le_refl _, fun h => absurd h (lt_irrefl _)⟩
  have hgrow : s3.view.n < k.lv.view.n → k.lv.maps.length < s3.maps.length := by
    intro hlt3
    by_cases h3 : s3.view.n < s2.view.n
    · have := hlen3.2 h3; omega
    · by_cases h2 : s2.view.n < s1.view.n
      · have := hlen2.2 h2; omega
      · rcases hE1 with h' | ⟨_, h'⟩
        · rw [if_pos h'] at g1; omega
        · rw [h'] at h2; omega
  refine ⟨?_, by simp only; omega, by simp only; omega, ?_⟩
  · split
    · rename_i hdec
      refine ⟨l3, ?_, by simp, by simp, by simp⟩
      have hcd : c < k.lv.mincut := lt_of_le_of_lt (l3.ge hmin) hdec
      refine (c3.clear hG hcd).congr _ _ (fun i _ => ?_)
      rfl
    · rename_i hdec
      have hd : s3.mincut = k.lv.mincut := by omega
      refine ⟨l3, by simp only [hd]; exact c3, ?_, ?_, ?_⟩
      · simp only
        rw [List.pairwise_append]
        refine ⟨h.sorted, by simp, ?_⟩
        intro a ha b hb'
        rw [List.mem_singleton] at hb'
        subst hb'
        exact hlt a ha
      · intro x hx
        simp only at hx ⊢
        rcases List.mem_append.1 hx with hx | hx
        · have := hlt x hx; omega
        · rw [List.mem_singleton] at hx; subst hx; simp only; omega
      · intro x hx he
        simp only at hx he ⊢
        rcases List.mem_append.1 hx with hx | hx
        · have := hlt x hx; omega
        · rw [List.mem_singleton] at hx; subst hx
          simp only at he ⊢
          rcases hE1 with h' | ⟨h', _⟩
          · rw [if_pos h'] at g1; omega
          · exact h'
  · intro hlt3 x hx
    simp only at hlt3 hx ⊢
    have := hgrow hlt3
    split at hx
    · cases hx
    · rcases List.mem_append.1 hx with hx | hx
      · have := hlt x hx; omega
      · rw [List.mem_singleton] at hx; subst hx; simp only; omega

theorem kernelLoop_inv {good : γ → Prop} (hgood : ∀ x, good x → SimpleWF (GraphLike.view x)) {G : Graph} (hG : G.WF)
    (hb : G.totalWeight < 2 ^ 32) {cfg : NOICfg} (hfit : PQFits cfg.kind G.n (G.totalWeight + 1))
    {contract : Nat → γ → UF → γ × (Nat → Nat)} (hok : ∀ l, ContractOK good (contract l)) {c : Nat} (hc : 0 < c)
    (hmin : IsMinCut G.n G.wt c) (hGn : 0 < G.n) : ∀ (f lvl prev : Nat) (k : KState γ), KInv good G c k →
    (k.lv.view.n < prev → ∀ x ∈ k.ge, x.1 < k.lv.maps.length) → KInv good G c (kernelLoop cfg contract f lvl prev k) := by
  intro f
  induction f with
  | zero => intro lvl prev k h _; exact h
  | succ f ih =>
    intro lvl prev k h hlt
    unfold kernelLoop
    split
    · rename_i hcond
      have hn1 : 0 < k.lv.view.n := by
        obtain ⟨ψ, hψ⟩ := h.lvl.con
        have := hψ.lt 0 hGn
        omega
      have hstep := kernelStep_inv hgood hG hb hfit hok hc hmin lvl h hn1 (hlt (by omega))
      exact ih _ _ _ hstep.inv hstep.grown
    · exact h

end Cactus
end VieCut
