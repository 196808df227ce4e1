import Verif.Proof.ArticulationLow
import Verif.Proof.Arcs

/-! # Merging what an articulation point separates from the terminals -/

namespace VieCut
namespace APState
open Function

variable {N : Nat} {adj : Nat → List Nat} {s : APState}

/-! ### Relabelling closed-off parts -/

/-- `p` joins two vertices of a part without terminals, together with the single vertex `n` it hangs on. -/
def Good (N : Nat) (adj : Nat → List Nat) (ts : List Nat) (p : Nat × Nat) : Prop :=
  ∃ (n : Nat) (P : Nat → Prop), n < N ∧ ¬ P n ∧ (∀ x, x < N → P x → ∀ y ∈ adj x, P y ∨ y = n) ∧ (∀ t ∈ ts, ¬ P t) ∧
    p.1 < N ∧ p.2 < N ∧ Conn adj (fun x => P x ∨ x = n) p.1 p.2

theorem multicut_on {w : Nat → Nat → Nat} {f g : Nat → Nat} (hw : ∀ u v, u < N → v < N → w u v ≠ 0 → v ∈ adj u)
    (h : ∀ u v, u < N → v < N → v ∈ adj u → g u = g v → f u = f v) : multicutValue N w f ≤ multicutValue N w g := by
  unfold multicutValue
  refine Finset.sum_le_sum fun v hv => Finset.sum_le_sum fun u hu => ?_
  have hv' := Finset.mem_range.1 hv
  have hu' := Finset.mem_range.1 hu
  by_cases hz : w u v = 0
  · simp [hz]
  · by_cases c : g u = g v
    · rw [if_neg (fun e => e (h u v (by omega) hv' (hw u v (by omega) hv' hz) c)), if_neg (fun e => e c)]
    · rw [if_pos c]; split <;> omega

/-- Number of edges with different labels at their ends. -/
def unit (adj : Nat → List Nat) (u v : Nat) : Nat := if v ∈ adj u then 1 else 0

theorem multicut_strict (hN : Nbrs N adj) {f g : Nat → Nat}
    (h : ∀ u v, u < N → v < N → v ∈ adj u → g u = g v → f u = f v) {x y : Nat} (hx : x < N) (hy : y ∈ adj x)
    (hf : f x = f y) (hg : g x ≠ g y) : multicutValue N (unit adj) f < multicutValue N (unit adj) g := by
  have key : ∀ a b, b < a → a < N → b < N → a ∈ adj b → f b = f a → g b ≠ g a →
      multicutValue N (unit adj) f < multicutValue N (unit adj) g := by
    intro a b hba ha hb hab hf hg
    have hle : ∀ v ∈ Finset.range N, ∀ u ∈ Finset.range v, (if f u ≠ f v then unit adj u v else 0) ≤
        if g u ≠ g v then unit adj u v else 0 := by
      intro v hv u hu
      have hv' := Finset.mem_range.1 hv
      have hu' := Finset.mem_range.1 hu
      by_cases hz : v ∈ adj u
      · by_cases c : g u = g v
        · rw [if_neg (fun e => e (h u v (by omega) hv' hz c)), if_neg (fun e => e c)]
        · rw [if_pos c]; split <;> omega
      · simp [unit, hz]
    unfold multicutValue
    refine Finset.sum_lt_sum (fun v hv => Finset.sum_le_sum (hle v hv)) ⟨a, Finset.mem_range.2 ha, ?_⟩
    refine Finset.sum_lt_sum (hle a (Finset.mem_range.2 ha)) ⟨b, Finset.mem_range.2 hba, ?_⟩
    rw [if_neg (fun e => e hf), if_pos hg]
    simp [unit, hab]
  have hyN := hN.lt hx hy
  rcases Nat.lt_trichotomy x y with h' | h' | h'
  · exact key y x h' hyN hx hy hf hg
  · exact absurd (by rw [h']) hg
  · exact key x y h' hx hyN (hN.symm hx hy) hf.symm (Ne.symm hg)

theorem pairs_safe (hN : Nbrs N adj) {w : Nat → Nat → Nat} (hw : ∀ u v, u < N → v < N → w u v ≠ 0 → v ∈ adj u)
    {ts : List Nat} {ps : List (Nat × Nat)} (hps : ∀ p ∈ ps, Good N adj ts p) {f : Nat → Nat} (hf : Separates ts f) :
    ∃ f', Separates ts f' ∧ multicutValue N w f' ≤ multicutValue N w f ∧ ∀ p ∈ ps, f' p.1 = f' p.2 := by
  classical
  have hex : ∃ k f', Separates ts f' ∧ multicutValue N w f' ≤ multicutValue N w f ∧ multicutValue N (unit adj) f' = k :=
    ⟨_, f, hf, Nat.le_refl _, rfl⟩
  obtain ⟨g, h1, h2, h3⟩ := Nat.find_spec hex
  refine ⟨g, h1, h2, fun p hp => ?_⟩
  by_contra hne
  obtain ⟨n, P, hn, hPn, hcl, hts, hp1, hp2, hc⟩ := hps p hp
  -- an edge with different labels inside the part
  have hedge : ∃ x y, x < N ∧ y ∈ adj x ∧ (P x ∨ x = n) ∧ (P y ∨ y = n) ∧ g x ≠ g y := by
    by_contra hno
    push Not at hno
    have : ∀ b, Conn adj (fun x => P x ∨ x = n) p.1 b → b < N ∧ g p.1 = g b := by
      intro b hb
      induction hb with
      | refl => exact ⟨hp1, rfl⟩
      | tail _ h5 ih => exact ⟨hN.lt ih.1 h5.1, ih.2.trans (hno _ _ ih.1 h5.1 h5.2.1 h5.2.2)⟩
    exact hne (this _ hc).2
  obtain ⟨x, y, hx, hy, hPx, hPy, hxy⟩ := hedge
  have hin : ∀ z, P z ∨ z = n → relabel g P (g n) z = g n := by
    rintro z (h | h)
    · exact relabel_in h
    · subst h; exact relabel_out hPn
  have hmono : ∀ u v, u < N → v < N → v ∈ adj u → g u = g v → relabel g P (g n) u = relabel g P (g n) v := by
    intro u v hu hv huv he
    by_cases hPu : P u
    · rw [hin u (Or.inl hPu), hin v (hcl u hu hPu v huv)]
    · by_cases hPv : P v
      · rw [hin v (Or.inl hPv), hin u (hcl v hv hPv u (hN.symm hu huv))]
      · rw [relabel_out hPu, relabel_out hPv, he]
  have hlt := multicut_strict hN hmono hx hy (by rw [hin x hPx, hin y hPy]) hxy
  refine Nat.find_min hex (by rw [h3] at hlt; exact hlt) ⟨relabel g P (g n), ?_, ?_, rfl⟩
  · intro a ha b hb hab
    rw [relabel_out (hts a ha), relabel_out (hts b hb)]
    exact h1 a ha b hb hab
  · exact (multicut_on hw hmono).trans h2

/-! ### The walks to the root -/

open Forest

theorem walk_spec (F : Forest N adj s) (hN : Nbrs N adj) {n : Nat} : ∀ (f x : Nat), s.disc x < f → x < N →
    ∃ r y, walk s n f x = some (r, y) ∧ (x = n → r = true ∧ y = n) ∧ (x ≠ n → y < N ∧ y ≠ n ∧ (r = true ↔ Right s n x) ∧
      Conn adj (fun z => z ≠ n) x y) := by
  intro f
  induction f with
  | zero => intro x h; omega
  | succ f ih =>
    intro x hf hx
    unfold walk
    by_cases h1 : x = n
    · rw [if_pos h1]
      exact ⟨true, x, rfl, fun h => ⟨rfl, h⟩, fun h => absurd h1 h⟩
    rw [if_neg h1]
    by_cases h2 : s.parent x = n
    · rw [if_pos h2]
      refine ⟨_, x, rfl, fun h => absurd h h1, fun _ => ⟨hx, h1, ?_, Relation.ReflTransGen.refl⟩⟩
      rw [decide_eq_true_eq]
      constructor
      · intro h; exact ⟨x, h2, h1, h, Anc.refl _ _⟩
      · rintro ⟨t, h3, h4, h5, h6⟩
        by_cases htx : t = x
        · rw [← htx]; exact h5
        · exfalso
          have h7 := h6.of_ne htx
          rw [h2] at h7
          have hn : n < N := h2 ▸ F.lt x hx
          have ht := F.anc_lt h6 hx
          have := (F.tree t ht (by rw [h3]; exact Ne.symm h4)).1
          rw [h3] at this
          have := F.anc_disc h7 hn
          omega
    rw [if_neg h2]
    by_cases h3 : s.parent x = x
    · rw [if_pos h3]
      refine ⟨false, x, rfl, fun h => absurd h h1, fun _ => ⟨hx, h1, ?_, Relation.ReflTransGen.refl⟩⟩
      constructor
      · intro h; cases h
      · rintro ⟨t, h4, h5, h6, k, h7⟩
        rw [iterate_fixed h3] at h7
        subst h7
        exact absurd h4 h2
    rw [if_neg h3]
    have hlt := (F.tree x hx h3).1
    obtain ⟨r, y, e1, e2, e3⟩ := ih (s.parent x) (by omega) (F.lt x hx)
    obtain ⟨e4, e5, e6, e7⟩ := e3 h2
    refine ⟨r, y, e1, fun h => absurd h h1, fun _ => ⟨e4, e5, e6.trans ?_, ?_⟩⟩
    · constructor
      · rintro ⟨t, h4, h5, h6, h7⟩; exact ⟨t, h4, h5, h6, h7.trans (Anc.parent _ _)⟩
      · rintro ⟨t, h4, h5, h6, h7⟩
        refine ⟨t, h4, h5, h6, h7.of_ne ?_⟩
        rintro rfl; exact h2 h4
    · exact Relation.ReflTransGen.head ⟨hN.symm (F.lt x hx) (F.tree x hx h3).2, h1, h2⟩ e7

theorem walk_spec' (F : Forest N adj s) (hN : Nbrs N adj) {n x : Nat} (hx : x < N) :
    ∃ r y, walk s n (N + 1) x = some (r, y) ∧ (x = n → r = true ∧ y = n) ∧
      (x ≠ n → y < N ∧ y ≠ n ∧ (r = true ↔ Right s n x) ∧ Conn adj (fun z => z ≠ n) x y) :=
  walk_spec F hN (N + 1) x (by have := (F.range x hx).2; omega) hx

theorem countRight_spec (F : Forest N adj s) (hN : Nbrs N adj) {n : Nat} (hn : n < N) : ∀ ts : List Nat, (∀ t ∈ ts, t < N) →
    ∃ k, countRight s N n ts = some k ∧ k ≤ ts.length ∧ (k = 0 ↔ ∀ t ∈ ts, t ≠ n ∧ ¬ Right s n t) ∧
      (k = ts.length ↔ ∀ t ∈ ts, t = n ∨ Right s n t) := by
  intro ts
  induction ts with
  | nil => intro _; exact ⟨0, rfl, Nat.le_refl _, by simp, by simp⟩
  | cons t ts ih =>
    intro hts
    obtain ⟨k, h1, h2, h3, h4⟩ := ih fun t ht => hts t (List.mem_cons_of_mem _ ht)
    obtain ⟨r, y, e1, e2, e3⟩ := walk_spec' F hN (n := n) (hts t (by simp))
    have hr : r = true ↔ t = n ∨ Right s n t := by
      by_cases htn : t = n
      · simp [htn, (e2 htn).1]
      · rw [(e3 htn).2.2.1]; simp [htn]
    refine ⟨k + if r then 1 else 0, by unfold countRight; rw [e1, h1]; rfl, ?_, ?_, ?_⟩
    · rw [List.length_cons]; split <;> omega
    · rw [List.forall_mem_cons, ← h3]
      cases r with
      | true =>
        have := hr.1 rfl
        simp only [if_true]
        constructor
        · intro h; omega
        · rintro ⟨⟨h, h'⟩, _⟩
          rcases this with h'' | h''
          · exact absurd h'' h
          · exact absurd h'' h'
      | false =>
        have : ¬ (t = n ∨ Right s n t) := fun h => by cases hr.2 h
        rw [not_or] at this
        simp [this.1, this.2]
    · rw [List.forall_mem_cons, ← h4, ← hr, List.length_cons]
      cases r with
      | true => simp
      | false => simp; omega

/-! ### The contraction for one articulation point -/

/-- The side that is contracted: right of `n`, or (`inv`) the rest. -/
def SideOf (N : Nat) (s : APState) (n : Nat) (inv : Bool) (x : Nat) : Prop := x < N ∧ x ≠ n ∧ (Right s n x ↔ inv = false)

theorem side_closed (F : Forest N adj s) (hN : Nbrs N adj) {n : Nat} {inv : Bool} {x y : Nat} (h : SideOf N s n inv x)
    (hy : y ∈ adj x) : SideOf N s n inv y ∨ y = n := by
  obtain ⟨hx, hne, hs⟩ := h
  by_cases hyn : y = n
  · exact Or.inr hyn
  · left
    have hyN := hN.lt hx hy
    refine ⟨hyN, hyn, ?_⟩
    rw [← hs]
    constructor
    · intro h
      rcases F.right_closed hN hyN h (hN.symm hx hy) with h' | h'
      · exact h'
      · exact absurd h' hne
    · intro h
      rcases F.right_closed hN hx h hy with h' | h'
      · exact h'
      · exact absurd h' hyn

theorem side_conn (F : Forest N adj s) (hN : Nbrs N adj) {n : Nat} {inv : Bool} {x y : Nat} (h : SideOf N s n inv x)
    (hc : Conn adj (fun z => z ≠ n) x y) : SideOf N s n inv y ∧ Conn adj (SideOf N s n inv) x y := by
  induction hc with
  | refl => exact ⟨h, Relation.ReflTransGen.refl⟩
  | tail _ h2 ih =>
    rcases side_closed F hN ih.1 h2.1 with h' | h'
    · exact ⟨h', ih.2.tail ⟨h2.1, ih.1, h'⟩⟩
    · exact absurd h' h2.2.2

/-- Invariant of the contraction; `ps0` are the pairs united before. -/
structure SideInv (N : Nat) (adj : Nat → List Nat) (s : APState) (n : Nat) (inv : Bool) (ps0 : List (Nat × Nat))
    (r : Side) : Prop where
  self : r.con n = true
  con : ∀ x, r.con x = true → x = n ∨ SideOf N s n inv x
  q : ∀ x ∈ r.q, r.con x = true ∧ SideOf N s n inv x
  size : r.uf.size = N
  rep : ∃ ps, UF.Rep r.uf (ps0 ++ ps) ∧
    ∀ p ∈ ps, p.1 < N ∧ p.2 < N ∧ Conn adj (fun x => SideOf N s n inv x ∨ x = n) p.1 p.2
  mer : ∀ x, r.con x = true → r.uf.root x = r.uf.root n
  done : ∀ x, r.con x = true → x ∉ r.q → x ≠ n → ∀ y ∈ adj x, r.con y = true

theorem union_root {uf : UF} {ps : List (Nat × Nat)} (h : UF.Rep uf ps) {a b : Nat} (ha : a < uf.size) (hb : b < uf.size) :
    UF.Rep (uf.union a b).2 (ps ++ [(a, b)]) ∧ (uf.union a b).2.size = uf.size ∧
    (∀ x y, uf.root x = uf.root y → (uf.union a b).2.root x = (uf.union a b).2.root y) ∧
    (uf.union a b).2.root a = (uf.union a b).2.root b := by
  have hu := UF.union_spec h ha hb
  refine ⟨hu.1, hu.2.2, fun x y hxy => ?_, ?_⟩
  · exact (hu.1.iff x y).2 (((h.iff x y).1 hxy).mono fun p hp => List.mem_append_left _ hp)
  · exact (hu.1.iff a b).2 (Linked.of_mem (by simp))

theorem SideInv.add {n : Nat} {inv : Bool} {ps0 : List (Nat × Nat)} {r : Side} (h : SideInv N adj s n inv ps0 r)
    (hn : n < N) {v t : Nat} (hv : r.con v = true) (hvN : v < N) (ht : SideOf N s n inv t)
    (hc : Conn adj (fun x => SideOf N s n inv x ∨ x = n) v t) :
    SideInv N adj s n inv ps0 ⟨update r.con t true, r.q ++ [t], (r.uf.union v t).2⟩ := by
  obtain ⟨ps, h1, h2⟩ := h.rep
  obtain ⟨u1, u2, u3, u4⟩ := union_root h1 (a := v) (b := t) (by rw [h.size]; exact hvN) (by rw [h.size]; exact ht.1)
  have hcon : ∀ x, update r.con t true x = true ↔ x = t ∨ r.con x = true := by
    intro x
    by_cases hx : x = t
    · simp [hx]
    · simp [hx, update]
  refine ⟨(hcon n).2 (Or.inr h.self), ?_, ?_, u2.trans h.size, ⟨ps ++ [(v, t)], ?_, ?_⟩, ?_, ?_⟩
  · intro x hx
    rcases (hcon x).1 hx with rfl | hx
    · exact Or.inr ht
    · exact h.con x hx
  · intro x hx
    rcases List.mem_append.1 hx with hx | hx
    · exact ⟨(hcon x).2 (Or.inr (h.q x hx).1), (h.q x hx).2⟩
    · rw [List.mem_singleton] at hx
      subst hx
      exact ⟨(hcon x).2 (Or.inl rfl), ht⟩
  · rw [← List.append_assoc]; exact u1
  · intro p hp
    rcases List.mem_append.1 hp with hp | hp
    · exact h2 p hp
    · rw [List.mem_singleton] at hp
      subst hp
      exact ⟨hvN, ht.1, hc⟩
  · intro x hx
    rcases (hcon x).1 hx with rfl | hx
    · exact u4.symm.trans (u3 _ _ (h.mer v hv))
    · exact u3 _ _ (h.mer x hx)
  · intro x hx hq hne y hy
    rw [List.mem_append, not_or, List.mem_singleton] at hq
    rcases (hcon x).1 hx with h' | hx
    · exact absurd h' hq.2
    · exact (hcon y).2 (Or.inr (h.done x hx hq.1 hne y hy))

theorem seeds_spec (F : Forest N adj s) (hN : Nbrs N adj) {n : Nat} (hn : n < N) (inv : Bool) {ps0 : List (Nat × Nat)} :
    ∀ (l : List Nat) (r : Side), (∀ t ∈ l, t ∈ adj n) → SideInv N adj s n inv ps0 r →
    ∃ r', seeds s N n inv l r = some r' ∧ SideInv N adj s n inv ps0 r' ∧ r'.q.length ≤ r.q.length + l.length ∧
      (∀ x, r.con x = true → r'.con x = true) ∧
      ∀ t ∈ l, SideOf N s n inv t → ∃ y, r'.con y = true ∧ y ≠ n ∧ Conn adj (fun z => z ≠ n) t y := by
  intro l
  induction l with
  | nil => intro r _ h; exact ⟨r, rfl, h, by simp, fun _ h => h, by simp⟩
  | cons t l ih =>
    intro r hl h
    have ht := hl t (by simp)
    have htN := hN.lt hn ht
    have htn : t ≠ n := fun h => hN.irr hn (h ▸ ht)
    obtain ⟨w, y, e1, _, e3⟩ := walk_spec' F hN (n := n) htN
    obtain ⟨e4, e5, e6, e7⟩ := e3 htn
    have hside : w ≠ inv ↔ SideOf N s n inv t := by
      unfold SideOf
      rw [← e6]
      cases w <;> cases inv <;> simp [htN, htn]
    unfold seeds
    rw [e1]
    simp only [Option.bind_some]
    by_cases hw : w ≠ inv
    · rw [if_pos hw]
      obtain ⟨s1, s2⟩ := side_conn F hN (hside.1 hw) e7
      have h' := h.add hn h.self hn s1 (Relation.ReflTransGen.head ⟨ht, Or.inr rfl, Or.inl (hside.1 hw)⟩
        (conn_mono (fun _ h => Or.inl h) s2))
      obtain ⟨r', i1, i2, i3, i4, i5⟩ := ih _ (fun t ht => hl t (List.mem_cons_of_mem _ ht)) h'
      refine ⟨r', i1, i2, ?_, ?_, ?_⟩
      · rw [List.length_append, List.length_singleton] at i3
        rw [List.length_cons]; omega
      · intro x hx
        refine i4 x ?_
        by_cases hxy : x = y
        · simp [hxy]
        · simp [hxy, update, hx]
      · intro t' ht' hs
        rcases List.mem_cons.1 ht' with rfl | ht'
        · exact ⟨y, i4 y (by simp), e5, e7⟩
        · exact i5 t' ht' hs
    · rw [if_neg hw]
      obtain ⟨r', i1, i2, i3, i4, i5⟩ := ih r (fun t ht => hl t (List.mem_cons_of_mem _ ht)) h
      refine ⟨r', i1, i2, by rw [List.length_cons]; omega, i4, ?_⟩
      intro t' ht' hs
      rcases List.mem_cons.1 ht' with rfl | ht'
      · exact absurd (hside.2 hs) hw
      · exact i5 t' ht' hs

/-- Vertices not yet contracted. -/
def rest (N : Nat) (r : Side) : Nat := ((Finset.range N).filter fun v => r.con v = false).card

theorem rest_update {r : Side} {t : Nat} (ht : t < N) (hc : r.con t = false) (q : List Nat) (uf : UF) :
    rest N ⟨update r.con t true, q, uf⟩ + 1 = rest N r := by
  unfold rest
  have hm : t ∈ (Finset.range N).filter fun v => r.con v = false := by simp [ht, hc]
  have : (Finset.range N).filter (fun v => update r.con t true v = false) =
      ((Finset.range N).filter fun v => r.con v = false).erase t := by
    ext v
    by_cases hv : v = t
    · simp [hv]
    · simp [hv, update]
  dsimp only
  rw [this, Finset.card_erase_of_mem hm]
  have := Finset.card_pos.2 ⟨t, hm⟩
  omega

/-- The same invariant while the edges of `v` are scanned: `done` holds for all vertices but `v`. -/
theorem spread_fold (F : Forest N adj s) (hN : Nbrs N adj) {n : Nat} (hn : n < N) {inv : Bool} {ps0 : List (Nat × Nat)}
    {v : Nat} : ∀ (l : List Nat) (r : Side), (∀ t ∈ l, t ∈ adj v) → SideOf N s n inv v → r.con v = true →
    SideInv N adj s n inv ps0 { r with q := v :: r.q } →
    let r' := l.foldl (spreadStep v) r
    SideInv N adj s n inv ps0 { r' with q := v :: r'.q } ∧ r'.q.length + rest N r' = r.q.length + rest N r ∧
      (∀ x, r.con x = true → r'.con x = true) ∧ ∀ t ∈ l, r'.con t = true := by
  intro l
  induction l with
  | nil => intro r _ _ _ h; exact ⟨h, rfl, fun _ h => h, by simp⟩
  | cons t l ih =>
    intro r hl hv hcv h
    have ht := hl t (by simp)
    have htN := hN.lt hv.1 ht
    rw [List.foldl_cons]
    by_cases hc : r.con t = false
    · have e : spreadStep v r t = ⟨update r.con t true, r.q ++ [t], (r.uf.union v t).2⟩ := by
        unfold spreadStep; rw [if_pos hc]
      have hst : SideOf N s n inv t := by
        rcases side_closed F hN hv ht with h' | h'
        · exact h'
        · rw [h'] at hc
          have := h.self
          dsimp only at this
          rw [this] at hc; cases hc
      have h' := h.add hn (v := v) (t := t) hcv hv.1 hst (Relation.ReflTransGen.single ⟨ht, Or.inl hv, Or.inl hst⟩)
      have hmono : ∀ x, r.con x = true → update r.con t true x = true := by
        intro x hx
        by_cases hxy : x = t
        · simp [hxy]
        · simp [hxy, update, hx]
      rw [e]
      obtain ⟨i1, i2, i3, i4⟩ := ih ⟨update r.con t true, r.q ++ [t], (r.uf.union v t).2⟩
        (fun t ht => hl t (List.mem_cons_of_mem _ ht)) hv (hmono v hcv) h'
      refine ⟨i1, ?_, fun x hx => i3 x (hmono x hx), ?_⟩
      · rw [i2, ← rest_update htN hc (r.q ++ [t]) (r.uf.union v t).2, List.length_append, List.length_singleton]
        omega
      · intro t' ht'
        rcases List.mem_cons.1 ht' with rfl | ht'
        · exact i3 _ (by simp)
        · exact i4 t' ht'
    · have e : spreadStep v r t = r := by
        unfold spreadStep; rw [if_neg hc]
      rw [e]
      obtain ⟨i1, i2, i3, i4⟩ := ih r (fun t ht => hl t (List.mem_cons_of_mem _ ht)) hv hcv h
      refine ⟨i1, i2, i3, ?_⟩
      intro t' ht'
      rcases List.mem_cons.1 ht' with rfl | ht'
      · exact i3 _ (by simpa using hc)
      · exact i4 t' ht'

theorem spread_spec (F : Forest N adj s) (hN : Nbrs N adj) {n : Nat} (hn : n < N) {inv : Bool} {ps0 : List (Nat × Nat)} :
    ∀ (f : Nat) (r : Side), SideInv N adj s n inv ps0 r → r.q.length + rest N r ≤ f →
    ∃ r', spread adj f r = some r' ∧ SideInv N adj s n inv ps0 r' ∧ r'.q = [] ∧ ∀ x, r.con x = true → r'.con x = true := by
  intro f
  induction f with
  | zero =>
    intro r h hf
    have hq : r.q = [] := List.eq_nil_of_length_eq_zero (by omega)
    refine ⟨r, ?_, h, hq, fun _ h => h⟩
    unfold spread
    rw [hq]
  | succ f ih =>
    intro r h hf
    cases hq : r.q with
    | nil =>
      refine ⟨r, ?_, h, hq, fun _ h => h⟩
      unfold spread
      rw [hq]
    | cons v q =>
      obtain ⟨hcv, hsv⟩ := h.q v (by rw [hq]; simp)
      have h' : SideInv N adj s n inv ps0 { ({ r with q := q } : Side) with q := v :: q } := by
        rw [← hq]; exact h
      obtain ⟨i1, i2, i3, i4⟩ := spread_fold F hN hn (adj v) { r with q := q } (fun _ h => h) hsv hcv h'
      generalize hr1 : (adj v).foldl (spreadStep v) { r with q := q } = r1 at i1 i2 i3 i4
      have h1 : SideInv N adj s n inv ps0 r1 := by
        refine ⟨i1.self, i1.con, fun x hx => i1.q x (List.mem_cons_of_mem _ hx), i1.size, i1.rep, i1.mer, ?_⟩
        intro x hx hxq hne y hy
        by_cases hxv : x = v
        · subst hxv; exact i4 y hy
        · exact i1.done x hx (by simp only [List.mem_cons, not_or]; exact ⟨hxv, hxq⟩) hne y hy
      have hrest : rest N ({ r with q := q } : Side) = rest N r := rfl
      rw [hq, List.length_cons] at hf
      dsimp only at i2
      obtain ⟨r', j1, j2, j3, j4⟩ := ih r1 h1 (by omega)
      refine ⟨r', ?_, j2, j3, fun x hx => j4 x (i3 x hx)⟩
      unfold spread
      rw [hq]
      dsimp only
      rw [hr1]
      exact j1

/-- Every vertex of the contracted side that is connected to `n` ends up with `n`. -/
theorem SideInv.complete (F : Forest N adj s) (hN : Nbrs N adj) {n : Nat} (hn : n < N) {inv : Bool}
    {ps0 : List (Nat × Nat)} {r : Side} (h : SideInv N adj s n inv ps0 r) (hq : r.q = [])
    (hseed : ∀ t ∈ adj n, SideOf N s n inv t → ∃ y, r.con y = true ∧ y ≠ n ∧ Conn adj (fun z => z ≠ n) t y) {x : Nat}
    (hx : SideOf N s n inv x) (hc : Conn adj (fun _ => True) n x) : r.con x = true := by
  have spreadTo : ∀ y z, r.con y = true → y ≠ n → Conn adj (fun z => z ≠ n) y z → r.con z = true ∧ z ≠ n := by
    intro y z hy hne hyz
    induction hyz with
    | refl => exact ⟨hy, hne⟩
    | tail _ h2 ih => exact ⟨h.done _ ih.1 (by rw [hq]; simp) ih.2 _ h2.1, h2.2.2⟩
  have key : ∀ z, Conn adj (fun _ => True) n z → z = n ∨ (SideOf N s n inv z → r.con z = true) := by
    intro z hz
    induction hz with
    | refl => exact Or.inl rfl
    | @tail b c h1 h2 ih =>
      by_cases hcn : c = n
      · exact Or.inl hcn
      · right
        intro hs
        rcases ih with rfl | ih
        · obtain ⟨y, h3, h4, h5⟩ := hseed c h2.1 hs
          exact (spreadTo y c h3 h4 (conn_symm hN h5 hs.1)).1
        · by_cases hbn : b = n
          · subst hbn
            obtain ⟨y, h3, h4, h5⟩ := hseed c h2.1 hs
            exact (spreadTo y c h3 h4 (conn_symm hN h5 hs.1)).1
          · have hbN := conn_lt hN h1 hn
            rcases side_closed F hN hs (hN.symm hbN h2.1) with hb | hb
            · exact h.done b (ih hb) (by rw [hq]; simp) hbn c h2.1
            · exact absurd hb hbn
  rcases key x hc with h' | h'
  · exact absurd h' hx.2.1
  · exact h' hx

theorem pointStep_spec (F : Forest N adj s) (hN : Nbrs N adj) {ts : List Nat} (hts : ∀ t ∈ ts, t < N) {n : Nat} (hn : n < N)
    {r : UF × Bool} {ps0 : List (Nat × Nat)} (hrep : UF.Rep r.1 ps0) (hsize : r.1.size = N)
    (hps : ∀ p ∈ ps0, Good N adj ts p) :
    ∃ r', pointStep N adj ts s r n = some r' ∧ r'.1.size = N ∧ (∃ ps, UF.Rep r'.1 (ps0 ++ ps) ∧
      ∀ p ∈ ps0 ++ ps, Good N adj ts p) ∧ (r.2 = true → r'.2 = true) ∧
      ∀ inv, (∀ t ∈ ts, ¬ SideOf N s n inv t ∧ (inv = false → t ≠ n)) → (ts = [] → inv = true) →
        r'.2 = true ∧ ∀ x, SideOf N s n inv x → Conn adj (fun _ => True) n x → r'.1.root x = r'.1.root n := by
  obtain ⟨k, k1, k2, k3, k4⟩ := countRight_spec F hN hn ts hts
  unfold pointStep
  rw [k1]
  simp only [Option.bind_some]
  by_cases hk : k = 0 ∨ k = ts.length
  · rw [if_pos hk]
    generalize hinv : decide (k = ts.length) = inv
    have hfree : ∀ t ∈ ts, ¬ SideOf N s n inv t := by
      intro t ht hs
      by_cases hkl : k = ts.length
      · have : inv = true := by rw [← hinv]; simp [hkl]
        subst this
        rcases k4.1 hkl t ht with h | h
        · exact hs.2.1 h
        · have := hs.2.2.1 h; cases this
      · have h0 : k = 0 := by tauto
        have : inv = false := by rw [← hinv]; simp [hkl]
        subst this
        exact (k3.1 h0 t ht).2 (hs.2.2.2 rfl)
    have h0 : SideInv N adj s n inv ps0 ⟨update (fun _ => false) n true, [], r.1⟩ := by
      refine ⟨by simp, ?_, by simp, hsize, ⟨[], by rw [List.append_nil]; exact hrep, by simp⟩, ?_, ?_⟩
      · intro x hx
        left
        by_contra hne
        simp [update, hne] at hx
      · intro x hx
        have : x = n := by
          by_contra hne
          simp [update, hne] at hx
        rw [this]
      · intro x hx _ hne
        simp [update, hne] at hx
    obtain ⟨r1, e1, e2, e3, e4, e5⟩ := seeds_spec F hN hn inv (adj n) _ (fun _ h => h) h0
    rw [e1]
    simp only [Option.bind_some]
    have hrest : rest N r1 ≤ N := by
      unfold rest
      refine (Finset.card_filter_le _ _).trans ?_
      rw [Finset.card_range]
    obtain ⟨r2, d1, d2, d3, d4⟩ := spread_spec F hN hn ((adj n).length + N) r1 e2 (by
      simp only [List.length_nil] at e3; omega)
    rw [d1]
    simp only [Option.bind_some]
    have hno : ts.any (fun t => r2.con t && decide (t ≠ n)) = false := by
      rw [List.any_eq_false]
      intro t ht
      simp only [Bool.and_eq_true, decide_eq_true_eq, not_and, not_not]
      intro hc
      rcases d2.con t hc with h | h
      · exact h
      · exact absurd h (hfree t ht)
    rw [hno]
    simp only [Bool.false_eq_true, if_false]
    obtain ⟨ps, p1, p2⟩ := d2.rep
    refine ⟨_, rfl, d2.size, ⟨ps, p1, ?_⟩, fun _ => rfl, ?_⟩
    · intro p hp
      rcases List.mem_append.1 hp with hp | hp
      · exact hps p hp
      · obtain ⟨q1, q2, q3⟩ := p2 p hp
        exact ⟨n, SideOf N s n inv, hn, fun h => h.2.1 rfl, fun x _ hx y hy => side_closed F hN hx hy, hfree, q1, q2, q3⟩
    · intro inv' hfree' hemp
      refine ⟨rfl, fun x hx hc => ?_⟩
      have : inv' = inv := by
        by_cases htse : ts = []
        · have : inv = true := by
            rw [← hinv, htse]
            have : k = 0 := by rw [htse] at k2; simpa using k2
            simp [this]
          rw [hemp htse, this]
        · obtain ⟨t, ht⟩ := List.exists_mem_of_ne_nil _ htse
          obtain ⟨f1, f2⟩ := hfree' t ht
          have f3 := hfree t ht
          by_cases htn : t = n
          · subst htn
            have : inv' = true := by cases inv' with
              | false => exact absurd rfl (f2 rfl)
              | true => rfl
            rw [this]
            rcases hk with h | h
            · exact absurd rfl (k3.1 h t ht).1
            · rw [← hinv]; simp [h]
          · unfold SideOf at f1 f3
            have htN := hts t ht
            by_cases hR : Right s n t
            · cases inv <;> cases inv' <;> simp_all
            · cases inv <;> cases inv' <;> simp_all
      subst this
      exact d2.mer x (d2.complete F hN hn d3 (fun t ht hs => by
        obtain ⟨y, h1, h2, h3⟩ := e5 t ht hs
        exact ⟨y, d4 y h1, h2, h3⟩) hx hc)
  · rw [if_neg hk]
    refine ⟨r, rfl, hsize, ⟨[], by rw [List.append_nil]; exact hrep, by simpa using hps⟩, fun h => h, ?_⟩
    intro inv hfree hemp
    exfalso
    apply hk
    cases inv with
    | false =>
      left
      rw [k3]
      intro t ht
      obtain ⟨f1, f2⟩ := hfree t ht
      refine ⟨f2 rfl, fun h => f1 ⟨hts t ht, f2 rfl, ?_⟩⟩
      simp [h]
    | true =>
      right
      rw [k4]
      intro t ht
      by_contra hc
      rw [not_or] at hc
      exact (hfree t ht).1 ⟨hts t ht, hc.1, by simp [hc.2]⟩

theorem points_fold (F : Forest N adj s) (hN : Nbrs N adj) {ts : List Nat} (hts : ∀ t ∈ ts, t < N) :
    ∀ (l : List Nat) (r : UF × Bool) (ps0 : List (Nat × Nat)), (∀ n ∈ l, n < N) → UF.Rep r.1 ps0 → r.1.size = N →
    (∀ p ∈ ps0, Good N adj ts p) →
    ∃ r', l.foldlM (pointStep N adj ts s) r = some r' ∧ r'.1.size = N ∧ (∃ ps, UF.Rep r'.1 (ps0 ++ ps) ∧
      ∀ p ∈ ps0 ++ ps, Good N adj ts p) ∧ (r.2 = true → r'.2 = true) ∧
      ∀ n ∈ l, ∀ inv, (∀ t ∈ ts, ¬ SideOf N s n inv t ∧ (inv = false → t ≠ n)) → (ts = [] → inv = true) →
        r'.2 = true ∧ ∀ x, SideOf N s n inv x → Conn adj (fun _ => True) n x → r'.1.root x = r'.1.root n := by
  intro l
  induction l with
  | nil => intro r ps0 _ h1 h2 h3; exact ⟨r, rfl, h2, ⟨[], by rw [List.append_nil]; exact h1, by simpa using h3⟩, fun h => h, by simp⟩
  | cons n l ih =>
    intro r ps0 hl h1 h2 h3
    obtain ⟨r1, a1, a2, ⟨ps, a3, a4⟩, a5, a6⟩ := pointStep_spec F hN hts (hl n (by simp)) h1 h2 h3
    obtain ⟨r2, b1, b2, ⟨ps', b3, b4⟩, b5, b6⟩ := ih r1 (ps0 ++ ps) (fun n hn => hl n (List.mem_cons_of_mem _ hn)) a3 a2 a4
    refine ⟨r2, ?_, b2, ⟨ps ++ ps', by rw [← List.append_assoc]; exact b3, by rw [← List.append_assoc]; exact b4⟩,
      fun h => b5 (a5 h), ?_⟩
    · rw [List.foldlM_cons, a1]; exact b1
    · intro m hm inv hf he
      rcases List.mem_cons.1 hm with rfl | hm
      · obtain ⟨c1, c2⟩ := a6 inv hf he
        refine ⟨b5 c1, fun x hx hc => ?_⟩
        exact (b3.iff x m).2 (((a3.iff x m).1 (c2 x hx hc)).mono fun p hp => List.mem_append_left _ hp)
      · exact b6 m hm inv hf he

end APState
end VieCut
