import Verif.Proof.ArticulationDFS
import Mathlib.Logic.Relation

/-! # Low points: which subtrees an articulation point closes off -/

namespace VieCut
namespace APState
open Function

variable {N : Nat} {adj : Nat → List Nat} {s : APState}

/-- Connected by edges between vertices in `P`. -/
def Conn (adj : Nat → List Nat) (P : Nat → Prop) (a b : Nat) : Prop :=
  Relation.ReflTransGen (fun x y => y ∈ adj x ∧ P x ∧ P y) a b

theorem Anc.refl (p : Nat → Nat) (u : Nat) : Anc p u u := ⟨0, rfl⟩

theorem Anc.parent (p : Nat → Nat) (u : Nat) : Anc p (p u) u := ⟨1, rfl⟩

theorem Anc.trans {p : Nat → Nat} {u v x : Nat} (h1 : Anc p u v) (h2 : Anc p v x) : Anc p u x := by
  obtain ⟨k, rfl⟩ := h1
  obtain ⟨l, rfl⟩ := h2
  exact ⟨k + l, by rw [iterate_add_apply]⟩

theorem Anc.comparable {p : Nat → Nat} {a b x : Nat} (h1 : Anc p a x) (h2 : Anc p b x) : Anc p a b ∨ Anc p b a := by
  obtain ⟨k, rfl⟩ := h1
  obtain ⟨l, rfl⟩ := h2
  rcases Nat.le_total k l with h | h
  · right
    exact ⟨l - k, by rw [← iterate_add_apply, Nat.sub_add_cancel h]⟩
  · left
    exact ⟨k - l, by rw [← iterate_add_apply, Nat.sub_add_cancel h]⟩

/-- An ancestor of `x` other than `x` is an ancestor of the parent. -/
theorem Anc.of_ne {p : Nat → Nat} {a x : Nat} (h : Anc p a x) (hne : a ≠ x) : Anc p a (p x) := by
  obtain ⟨k, hk⟩ := h
  cases k with
  | zero => exact absurd hk.symm hne
  | succ k => exact ⟨k, by rw [iterate_succ_apply] at hk; exact hk⟩

namespace Forest

theorem anc_lt (F : Forest N adj s) {u v : Nat} (h : Anc s.parent u v) (hv : v < N) : u < N := by
  obtain ⟨k, rfl⟩ := h
  induction k with
  | zero => exact hv
  | succ k ih => rw [iterate_succ_apply']; exact F.lt _ ih

theorem disc_parent (F : Forest N adj s) {v : Nat} (hv : v < N) : s.disc (s.parent v) ≤ s.disc v := by
  by_cases h : s.parent v = v
  · rw [h]
  · exact (F.tree v hv h).1.le

theorem anc_disc (F : Forest N adj s) {u v : Nat} (h : Anc s.parent u v) (hv : v < N) : s.disc u ≤ s.disc v := by
  obtain ⟨k, rfl⟩ := h
  induction k with
  | zero => exact Nat.le_refl _
  | succ k ih =>
    rw [iterate_succ_apply']
    exact (F.disc_parent (F.anc_lt ⟨k, rfl⟩ hv)).trans ih

theorem anc_antisymm (F : Forest N adj s) {u v : Nat} (h : Anc s.parent u v) (h' : Anc s.parent v u) (hv : v < N) :
    u = v := by
  have hu := F.anc_lt h hv
  exact F.inj u v hu hv (Nat.le_antisymm (F.anc_disc h hv) (F.anc_disc h' hu))

/-- Neighbours are comparable. -/
theorem nbr_anc (F : Forest N adj s) (hN : Nbrs N adj) {x y : Nat} (hx : x < N) (hy : y ∈ adj x) :
    Anc s.parent x y ∨ Anc s.parent y x := by
  have hyN := hN.lt hx hy
  rcases Nat.lt_trichotomy (s.disc x) (s.disc y) with h | h | h
  · exact Or.inl (F.comp x y hx hy h)
  · rw [F.inj x y hx hyN h]; exact Or.inl (Anc.refl _ _)
  · exact Or.inr (F.comp y x hyN (hN.symm hx hy) h)

/-- Low points are monotone: a bound on `lowest[t]` holds in the whole subtree. -/
theorem low_sub (F : Forest N adj s) {n t m : Nat} (ht : s.parent t = n) (hne : t ≠ n) (hm : m ≤ s.low t) :
    ∀ k x, x < N → s.parent^[k] x = t → m ≤ s.low x ∧ s.parent x ≠ x := by
  intro k
  induction k with
  | zero =>
    intro x _ hx
    rw [iterate_zero, id] at hx
    subst hx
    exact ⟨hm, by rw [ht]; exact Ne.symm hne⟩
  | succ k ih =>
    intro x hxN hx
    rw [iterate_succ_apply] at hx
    by_cases hr : s.parent x = x
    · rw [hr] at hx
      exact ih x hxN hx
    · obtain ⟨h1, h2⟩ := ih _ (F.lt x hxN) hx
      refine ⟨?_, hr⟩
      have h3 := ((F.low _ (F.lt x hxN) h2 m).1 h1).2 x (F.tree x hxN hr).2
      rw [if_pos rfl] at h3
      exact h3

/-- A child whose low point is not below `n` closes off its subtree. -/
theorem closed (F : Forest N adj s) (hN : Nbrs N adj) {n t x y : Nat} (ht : s.parent t = n) (hne : t ≠ n)
    (hm : s.disc n ≤ s.low t) (hxN : x < N) (hx : Anc s.parent t x) (hy : y ∈ adj x) : Anc s.parent t y ∨ y = n := by
  obtain ⟨k, hk⟩ := id hx
  obtain ⟨h1, h2⟩ := F.low_sub ht hne hm k x hxN hk
  have h3 := ((F.low x hxN h2 _).1 h1).2 y hy
  have hyN := hN.lt hxN hy
  by_cases hc : s.parent y = x
  · left; exact hx.trans (hc ▸ Anc.parent _ _)
  rw [if_neg hc] at h3
  by_cases hp : y = s.parent x
  · by_cases hxt : x = t
    · right; rw [hp, hxt, ht]
    · left; rw [hp]; exact hx.of_ne (Ne.symm hxt)
  have h4 := h3 hp
  rcases F.nbr_anc hN hxN hy with h | h
  · exact Or.inl (hx.trans h)
  · rcases h.comparable hx with h5 | h5
    · by_cases hyt : y = t
      · left; rw [hyt]; exact Anc.refl _ _
      · right
        have h6 := h5.of_ne hyt
        rw [ht] at h6
        have hnN : n < N := ht ▸ F.lt t (F.anc_lt hx hxN)
        exact F.inj y n hyN hnN (Nat.le_antisymm (F.anc_disc h6 hnN) h4)
    · exact Or.inl h5

/-- Otherwise an edge leads from the subtree to a vertex discovered before `n`. -/
theorem open' (F : Forest N adj s) (hN : Nbrs N adj) {n : Nat} : ∀ (j t : Nat), N - s.disc t = j → t < N →
    s.parent t ≠ t → s.disc n ≤ s.disc t → ¬ s.disc n ≤ s.low t →
    ∃ x y, x < N ∧ Anc s.parent t x ∧ y ∈ adj x ∧ s.disc y < s.disc n := by
  intro j
  induction j using Nat.strong_induction_on with
  | _ j ih =>
    intro t hj ht hr hd hlow
    rw [F.low t ht hr] at hlow
    simp only [not_and, not_forall] at hlow
    obtain ⟨y, hy, hc⟩ := hlow hd
    have hyN := hN.lt ht hy
    by_cases hp : s.parent y = t
    · rw [if_pos hp] at hc
      have hyt : s.parent y ≠ y := by
        rw [hp]; rintro rfl; exact hN.irr ht hy
      have hlt := (F.tree y hyN hyt).1
      rw [hp] at hlt
      have hr2 := (F.range y hyN).2
      obtain ⟨x, z, h1, h2, h3, h4⟩ := ih (N - s.disc y) (by omega) y rfl hyN hyt (by omega) hc
      exact ⟨x, z, h1, (hp ▸ Anc.parent _ _ : Anc s.parent t y).trans h2, h3, h4⟩
    · rw [if_neg hp] at hc
      push Not at hc
      exact ⟨t, y, ht, Anc.refl _ _, hy, hc.2⟩

/-! ### Connections along the tree -/

theorem conn_anc (F : Forest N adj s) (hN : Nbrs N adj) {P : Nat → Prop} : ∀ (k x : Nat), x < N →
    (∀ j, j ≤ k → P (s.parent^[j] x)) → Conn adj P x (s.parent^[k] x) := by
  intro k
  induction k with
  | zero => intro x _ _; exact Relation.ReflTransGen.refl
  | succ k ih =>
    intro x hx hP
    rw [iterate_succ_apply]
    have h1 := ih (s.parent x) (F.lt x hx) (fun j hj => by
      have := hP (j + 1) (by omega)
      rwa [iterate_succ_apply] at this)
    by_cases hr : s.parent x = x
    · rw [hr] at h1 ⊢; exact h1
    · refine Relation.ReflTransGen.head ⟨?_, hP 0 (by omega), hP 1 (by omega)⟩ h1
      exact hN.symm (F.lt x hx) (F.tree x hx hr).2

theorem conn_symm (hN : Nbrs N adj) {P : Nat → Prop} {a b : Nat} (h : Conn adj P a b) (ha : a < N) : Conn adj P b a := by
  have key : ∀ b, Conn adj P a b → b < N ∧ Conn adj P b a := by
    intro b h
    induction h with
    | refl => exact ⟨ha, Relation.ReflTransGen.refl⟩
    | tail _ h2 ih =>
      exact ⟨hN.lt ih.1 h2.1, Relation.ReflTransGen.head ⟨hN.symm ih.1 h2.1, h2.2.2, h2.2.1⟩ ih.2⟩
  exact (key b h).2

theorem conn_lt (hN : Nbrs N adj) {P : Nat → Prop} {a b : Nat} (h : Conn adj P a b) (ha : a < N) : b < N := by
  induction h with
  | refl => exact ha
  | tail _ h2 ih => exact hN.lt ih h2.1

theorem conn_mono {P Q : Nat → Prop} (hPQ : ∀ x, P x → Q x) {a b : Nat} (h : Conn adj P a b) : Conn adj Q a b := by
  induction h with
  | refl => exact Relation.ReflTransGen.refl
  | tail _ h2 ih => exact ih.tail ⟨h2.1, hPQ _ h2.2.1, hPQ _ h2.2.2⟩

/-- Every vertex has a root above it. -/
theorem exists_root (F : Forest N adj s) : ∀ (j x : Nat), s.disc x = j → x < N → ∃ r, Anc s.parent r x ∧ s.parent r = r := by
  intro j
  induction j using Nat.strong_induction_on with
  | _ j ih =>
    intro x hj hx
    by_cases hr : s.parent x = x
    · exact ⟨x, Anc.refl _ _, hr⟩
    · have hlt := (F.tree x hx hr).1
      obtain ⟨r, h1, h2⟩ := ih (s.disc (s.parent x)) (by omega) _ rfl (F.lt x hx)
      exact ⟨r, h1.trans (Anc.parent _ _), h2⟩

theorem root_unique (F : Forest N adj s) {r r' x : Nat} (h : Anc s.parent r x) (h' : Anc s.parent r' x)
    (hr : s.parent r = r) (hr' : s.parent r' = r') : r = r' := by
  have fix : ∀ {a}, s.parent a = a → ∀ k, s.parent^[k] a = a := fun h k => iterate_fixed h k
  rcases h.comparable h' with ⟨k, hk⟩ | ⟨k, hk⟩
  · rw [fix hr'] at hk; exact hk.symm
  · rw [fix hr] at hk; exact hk

/-- Connected vertices have the same root. -/
theorem conn_root (F : Forest N adj s) (hN : Nbrs N adj) {P : Nat → Prop} {a b r : Nat} (h : Conn adj P a b) (ha : a < N)
    (hr : Anc s.parent r a) (hrr : s.parent r = r) : Anc s.parent r b := by
  induction h with
  | refl => exact hr
  | tail h1 h2 ih =>
    have hlt := conn_lt hN h1 ha
    rcases F.nbr_anc hN hlt h2.1 with h | h
    · exact ih.trans h
    · rcases ih.comparable h with h' | ⟨k, hk⟩
      · exact h'
      · rw [iterate_fixed hrr] at hk
        rw [hk]; exact Anc.refl _ _

/-- The root is the first vertex of its component. -/
theorem root_first (F : Forest N adj s) (hN : Nbrs N adj) {P : Nat → Prop} {r u : Nat} (hr : r < N) (hrr : s.parent r = r)
    (h : Conn adj P r u) : r ≤ u := by
  by_contra hc
  have h1 := F.first r hr hrr u (by omega)
  have h2 := F.anc_disc (F.conn_root hN h hr (Anc.refl _ _) hrr) (conn_lt hN h hr)
  omega

/-- The root above a vertex is connected to it. -/
theorem conn_top (F : Forest N adj s) (hN : Nbrs N adj) {r x : Nat} (hx : x < N) (h : Anc s.parent r x) :
    Conn adj (fun _ => True) r x := by
  obtain ⟨k, rfl⟩ := h
  exact conn_symm hN (F.conn_anc hN k x hx (fun _ _ => trivial)) hx

/-- Below `v` means in the subtree of `v`; everything else is connected to the root without meeting `v`. -/
theorem conn_outside (F : Forest N adj s) (hN : Nbrs N adj) {v r x : Nat} (hx : x < N) (hr : Anc s.parent r x)
    (hv : ¬ Anc s.parent v x) : Conn adj (fun y => y ≠ v) x r := by
  obtain ⟨k, rfl⟩ := hr
  refine F.conn_anc hN k x hx fun j _ h => hv ⟨j, h⟩

/-- A vertex strictly below `v` is connected, inside the subtree, with a child of `v`. -/
theorem child_above (F : Forest N adj s) : ∀ (k x : Nat), x < N → s.parent^[k] x = v → x ≠ v →
    ∃ t, s.parent t = v ∧ t ≠ v ∧ Anc s.parent t x := by
  intro k
  induction k with
  | zero => intro x _ h hne; exact absurd h hne
  | succ k ih =>
    intro x hx h hne
    rw [iterate_succ_apply] at h
    by_cases hp : s.parent x = v
    · exact ⟨x, hp, hne, Anc.refl _ _⟩
    · obtain ⟨t, h1, h2, h3⟩ := ih (s.parent x) (F.lt x hx) h hp
      exact ⟨t, h1, h2, h3.trans (Anc.parent _ _)⟩

/-- The subtree of a child of `v` does not contain `v`, and is connected without `v`. -/
theorem conn_sub (F : Forest N adj s) (hN : Nbrs N adj) {v t x : Nat} (ht : s.parent t = v) (hne : t ≠ v) (hx : x < N)
    (h : Anc s.parent t x) : Conn adj (fun y => y ≠ v) x t := by
  have htN := F.anc_lt h hx
  have hlt : s.disc v < s.disc t := by
    have := (F.tree t htN (by rw [ht]; exact Ne.symm hne)).1
    rwa [ht] at this
  obtain ⟨k, rfl⟩ := h
  refine F.conn_anc hN k x hx fun j hj he => ?_
  have h1 : Anc s.parent (s.parent^[k] x) (s.parent^[j] x) :=
    ⟨k - j, by rw [← iterate_add_apply, Nat.sub_add_cancel hj]⟩
  have h2 := F.anc_disc h1 (F.anc_lt ⟨j, rfl⟩ hx)
  rw [he] at h2
  omega

/-- What lies to the right of `n`: the subtrees its children close off. -/
def Right (s : APState) (n x : Nat) : Prop := ∃ t, s.parent t = n ∧ t ≠ n ∧ s.disc n ≤ s.low t ∧ Anc s.parent t x

theorem right_closed (F : Forest N adj s) (hN : Nbrs N adj) {n x y : Nat} (hx : x < N) (h : Right s n x)
    (hy : y ∈ adj x) : Right s n y ∨ y = n := by
  obtain ⟨t, h1, h2, h3, h4⟩ := h
  rcases F.closed hN h1 h2 h3 hx h4 hy with h | h
  · exact Or.inl ⟨t, h1, h2, h3, h⟩
  · exact Or.inr h

theorem right_ne (F : Forest N adj s) {n x : Nat} (hx : x < N) (h : Right s n x) : x ≠ n := by
  obtain ⟨t, h1, h2, h3, h4⟩ := h
  rintro rfl
  have ht := F.anc_lt h4 hx
  have := (F.tree t ht (by rw [h1]; exact Ne.symm h2)).1
  rw [h1] at this
  have := F.anc_disc h4 hx
  omega

/-- Everything in the component that is not to the right of `v` (and not `v`) is connected to the root without `v`. -/
theorem conn_left (F : Forest N adj s) (hN : Nbrs N adj) {v r x : Nat} (hx : x < N) (hv : v < N) (hvr : s.parent v ≠ v)
    (hr : Anc s.parent r x) (hrr : s.parent r = r) (hne : x ≠ v) (hnr : ¬ Right s v x) :
    Conn adj (fun y => y ≠ v) x r := by
  by_cases ha : Anc s.parent v x
  · obtain ⟨k, hk⟩ := ha
    obtain ⟨t, h1, h2, h3⟩ := F.child_above k x hx hk hne
    have htN := F.anc_lt h3 hx
    have hlow : ¬ s.disc v ≤ s.low t := fun h => hnr ⟨t, h1, h2, h, h3⟩
    have htr : s.parent t ≠ t := by rw [h1]; exact Ne.symm h2
    have hdt := (F.tree t htN htr).1
    rw [h1] at hdt
    obtain ⟨a, b, ha, hta, hb, hlt⟩ := F.open' hN _ t rfl htN htr hdt.le hlow
    have hbN := hN.lt ha hb
    have hbv : ¬ Anc s.parent v b := fun h => by have := F.anc_disc h hbN; omega
    have c1 := F.conn_sub hN h1 h2 hx h3
    have c2 := conn_symm hN (F.conn_sub hN h1 h2 ha hta) ha
    have hav : a ≠ v := by
      rintro rfl; have := F.anc_disc hta ha; omega
    have hra : Anc s.parent r a := by
      refine F.conn_root hN (P := fun _ => True) (a := x) (conn_mono (fun _ _ => trivial) (c1.trans c2)) hx hr hrr
    have hrb : Anc s.parent r b :=
      F.conn_root hN (P := fun _ => True) (a := a) (Relation.ReflTransGen.single ⟨hb, trivial, trivial⟩) ha hra hrr
    refine (c1.trans c2).trans (Relation.ReflTransGen.head ⟨hb, hav, ?_⟩ (F.conn_outside hN hbN hrb hbv))
    rintro rfl; exact hbv (Anc.refl _ _)
  · exact F.conn_outside hN hx hr ha

/-- Nothing to the right of `v` is connected to anything else without `v`. -/
theorem conn_right (F : Forest N adj s) (hN : Nbrs N adj) {v x y : Nat} (hx : x < N) (h : Right s v x)
    (hc : Conn adj (fun z => z ≠ v) x y) : Right s v y := by
  induction hc with
  | refl => exact h
  | tail h1 h2 ih =>
    rcases F.right_closed hN (conn_lt hN h1 hx) ih h2.1 with h' | h'
    · exact h'
    · exact absurd h' h2.2.2

/-- The reported vertices are the cut vertices other than roots. -/
theorem points_iff (F : Forest N adj s) (hN : Nbrs N adj) (v : Nat) : v ∈ s.points ↔ v < N ∧ s.parent v ≠ v ∧
    ∃ a b, a < N ∧ b < N ∧ a ≠ v ∧ b ≠ v ∧ Conn adj (fun _ => True) a b ∧ ¬ Conn adj (fun x => x ≠ v) a b := by
  rw [F.pts]
  refine and_congr_right fun hv => and_congr_right fun hr => ?_
  constructor
  · rintro ⟨t, ht, hp, hlow⟩
    have htN := hN.lt hv ht
    have hne : t ≠ v := fun h => hN.irr hv (h ▸ ht)
    obtain ⟨r, h1, h2⟩ := F.exists_root _ v rfl hv
    have hrv : r ≠ v := fun h => hr (h ▸ h2)
    have hR : Right s v t := ⟨t, hp, hne, hlow, Anc.refl _ _⟩
    refine ⟨t, r, htN, F.anc_lt h1 hv, hne, hrv, ?_, ?_⟩
    · exact conn_symm hN (F.conn_top hN htN (h1.trans (hp ▸ Anc.parent _ _))) (F.anc_lt h1 hv)
    · intro hc
      obtain ⟨t', h3, h4, h5, h6⟩ := F.conn_right hN htN hR hc
      obtain ⟨k, hk⟩ := h6
      rw [iterate_fixed h2] at hk
      subst hk
      rw [h2] at h3
      exact h4 h3
  · rintro ⟨a, b, ha, hb, hav, hbv, h1, h2⟩
    by_contra hc
    have hno : ∀ x, x < N → ¬ Right s v x := by
      rintro x hx ⟨t, h3, h4, h5, h6⟩
      have htN := F.anc_lt h6 hx
      have := (F.tree t htN (by rw [h3]; exact Ne.symm h4)).2
      rw [h3] at this
      exact hc ⟨t, this, h3, h5⟩
    obtain ⟨r, h3, h4⟩ := F.exists_root _ a rfl ha
    have h5 := F.conn_root hN h1 ha h3 h4
    exact h2 ((F.conn_left hN ha hv hr h3 h4 hav (hno a ha)).trans
      (conn_symm hN (F.conn_left hN hb hv hr h5 h4 hbv (hno b hb)) hb))

end Forest
end APState
end VieCut
