import Verif.Model.AllCutRed
import Verif.Proof.CactusKernel
import Verif.Proof.Isolating
import Verif.Proof.VieCutAlg
import Verif.Proof.MutableSimple

/-!
# The local reductions for all minimum cuts
-/

namespace VieCut
open Finset Function Graph

/-! ### Weight between two sets -/

section between
variable {n : Nat} {w : Nat → Nat → Nat}

/-- Weight of the edges between `A` and `B`. -/
noncomputable def between (n : Nat) (w : Nat → Nat → Nat) (A B : Nat → Bool) : Nat :=
  wsum n w (fun u v => ind (A u = true ∧ B v = true))

theorem cut_union (hw : ∀ u v, w u v = w v u) {A B : Nat → Bool} (h : ∀ x, ¬ (A x = true ∧ B x = true)) :
    cutValue n w (fun x => A x || B x) + 2 * between n w A B = cutValue n w A + cutValue n w B := by
  have h1 := two_cutValue (n := n) hw A
  have h2 := two_cutValue (n := n) hw B
  have h3 := two_cutValue (n := n) hw (fun x => A x || B x)
  have h4 : between n w A B = wsum n w (fun u v => ind (B u = true ∧ A v = true)) := by
    unfold between
    rw [← wsum_swap hw]
    refine wsum_congr fun u v _ _ => ?_
    congr 1
    exact propext and_comm
  have key : wsum n w (fun u v => ind ((A u || B u) ≠ (A v || B v))) + (2 * between n w A B + 2 * between n w A B) =
      wsum n w (fun u v => ind (A u ≠ A v)) + wsum n w (fun u v => ind (B u ≠ B v)) := by
    have e : 2 * between n w A B + 2 * between n w A B = (wsum n w (fun u v => ind (A u = true ∧ B v = true)) +
        wsum n w (fun u v => ind (B u = true ∧ A v = true))) + (wsum n w (fun u v => ind (A u = true ∧ B v = true)) +
        wsum n w (fun u v => ind (B u = true ∧ A v = true))) := by
      rw [← h4]; show _ = (between n w A B + _) + (between n w A B + _); omega
    rw [e, ← wsum_add, ← wsum_add, ← wsum_add, ← wsum_add]
    refine wsum_congr fun u v _ _ => ?_
    have a1 := h u
    have a2 := h v
    cases hu : A u <;> cases hv : A v <;> cases hu' : B u <;> cases hv' : B v <;> simp_all [ind]
  omega

theorem wt_le_between {A B : Nat → Bool} {u v : Nat} (hu : u < n) (hv : v < n) (ha : A u = true) (hb : B v = true) :
    w u v ≤ between n w A B := by
  unfold between wsum
  refine le_trans ?_ (Finset.single_le_sum (f := fun u => ∑ v ∈ range n, ind (A u = true ∧ B v = true) * w u v) (fun _ _ => Nat.zero_le _)
    (mem_range.2 hu))
  refine le_trans ?_ (Finset.single_le_sum (f := fun v => ind (A u = true ∧ B v = true) * w u v) (fun _ _ => Nat.zero_le _) (mem_range.2 hv))
  simp [ind, ha, hb]

end between

/-! ### The root after a union -/

theorem union_root_val {u : UF} (hu : u.Inv) {l r : Nat} (hl : l < u.size) (hr : r < u.size) (hne : u.root l ≠ u.root r) :
    ∃ ρ, (ρ = u.root l ∨ ρ = u.root r) ∧
      ∀ x, (u.union l r).2.root x = if u.root x = u.root l ∨ u.root x = u.root r then ρ else u.root x := by
  have e1 := UF.find_fst hu l
  have i1 := UF.find_inv hu l
  have e2 := UF.find_fst i1 r
  have i2 := UF.find_inv i1 r
  rw [UF.find_root hu] at e2
  have hroot : ∀ y, ((u.find l).2.find r).2.root y = u.root y := fun y => by rw [UF.find_root i1, UF.find_root hu]
  have hinv' := (union_root hu hl hr).1
  have hsz : ((u.find l).2.find r).2.size = u.size := rfl
  unfold UF.union at hinv' ⊢
  simp only [e1, e2] at hinv' ⊢
  rw [if_pos hne] at hinv' ⊢
  generalize hu2 : ((u.find l).2.find r).2 = u2 at *
  have pa : u2.parent (u.root l) = u.root l := by rw [← hroot]; exact UF.parent_root i2 _
  have pb : u2.parent (u.root r) = u.root r := by rw [← hroot]; exact UF.parent_root i2 _
  have hr0 : ∀ y, UF.rootOf u2.parent u2.size y = u.root y := hroot
  split
  · rename_i hlt
    rw [if_pos hlt] at hinv'
    refine ⟨u.root r, Or.inr rfl, fun x => ?_⟩
    have := UF.rootOf_link i2.forest pa pb hne hinv'.forest x
    rw [hr0] at this
    show UF.rootOf (update u2.parent (u.root l) (u.root r)) u2.size x = _
    refine this.trans ?_
    by_cases h1 : u.root x = u.root l
    · rw [if_pos h1, if_pos (Or.inl h1)]
    · rw [if_neg h1]
      by_cases h2 : u.root x = u.root r
      · rw [if_pos (Or.inr h2), h2]
      · rw [if_neg (by tauto)]
  · rename_i hlt
    rw [if_neg hlt] at hinv'
    refine ⟨u.root l, Or.inl rfl, fun x => ?_⟩
    have := UF.rootOf_link i2.forest pb pa (Ne.symm hne) hinv'.forest x
    rw [hr0] at this
    show UF.rootOf (update u2.parent (u.root r) (u.root l)) u2.size x = _
    refine this.trans ?_
    by_cases h1 : u.root x = u.root r
    · rw [if_pos h1, if_pos (Or.inr h1)]
    · rw [if_neg h1]
      by_cases h2 : u.root x = u.root l
      · rw [if_pos (Or.inl h2), h2]
      · rw [if_neg (by tauto)]

namespace AllRed

/-! ### Tests 1 and 2 -/

/-- The class of `x`. -/
def cls (u : UF) (a : Nat) : Nat → Bool := fun v => decide (u.root v = a)

/-- The cut is kept, or one of its sides is inside a class. -/
def Status (n : Nat) (u : UF) (S : Nat → Bool) : Prop :=
  Respects u S ∨ ∃ b, ∀ x y, x < n → y < n → S x = b → S y = b → u.root x = u.root y

structure Inv12 (G : Graph) (limit : Nat) (S : Nat → Bool) (s : Loc12) : Prop where
  inv : s.uf.Inv
  size : s.uf.size = G.n
  ge : ∀ x, x < G.n → cutValue G.n G.wt (cls s.uf (s.uf.root x)) ≤ s.deg (s.uf.root x)
  le : ∀ x, x < G.n → s.deg (s.uf.root x) ≤ ∑ v ∈ range G.n, if s.uf.root v = s.uf.root x then G.deg v else 0
  sing : ∀ v, v < G.n → G.deg v ≤ limit → ∀ x, s.uf.root x = s.uf.root v → x = v
  status : Status G.n s.uf S

theorem Inv12.init {G : Graph} (hG : G.WF) (limit : Nat) (S : Nat → Bool) :
    Inv12 G limit S { uf := UF.mk' G.n, deg := fun n => G.deg n } := by
  have hr : ∀ x, (UF.mk' G.n).root x = x := fun x => UF.rootOf_root (by simp [UF.mk'])
  refine ⟨UF.init_inv _, rfl, ?_, ?_, ?_, Or.inl (respects_init _ _)⟩
  · intro x hx
    show cutValue G.n G.wt (cls (UF.mk' G.n) ((UF.mk' G.n).root x)) ≤ G.deg ((UF.mk' G.n).root x)
    rw [hr, ← hG.cut_singleton hx]
    refine le_of_eq (cutValue_congr fun v _ => ?_)
    simp only [cls, hr]
    rfl
  · intro x hx
    show G.deg ((UF.mk' G.n).root x) ≤ ∑ v ∈ range G.n, if (UF.mk' G.n).root v = (UF.mk' G.n).root x then G.deg v else 0
    simp only [hr]
    rw [Finset.sum_ite_eq' (range G.n) x]
    simp [hx]
  · intro v _ _ x hx
    show x = v
    have : (UF.mk' G.n).root x = (UF.mk' G.n).root v := hx
    rwa [hr, hr] at this

theorem Inv12.find {G : Graph} {limit : Nat} {S : Nat → Bool} {s : Loc12} (h : Inv12 G limit S s) (x : Nat) :
    Inv12 G limit S { s with uf := (s.uf.find x).2 } := by
  have hr := fun y => UF.find_root h.inv x y
  refine ⟨UF.find_inv h.inv _, h.size, ?_, ?_, ?_, ?_⟩
  · intro y hy
    have := h.ge y hy
    unfold cls at this ⊢
    simpa only [hr] using this
  · intro y hy
    have := h.le y hy
    simpa only [hr] using this
  · intro v hv hd y hy
    refine h.sing v hv hd y ?_
    simpa only [hr] using hy
  · rcases h.status with h1 | ⟨b, h1⟩
    · exact Or.inl (h1.find h.inv x)
    · exact Or.inr ⟨b, fun y z hy hz h2 h3 => by simpa only [hr] using h1 y z hy hz h2 h3⟩

/-- If the class of `n` is lighter than twice an edge to the other side, the side of `n` is the class. -/
theorem side_in_class {G : Graph} (hG : G.WF) {u : UF} {S : Nat → Bool} (hS : Respects u S)
    (hmin : ∀ T, ProperCut G.n T → cutValue G.n G.wt S ≤ cutValue G.n G.wt T) {n t : Nat} (hn : n < G.n) (ht : t < G.n)
    (h1 : S n = true) (h2 : S t = false) (hd : cutValue G.n G.wt (cls u (u.root n)) < 2 * G.wt n t) :
    ∀ x, x < G.n → S x = true → u.root x = u.root n := by
  intro x hx hSx
  by_contra hne
  have hAS : ∀ v, u.root v = u.root n → S v = true := fun v hv => by rw [hS v n hv, h1]
  have e := cut_union (n := G.n) hG.wt_symm (A := fun v => !S v) (B := cls u (u.root n)) (by
    rintro v ⟨a, b⟩
    simp only [cls, decide_eq_true_eq] at b
    simp [hAS v b] at a)
  have hb := wt_le_between (w := G.wt) (A := fun v => !S v) (B := cls u (u.root n)) ht hn (by simp [h2]) (by simp [cls])
  rw [hG.wt_symm] at hb
  rw [cutValue_compl hG.wt_symm] at e
  have hp : ProperCut G.n (fun v => (!S v) || cls u (u.root n) v) := by
    refine ⟨⟨n, hn, by simp [cls]⟩, ⟨x, hx, ?_⟩⟩
    simp [cls, hSx, hne]
  have := hmin _ hp
  omega

theorem Status.union {n : Nat} {u : UF} (hu : u.Inv) (hs : u.size = n) {l r : Nat} (hl : l < n) (hr : r < n) {S : Nat → Bool}
    (h : ∃ b, ∀ x y, x < n → y < n → S x = b → S y = b → u.root x = u.root y) :
    ∃ b, ∀ x y, x < n → y < n → S x = b → S y = b → (u.union l r).2.root x = (u.union l r).2.root y := by
  obtain ⟨b, h⟩ := h
  refine ⟨b, fun x y hx hy h1 h2 => ?_⟩
  rw [(union_root hu (hs ▸ hl) (hs ▸ hr)).2.2, h x y hx hy h1 h2]

theorem Inv12.edge {G : Graph} (hG : G.WF) (hb : ∑ u ∈ range G.n, G.deg u < 2 ^ 63) {limit : Nat} {S : Nat → Bool}
    (hmin : ∀ T, ProperCut G.n T → cutValue G.n G.wt S ≤ cutValue G.n G.wt T) (hlim : cutValue G.n G.wt S = limit)
    {s : Loc12} (h : Inv12 G limit S s) {n : Nat} {e : Nat × Nat} (he : e ∈ G.edges n) : Inv12 G limit S (edge12 limit n s e) := by
  have hn := lt_n_of_edge he
  have ht := hG.tgt_lt n e he
  have hnt := hG.no_loop n e he
  have hw := edge_le_wt he
  have hf1 := h.find e.1
  have hf2 := hf1.find n
  have r1 : (s.uf.find e.1).1 = s.uf.root e.1 := UF.find_fst h.inv _
  have r2 : ((s.uf.find e.1).2.find n).1 = s.uf.root n := by rw [UF.find_fst hf1.inv, UF.find_root h.inv]
  unfold edge12
  simp only [r1, r2]
  split
  swap
  · exact hf2
  rename_i hc
  obtain ⟨c1, c2, c3, c4⟩ := hc
  have hroot : ∀ y, ((s.uf.find e.1).2.find n).2.root y = s.uf.root y := fun y => by
    rw [UF.find_root hf1.inv, UF.find_root h.inv]
  have hi2 := hf2.inv
  have hsz2 : ((s.uf.find e.1).2.find n).2.size = G.n := h.size
  have st2 := hf2.status
  dsimp only at hi2 st2
  generalize ((s.uf.find e.1).2.find n).2 = u2 at hroot hi2 hsz2 st2 ⊢
  have hrr : ∀ x, u2.root (s.uf.root x) = s.uf.root x := fun x => by rw [hroot]; exact UF.root_root h.inv x
  have la : s.uf.root n < G.n := by rw [← h.size]; exact UF.root_lt h.inv (by rw [h.size]; exact hn)
  have lb : s.uf.root e.1 < G.n := by rw [← h.size]; exact UF.root_lt h.inv (by rw [h.size]; exact ht)
  have la' : s.uf.root n < u2.size := by rw [hsz2]; exact la
  have lb' : s.uf.root e.1 < u2.size := by rw [hsz2]; exact lb
  obtain ⟨j1, j2, -⟩ := union_root hi2 la' lb'
  obtain ⟨ρ, hρ, hval⟩ := union_root_val hi2 la' lb' (by rw [hrr, hrr]; exact Ne.symm c1)
  simp only [hrr, hroot] at hρ hval
  -- the weights
  set a := s.uf.root n with ha
  set b := s.uf.root e.1 with hbdef
  have dA := h.ge n hn
  have dB := h.ge e.1 ht
  rw [← ha] at dA
  rw [← hbdef] at dB
  have hun := cut_union (n := G.n) hG.wt_symm (A := cls s.uf a) (B := cls s.uf b) (by
    rintro v ⟨x, y⟩
    simp only [cls, decide_eq_true_eq] at x y
    exact c1 (y.symm.trans x))
  have hbt := wt_le_between (w := G.wt) (A := cls s.uf a) (B := cls s.uf b) hn ht (by simp [cls, ha]) (by simp [cls, hbdef])
  have sumAB : (∑ v ∈ range G.n, if s.uf.root v = a then G.deg v else 0) + (∑ v ∈ range G.n, if s.uf.root v = b then G.deg v else 0) =
      ∑ v ∈ range G.n, if s.uf.root v = a ∨ s.uf.root v = b then G.deg v else 0 := by
    rw [← Finset.sum_add_distrib]
    refine Finset.sum_congr rfl fun v _ => ?_
    by_cases x1 : s.uf.root v = a
    · have : s.uf.root v ≠ b := fun x2 => c1 (x2.symm.trans x1)
      simp [x1, Ne.symm c1]
    · simp [x1]
  have sumle : (∑ v ∈ range G.n, if s.uf.root v = a ∨ s.uf.root v = b then G.deg v else 0) ≤ ∑ u ∈ range G.n, G.deg u := by
    refine Finset.sum_le_sum fun v _ => ?_
    split <;> omega
  have lA := h.le n hn
  have lB := h.le e.1 ht
  rw [← ha] at lA
  rw [← hbdef] at lB
  have e2 : u64 (2 * e.2) = 2 * e.2 := Nat.mod_eq_of_lt (by omega)
  have ew : u64 (s.deg a + s.deg b + (2 ^ 64 - u64 (2 * e.2))) = s.deg a + s.deg b - 2 * e.2 := by
    rw [e2]
    have : s.deg a + s.deg b + (2 ^ 64 - 2 * e.2) = (s.deg a + s.deg b - 2 * e.2) + 2 ^ 64 := by omega
    rw [this]
    unfold u64
    rw [Nat.add_mod_right, Nat.mod_eq_of_lt (by omega)]
  rw [ew]
  have hnew : ∀ x, (update (update s.deg a (s.deg a + s.deg b - 2 * e.2)) b (s.deg a + s.deg b - 2 * e.2)) ((u2.union a b).2.root x) =
      if s.uf.root x = a ∨ s.uf.root x = b then s.deg a + s.deg b - 2 * e.2 else s.deg (s.uf.root x) := by
    intro x
    rw [hval]
    by_cases hx : s.uf.root x = a ∨ s.uf.root x = b
    · rw [if_pos hx, if_pos hx]
      rcases hρ with rfl | rfl
      · rw [update_of_ne (Ne.symm c1), update_self]
      · rw [update_self]
    · rw [if_neg hx, if_neg hx, update_of_ne (by tauto), update_of_ne (by tauto)]
  have hsame : ∀ x y, (u2.union a b).2.root x = (u2.union a b).2.root y ↔
      (s.uf.root x = s.uf.root y ∨ ((s.uf.root x = a ∨ s.uf.root x = b) ∧ (s.uf.root y = a ∨ s.uf.root y = b))) := by
    intro x y
    rw [hval, hval]
    by_cases hx : s.uf.root x = a ∨ s.uf.root x = b <;> by_cases hy : s.uf.root y = a ∨ s.uf.root y = b
    · rw [if_pos hx, if_pos hy]; simp [hx, hy]
    · rw [if_pos hx, if_neg hy]
      constructor
      · intro h'; rcases hρ with h0 | h0 <;> rw [h0] at h' <;> exact absurd (by tauto) hy
      · rintro (h' | h')
        · rw [h'] at hx; exact absurd hx hy
        · exact absurd h'.2 hy
    · rw [if_neg hx, if_pos hy]
      constructor
      · intro h'; rcases hρ with h0 | h0 <;> rw [h0] at h' <;> exact absurd (by tauto) hx
      · rintro (h' | h')
        · rw [← h'] at hy; exact absurd hy hx
        · exact absurd h'.1 hx
    · rw [if_neg hx, if_neg hy]; tauto
  refine ⟨j1, j2.trans hsz2, ?_, ?_, ?_, ?_⟩
  · intro x hx
    dsimp only
    rw [hnew]
    split
    · rename_i hx'
      have : cutValue G.n G.wt (cls (u2.union a b).2 ((u2.union a b).2.root x)) =
          cutValue G.n G.wt (fun v => cls s.uf a v || cls s.uf b v) := by
        refine cutValue_congr fun v _ => ?_
        unfold cls
        rw [Bool.eq_iff_iff]
        simp only [decide_eq_true_eq, Bool.or_eq_true, hsame]
        constructor
        · rintro (h' | h')
          · rw [h']; exact hx'
          · exact h'.1
        · intro h'; exact Or.inr ⟨h', hx'⟩
      rw [this]
      omega
    · rename_i hx'
      refine le_trans (le_of_eq (cutValue_congr fun v _ => ?_)) (h.ge x hx)
      unfold cls
      rw [Bool.eq_iff_iff]
      simp only [decide_eq_true_eq, hsame]
      constructor
      · rintro (h' | h')
        · exact h'
        · exact absurd h'.2 hx'
      · exact Or.inl
  · intro x hx
    dsimp only
    rw [hnew]
    split
    · rename_i hx'
      refine le_trans ?_ (le_trans (le_of_eq sumAB) ?_)
      · omega
      · refine Finset.sum_le_sum fun v _ => ?_
        by_cases hv : s.uf.root v = a ∨ s.uf.root v = b
        · rw [if_pos hv, if_pos ((hsame v x).2 (Or.inr ⟨hv, hx'⟩))]
        · rw [if_neg hv]; omega
    · rename_i hx'
      refine le_trans (h.le x hx) (Finset.sum_le_sum fun v _ => ?_)
      by_cases hv : s.uf.root v = s.uf.root x
      · rw [if_pos hv, if_pos ((hsame v x).2 (Or.inl hv))]
      · rw [if_neg hv]; omega
  · intro v hv hd x hx
    have hle : s.deg (s.uf.root v) ≤ limit := by
      refine le_trans (h.le v hv) (le_trans ?_ hd)
      rw [Finset.sum_eq_single v]
      · simp
      · intro y _ hy
        rw [if_neg fun h' => hy (h.sing v hv hd y h')]
      · intro h'; exact absurd (mem_range.2 hv) h'
    rcases (hsame x v).1 hx with h' | h'
    · exact h.sing v hv hd x h'
    · rcases h'.2 with h'' | h'' <;> rw [h''] at hle <;> omega
  · -- the cut
    dsimp only
    rcases st2 with hres | hlost
    · have hresS : Respects s.uf S := by
        intro x y hxy
        exact hres x y (by rw [hroot, hroot]; exact hxy)
      have hSr : ∀ x, S (s.uf.root x) = S x := fun x => hresS _ _ (UF.root_root h.inv x)
      by_cases hS : S n = S e.1
      · exact Or.inl (hres.union hi2 la' lb' (by rw [ha, hbdef, hSr, hSr]; exact hS))
      · refine Or.inr (Status.union hi2 hsz2 la lb ?_)
        have hstar := cut_ge_star hG hn ht (Ne.symm hnt) hS
        have hresC : Respects s.uf (fun v => !S v) := fun x y hxy => congrArg (!·) (hresS x y hxy)
        have hminC : ∀ T, ProperCut G.n T → cutValue G.n G.wt (fun v => !S v) ≤ cutValue G.n G.wt T := by
          intro T hT; rw [cutValue_compl hG.wt_symm]; exact hmin T hT
        have mk : ∀ (x y : Nat), x < G.n → y < G.n → S x ≠ S y → cutValue G.n G.wt (cls s.uf (s.uf.root x)) < 2 * G.wt x y →
            ∃ b, ∀ p q, p < G.n → q < G.n → S p = b → S q = b → u2.root p = u2.root q := by
          intro x y hx hy hxy hd
          refine ⟨S x, fun p q hp hq h1 h2 => ?_⟩
          rw [hroot, hroot]
          cases hSx : S x with
          | true =>
            have key := side_in_class hG hresS hmin hx hy hSx (by cases h' : S y with | false => rfl | true => exact absurd (hSx.trans h'.symm) hxy) hd
            rw [key p hp (h1.trans hSx), key q hq (h2.trans hSx)]
          | false =>
            have key := side_in_class hG hresC hminC hx hy (by simp [hSx])
              (by cases h' : S y with | true => rfl | false => exact absurd (hSx.trans h'.symm) hxy) hd
            rw [key p hp (by simp [h1, hSx]), key q hq (by simp [h2, hSx])]
        rcases c2 with c2 | c2 | c2
        · omega
        · rw [e2] at c2
          exact mk n e.1 hn ht hS (by rw [← ha]; omega)
        · rw [e2] at c2
          refine mk e.1 n ht hn (Ne.symm hS) ?_
          rw [← hbdef, hG.wt_symm]; omega
    · exact Or.inr (Status.union hi2 hsz2 la lb hlost)

theorem prTests12_spec {G : Graph} (hG : G.WF) (hb : ∑ u ∈ range G.n, G.deg u < 2 ^ 63) {limit : Nat} {S : Nat → Bool}
    (hmin : ∀ T, ProperCut G.n T → cutValue G.n G.wt S ≤ cutValue G.n G.wt T) (hlim : cutValue G.n G.wt S = limit) :
    Inv12 G limit S ((List.range G.n).foldl (fun s n => (G.edges n).foldl (edge12 limit n) s) { uf := UF.mk' G.n, deg := fun n => G.deg n }) :=
  foldl_inv _ (fun s n _ hs => foldl_inv _ (fun _ _ he hs => hs.edge hG hb hmin hlim he) _ hs) _ (Inv12.init hG limit S)

/-! ### Tests 3 and 4 -/

/-- The state of `prTests34` of `contraction_tests.h` with the same marks, while `n` is processed. -/
def lift34 (G : Graph) (n : Nat) (s : Loc34) : PR34 :=
  { uf := s.uf, marked := fun x => (s.marked x).map fun i => (n, ((G.edges n).getD i (0, 0)).2), finished := s.finished,
    contracted := s.contracted }

/-- All marks are indices of edges of `n`. -/
def MarkOK (G : Graph) (n : Nat) (m : Nat → Option Nat) : Prop := ∀ x i, m x = some i → i < (G.edges n).length

theorem lift_merge (G : Graph) (n : Nat) (s : Loc34) (a b : Nat) : lift34 G n (s.merge a b) = (lift34 G n s).merge a b := rfl

theorem tri34_marked (G : Graph) (limit n t w1 : Nat) (st : Loc34 × Nat) (e2 : Nat × Nat) :
    (tri34 G limit n t w1 st e2).1.marked = st.1.marked := by
  unfold tri34
  split
  · rfl
  · split
    · rfl
    · dsimp only
      split <;> rfl

theorem tri34_sim (G : Graph) (limit n t w1 : Nat) (st : Loc34 × Nat) (hm : MarkOK G n st.1.marked) (e2 : Nat × Nat) :
    pr34Tri G (limit + 1) true n t w1 (lift34 G n st.1, st.2) e2 =
      (lift34 G n (tri34 G limit n t w1 st e2).1, (tri34 G limit n t w1 st e2).2) := by
  unfold pr34Tri tri34
  cases h : st.1.marked e2.1 with
  | none => simp [lift34, h]
  | some i =>
    have hi := hm _ _ h
    simp only [lift34, h, Option.map_some, ne_eq, not_true_eq_false, if_false]
    rw [if_neg (by omega)]
    simp only [Bool.not_true, Bool.false_and, Bool.false_or, Bool.true_and, ge_iff_le, Nat.succ_le_iff, gt_iff_lt]
    split <;> rfl

theorem tri34_fold (G : Graph) (limit n t w1 : Nat) : ∀ (l : List (Nat × Nat)) (st : Loc34 × Nat), MarkOK G n st.1.marked →
    (l.foldl (tri34 G limit n t w1) st).1.marked = st.1.marked ∧
    l.foldl (pr34Tri G (limit + 1) true n t w1) (lift34 G n st.1, st.2) =
      (lift34 G n (l.foldl (tri34 G limit n t w1) st).1, (l.foldl (tri34 G limit n t w1) st).2) := by
  intro l
  induction l with
  | nil => intro st _; exact ⟨rfl, rfl⟩
  | cons e l ih =>
    intro st hm
    have h1 := tri34_marked G limit n t w1 st e
    obtain ⟨i1, i2⟩ := ih (tri34 G limit n t w1 st e) (by rw [h1]; exact hm)
    refine ⟨i1.trans h1, ?_⟩
    rw [List.foldl_cons, List.foldl_cons, tri34_sim G limit n t w1 st hm e]
    exact i2

theorem lift_unmark (G : Graph) (n : Nat) (s : Loc34) (x : Nat) :
    lift34 G n { s with marked := update s.marked x none } = { lift34 G n s with marked := update (lift34 G n s).marked x none } := by
  unfold lift34
  congr 1
  funext y
  by_cases h : y = x
  · subst h; simp
  · simp [h]

theorem edge34_sim (G : Graph) (limit n : Nat) (s : Loc34) (hm : MarkOK G n s.marked) (e1 : Nat × Nat) :
    (MarkOK G n (edge34 G limit n s e1).marked ∧
      ∀ x, (edge34 G limit n s e1).marked x ≠ none → s.marked x ≠ none ∧ (e1.1 > n → x ≠ e1.1)) ∧
    pr34Edge G (limit + 1) true n (lift34 G n s) e1 = lift34 G n (edge34 G limit n s e1) := by
  have hupd : ∀ (m : Nat → Option Nat), MarkOK G n m → MarkOK G n (update m e1.1 none) ∧
      ∀ x, update m e1.1 none x ≠ none → m x ≠ none ∧ (e1.1 > n → x ≠ e1.1) := by
    intro m hm'
    constructor
    · intro x i hx
      by_cases h : x = e1.1
      · subst h; simp at hx
      · rw [update_of_ne h] at hx; exact hm' x i hx
    · intro x hx
      by_cases h : x = e1.1
      · subst h; simp at hx
      · rw [update_of_ne h] at hx; exact ⟨hx, fun _ => h⟩
  unfold edge34 pr34Edge
  by_cases hf : s.finished e1.1 = true
  · rw [if_pos hf, if_pos (show (lift34 G n s).finished e1.1 = true from hf)]
    exact ⟨hupd _ hm, (lift_unmark G n s e1.1).symm⟩
  · rw [if_neg hf, if_neg (show ¬ (lift34 G n s).finished e1.1 = true from hf)]
    dsimp only
    by_cases hgt : e1.1 > n
    · rw [if_pos hgt, if_pos hgt]
      obtain ⟨t1, t2⟩ := tri34_fold G limit n e1.1 e1.2 (G.edges e1.1) ({ s with finished := update s.finished e1.1 true }, e1.2) hm
      have t2' : (G.edges e1.1).foldl (pr34Tri G (limit + 1) true n e1.1 e1.2)
          ({ lift34 G n s with finished := update (lift34 G n s).finished e1.1 true }, e1.2) = _ := t2
      rw [t2']
      dsimp only at t1 ⊢
      generalize (G.edges e1.1).foldl (tri34 G limit n e1.1 e1.2) ({ s with finished := update s.finished e1.1 true }, e1.2) = st at *
      have hmk : (if st.2 > limit then st.1.merge n e1.1 else st.1).marked = s.marked := by
        split
        · exact t1
        · exact t1
      refine ⟨?_, ?_⟩
      · rw [hmk]; exact hupd _ hm
      · rw [lift_unmark]
        by_cases hw : st.2 > limit
        · rw [if_pos hw, if_pos (show st.2 ≥ limit + 1 from hw)]; rfl
        · rw [if_neg hw, if_neg (show ¬ st.2 ≥ limit + 1 from hw)]
    · rw [if_neg hgt, if_neg hgt]
      exact ⟨⟨hm, fun x hx => ⟨hx, fun h => absurd h hgt⟩⟩, rfl⟩

theorem edge34_fold (G : Graph) (limit n : Nat) : ∀ (l : List (Nat × Nat)) (s : Loc34), MarkOK G n s.marked →
    (∀ x, (l.foldl (edge34 G limit n) s).marked x ≠ none → s.marked x ≠ none ∧ ∀ e ∈ l, e.1 > n → x ≠ e.1) ∧
    l.foldl (pr34Edge G (limit + 1) true n) (lift34 G n s) = lift34 G n (l.foldl (edge34 G limit n) s) := by
  intro l
  induction l with
  | nil => intro s _; exact ⟨fun x hx => ⟨hx, by simp⟩, rfl⟩
  | cons e l ih =>
    intro s hm
    obtain ⟨⟨a1, a2⟩, a3⟩ := edge34_sim G limit n s hm e
    obtain ⟨i1, i2⟩ := ih _ a1
    rw [List.foldl_cons, List.foldl_cons, a3]
    refine ⟨fun x hx => ?_, i2⟩
    obtain ⟨b1, b2⟩ := i1 x hx
    obtain ⟨c1, c2⟩ := a2 x b1
    refine ⟨c1, fun e' he' => ?_⟩
    rcases List.mem_cons.1 he' with rfl | he'
    · exact c2
    · exact b2 e' he'

theorem mark34_fold (G : Graph) (n : Nat) : ∀ (l pre : List (Nat × Nat)), G.edges n = pre ++ l → ∀ (m : Nat → Option Nat), MarkOK G n m →
    (∀ x, m x ≠ none → x > n ∧ ∃ e ∈ G.edges n, e.1 = x) →
    MarkOK G n ((l.zipIdx pre.length).foldl (mark34 n) m) ∧
    (∀ x, ((l.zipIdx pre.length).foldl (mark34 n) m) x ≠ none → x > n ∧ ∃ e ∈ G.edges n, e.1 = x) ∧
    l.foldl (pr34Mark n) (fun x => (m x).map fun i => (n, ((G.edges n).getD i (0, 0)).2)) =
      fun x => (((l.zipIdx pre.length).foldl (mark34 n) m) x).map fun i => (n, ((G.edges n).getD i (0, 0)).2) := by
  intro l
  induction l with
  | nil => intro pre _ m h1 h2; exact ⟨h1, h2, rfl⟩
  | cons e l ih =>
    intro pre hpre m h1 h2
    have hpre' : G.edges n = (pre ++ [e]) ++ l := by rw [hpre]; simp
    have hget : (G.edges n).getD pre.length (0, 0) = e := by rw [hpre]; simp
    have hlen : pre.length < (G.edges n).length := by rw [hpre]; simp
    have hmem : e ∈ G.edges n := by rw [hpre]; simp
    have hstep : pr34Mark n (fun x => (m x).map fun i => (n, ((G.edges n).getD i (0, 0)).2)) e =
        fun x => ((mark34 n m (e, pre.length)) x).map fun i => (n, ((G.edges n).getD i (0, 0)).2) := by
      unfold pr34Mark mark34
      dsimp only
      split
      · funext x
        by_cases hx : x = e.1
        · subst hx; rw [update_self, update_self]; simp only [Option.map_some, hget]
        · rw [update_of_ne hx, update_of_ne hx]
      · rfl
    have := ih (pre ++ [e]) hpre' (mark34 n m (e, pre.length)) (by
      unfold mark34
      dsimp only
      split
      · intro x i hx
        by_cases h : x = e.1
        · subst h; rw [update_self] at hx; cases hx; exact hlen
        · rw [update_of_ne h] at hx; exact h1 x i hx
      · exact h1) (by
      unfold mark34
      dsimp only
      split
      · rename_i hgt
        intro x hx
        by_cases h : x = e.1
        · subst h; exact ⟨hgt, e, hmem, rfl⟩
        · rw [update_of_ne h] at hx; exact h2 x hx
      · exact h2)
    rw [List.length_append, List.length_singleton] at this
    rw [List.zipIdx_cons, List.foldl_cons, List.foldl_cons, hstep]
    exact this

theorem node34_sim (G : Graph) (limit n : Nat) (s : Loc34) (hm : s.marked = fun _ => none) (k : Nat) :
    (node34 G limit s n).marked = (fun _ => none) ∧
    pr34Node G (limit + 1) true (lift34 G k s) n = lift34 G n (node34 G limit s n) := by
  have hk : lift34 G k s = lift34 G n s := by
    unfold lift34; rw [hm]; rfl
  rw [hk]
  unfold node34 pr34Node
  by_cases hf : s.finished n = true
  · rw [if_pos hf, if_pos (show (lift34 G n s).finished n = true from hf)]
    exact ⟨hm, rfl⟩
  · rw [if_neg hf, if_neg (show ¬ (lift34 G n s).finished n = true from hf)]
    obtain ⟨m1, m2, m3⟩ := mark34_fold G n (G.edges n) [] rfl s.marked (by rw [hm]; intro x i h; cases h)
      (by rw [hm]; intro x h; exact absurd rfl h)
    obtain ⟨e1, e2⟩ := edge34_fold G limit n (G.edges n)
      { s with finished := update s.finished n true, marked := (G.edges n).zipIdx.foldl (mark34 n) s.marked } m1
    constructor
    · funext x
      by_contra hx
      obtain ⟨a, b⟩ := e1 x hx
      obtain ⟨c, e, he, hex⟩ := m2 x a
      exact b e he (by omega) hex.symm
    · rw [← e2]
      congr 1
      unfold lift34
      congr 1

theorem prTests34_eq (G : Graph) (limit : Nat) : prTests34 G limit = VieCut.prTests34 G (limit + 1) true := by
  have key : ∀ (l : List Nat) (s : Loc34), s.marked = (fun _ => none) → ∀ k, ∃ k',
      l.foldl (pr34Node G (limit + 1) true) (lift34 G k s) = lift34 G k' (l.foldl (node34 G limit) s) := by
    intro l
    induction l with
    | nil => intro s _ k; exact ⟨k, rfl⟩
    | cons n l ih =>
      intro s hm k
      obtain ⟨h1, h2⟩ := node34_sim G limit n s hm k
      rw [List.foldl_cons, List.foldl_cons, h2]
      exact ih _ h1 n
  obtain ⟨k', h⟩ := key (List.range G.n)
    { uf := UF.mk' G.n, marked := fun _ => none, finished := fun _ => false, contracted := fun _ => false } rfl 0
  unfold prTests34 VieCut.prTests34
  have : lift34 G 0 { uf := UF.mk' G.n, marked := fun _ => none, finished := fun _ => false, contracted := fun _ => false } =
      { uf := UF.mk' G.n, marked := fun _ => none, finished := fun _ => false, contracted := fun _ => false } := rfl
  rw [← this, h]
  rfl

/-! ### The rounds -/
open MGraph

/-- Properties of the graph that every contraction keeps. -/
structure GOk (g : MGraph) : Prop where
  valid : Valid g
  located : Located g
  rep : HasRep g
  simple : Simple g []
  pos : 0 < g.n

theorem inplace_simple {g : MGraph} (h : GOk g) {uf : UF} (hu : uf.Inv) (hs : uf.size = g.n) {ord : Nat → List Nat → List Nat} (ho : IsOrder ord) :
    Simple (g.fromUnionFindM uf false ord).1 [] := by
  unfold MGraph.fromUnionFindM
  split
  · exact h.simple
  · dsimp only
    rw [if_pos (Or.inr rfl), if_neg (by simp)]
    exact contractVertexsets_simple h.valid h.located h.rep hu hs ho h.simple

theorem GOk.step {g : MGraph} (h : GOk g) {uf : UF} (hu : uf.Inv) (hs : uf.size = g.n) {ord : Nat → List Nat → List Nat} (ho : IsOrder ord) :
    GOk (g.fromUnionFindM uf false ord).1 ∧ (g.fromUnionFindM uf false ord).1.n ≤ g.n ∧
    (g.fromUnionFindM uf false ord).1.posSize = g.posSize := by
  obtain ⟨⟨a1, a2, a3⟩, -, -, -⟩ := fromUnionFindM_inplace_ok ho g uf ⟨h.valid, h.located, h.rep⟩ hu (hs.trans (toGraph_n g).symm)
  obtain ⟨-, -, b3, b4, -, -, -⟩ := fromUnionFindM_inplace_spec h.valid h.located h.rep hu hs ho
  refine ⟨⟨a1, a2, a3, inplace_simple h hu hs ho, ?_⟩, ?_, b3⟩
  · have := b4.lt 0 (by rw [toGraph_n]; exact h.pos)
    rw [toGraph_n] at this
    omega
  · have := b4.le_n
    rwa [toGraph_n, toGraph_n] at this

/-- What is known about the graph `g` after some reductions of `g0`. -/
structure RInv (g0 : MGraph) (c : Nat) (φ : Nat → Nat) (g : MGraph) : Prop where
  ok : GOk g
  con : IsContraction g0.toGraph g.toGraph φ
  psize : g.posSize = g0.posSize
  at_pos : ∀ v, v < g0.posSize → g.pos v = φ (g0.pos v)
  status : ∀ S, ProperCut g0.n S → cutValue g0.n g0.toGraph.wt S = c →
    (∃ X : Nat → Bool, ∀ v, v < g0.n → X (φ v) = S v) ∨ ∃ b, ∀ x y, x < g0.n → y < g0.n → S x = b → S y = b → φ x = φ y
  sing : ∀ v, v < g0.n → g0.toGraph.deg v = c → ∀ x, x < g0.n → φ x = φ v → x = v

theorem RInv.refl {g : MGraph} (h : GOk g) (c : Nat) : RInv g c id g :=
  ⟨h, isContraction_refl h.valid.wf, rfl, fun _ _ => rfl, fun S _ _ => Or.inl ⟨S, fun _ _ => rfl⟩, fun _ _ _ _ _ h => h⟩

theorem RInv.deg_eq {g0 : MGraph} (h0 : GOk g0) {c : Nat} {φ : Nat → Nat} {g : MGraph} (h : RInv g0 c φ g) {v : Nat} (hv : v < g0.n)
    (hd : g0.toGraph.deg v = c) : g.toGraph.deg (φ v) = c := by
  have hv' : v < g0.toGraph.n := by rw [toGraph_n]; exact hv
  rw [← h.con.wf.cut_singleton (h.con.lt v hv'), h.con.cut, ← hd, ← h0.valid.wf.cut_singleton hv']
  refine cutValue_congr fun x hx => ?_
  rw [toGraph_n] at hx
  rw [Bool.eq_iff_iff, beq_iff_eq, beq_iff_eq]
  exact ⟨fun e => h.sing v hv hd x hx e, fun e => by rw [e]⟩

theorem RInv.step {g0 : MGraph} (h0 : GOk g0) {c : Nat} {φ : Nat → Nat} {g : MGraph}
    (h : RInv g0 c φ g) {uf : UF} (hu : uf.Inv) (hs : uf.size = g.n) {ord : Nat → List Nat → List Nat} (ho : IsOrder ord)
    (hst : ∀ X, ProperCut g.toGraph.n X → cutValue g.toGraph.n g.toGraph.wt X = c → Status g.n uf X)
    (hsg : ∀ v, v < g.n → g.toGraph.deg v = c → ∀ x, x < g.n → uf.root x = uf.root v → x = v) :
    ∃ φ', RInv g0 c φ' (g.fromUnionFindM uf false ord).1 := by
  obtain ⟨-, -, b3, b4, -, b6, b7⟩ := fromUnionFindM_inplace_spec h.ok.valid h.ok.located h.ok.rep hu hs ho
  set ψ := (g.fromUnionFindM uf false ord).2
  have hφ : ∀ v, v < g0.n → φ v < g.n := fun v hv => by
    have := h.con.lt v (by rw [toGraph_n]; exact hv); rwa [toGraph_n] at this
  refine ⟨fun v => ψ (φ v), ⟨(h.ok.step hu hs ho).1, h.con.comp b4, b3.trans h.psize, ?_, ?_, ?_⟩⟩
  · intro v hv
    rw [b7 v (by rw [h.psize]; exact hv), h.at_pos v hv]
  · intro S hS hv
    rcases h.status S hS hv with ⟨X, hX⟩ | ⟨b, hb⟩
    · have hresp : ∀ u v, u < g0.toGraph.n → v < g0.toGraph.n → φ u = φ v → S u = S v := by
        intro u v hu' hv' he
        rw [toGraph_n] at hu' hv'
        rw [← hX u hu', ← hX v hv', he]
      obtain ⟨T, t1, t2, t3⟩ := h.con.push hresp
      simp only [toGraph_n] at t1 t2 t3
      have t3' := t3 hS
      rcases hst T (by rw [toGraph_n]; exact t3') (by rw [toGraph_n, t2]; exact hv) with hr | ⟨b, hb⟩
      · left
        obtain ⟨Y, y1, -, -⟩ := b4.push (S := T) (by
          intro u v hu' hv' he
          rw [toGraph_n] at hu' hv'
          exact hr u v ((b6 u v hu' hv').1 he))
        refine ⟨Y, fun v hv => ?_⟩
        rw [y1 (φ v) (by rw [toGraph_n]; exact hφ v hv), t1 v hv]
      · right
        refine ⟨b, fun x y hx hy sx sy => ?_⟩
        exact (b6 _ _ (hφ x hx) (hφ y hy)).2 (hb _ _ (hφ x hx) (hφ y hy) ((t1 x hx).trans sx) ((t1 y hy).trans sy))
    · right
      exact ⟨b, fun x y hx hy sx sy => by rw [hb x y hx hy sx sy]⟩
  · intro v hv hd x hx he
    refine h.sing v hv hd x hx ?_
    exact hsg (φ v) (hφ v hv) (h.deg_eq h0 hv hd) (φ x) (hφ x hx) ((b6 _ _ (hφ x hx) (hφ v hv)).1 he)

/-- A partition that separates no minimum cut. -/
theorem sing_of_respects {g : MGraph} (h : Valid g) {c : Nat} {uf : UF}
    (hst : ∀ X, ProperCut g.toGraph.n X → cutValue g.toGraph.n g.toGraph.wt X = c → Respects uf X) :
    ∀ v, v < g.n → g.toGraph.deg v = c → ∀ x, x < g.n → uf.root x = uf.root v → x = v := by
  intro v hv hd x hx he
  by_contra hne
  have hv' : v < g.toGraph.n := by rw [toGraph_n]; exact hv
  have := hst (fun u => u == v) ⟨⟨v, hv', by simp⟩, ⟨x, by rw [toGraph_n]; exact hx, by simpa using hne⟩⟩
    (by rw [h.wf.cut_singleton hv']; exact hd) x v he
  simp [hne] at this

variable {g0 : MGraph} {c : Nat}

theorem capforest_status (h0 : GOk g0) {cfg : NOICfg} (hfit : PQFits cfg.kind g0.n (g0.toGraph.totalWeight + 1)) (hct : c ≤ g0.toGraph.totalWeight)
    {φ : Nat → Nat} {g : MGraph} (hcon : IsContraction g0.toGraph g.toGraph φ) (hg : GOk g) (r : Nat) :
    let uf := capforest (selectPQ cfg.kind cfg.limited g.n (c + 1) g.toGraph.maxDegree).toPQ cfg.limited g.toGraph (c + 1) (r % g.n)
    uf.Inv ∧ uf.size = g.n ∧ ∀ X, cutValue g.toGraph.n g.toGraph.wt X = c → Respects uf X := by
  intro uf
  have hA := hg.valid.wf
  have hle : g.n ≤ g0.n := by have := hcon.le_n; rwa [toGraph_n, toGraph_n] at this
  have hmx : g.toGraph.maxDegree ≤ g0.toGraph.totalWeight := maxDegree_le fun u hu => hcon.deg_le h0.valid.wf hu
  have hpf : PQFits cfg.kind g.n (if cfg.limited then c + 1 else g.toGraph.maxDegree) := hfit.mono hle (by split <;> omega)
  have hpf' : PQFits cfg.kind g.toGraph.n (if cfg.limited then c + 1 else g.toGraph.maxDegree) := by rw [toGraph_n]; exact hpf
  obtain ⟨K, ⟨lp⟩, hK⟩ := selectPQ_lawful (limited := cfg.limited) (L := c + 1) hpf'
  have lp' : (selectPQ cfg.kind cfg.limited g.n (c + 1) g.toGraph.maxDegree).toPQ.Lawful g.toGraph.n K := by
    rw [← toGraph_n g]; exact lp
  have hst : r % g.n < g.toGraph.n := by rw [toGraph_n]; exact Nat.mod_lt _ hg.pos
  obtain ⟨i1, i2⟩ := capforest_inv (L := c + 1) lp' hA hK hst
  refine ⟨i1, i2.trans (toGraph_n g), fun X hX a b hab => ?_⟩
  have hsafe := capforest_safe lp' hA hK hst hab
  by_contra hne
  have := hsafe X hne
  omega

theorem prTests12_uf {G : Graph} (hG : G.WF) (hb : ∑ u ∈ range G.n, G.deg u < 2 ^ 63) (hn : 0 < G.n) (limit : Nat) :
    (prTests12 G limit).Inv ∧ (prTests12 G limit).size = G.n := by
  have : ∀ (s : Loc12) n e, e ∈ G.edges n → s.uf.Inv ∧ s.uf.size = G.n → (edge12 limit n s e).uf.Inv ∧ (edge12 limit n s e).uf.size = G.n := by
    intro s n e he ⟨h1, h2⟩
    have i1 := UF.find_inv h1 e.1
    have i2 := UF.find_inv i1 n
    unfold edge12
    simp only [UF.find_fst h1, UF.find_fst i1, UF.find_root h1]
    split
    · have ha : s.uf.root n < ((s.uf.find e.1).2.find n).2.size := by
        show s.uf.root n < s.uf.size
        exact UF.root_lt h1 (by rw [h2]; exact lt_n_of_edge he)
      have hb' : s.uf.root e.1 < ((s.uf.find e.1).2.find n).2.size := by
        show s.uf.root e.1 < s.uf.size
        exact UF.root_lt h1 (by rw [h2]; exact hG.tgt_lt n e he)
      obtain ⟨j1, j2, -⟩ := union_root i2 ha hb'
      exact ⟨j1, j2.trans h2⟩
    · exact ⟨i2, h2⟩
  unfold prTests12
  refine foldl_inv (P := fun s : Loc12 => s.uf.Inv ∧ s.uf.size = G.n) _ (fun s n _ hs => ?_) _ ⟨UF.init_inv _, rfl⟩
  exact foldl_inv (P := fun s : Loc12 => s.uf.Inv ∧ s.uf.size = G.n) _ (fun _ _ he hs => this _ _ _ he hs) _ hs

theorem deg_sum_eq (G : Graph) : ∑ u ∈ range G.n, G.deg u = G.totalWeight := by
  unfold Graph.totalWeight
  rw [← List.sum_toFinset _ List.nodup_range, List.toFinset_range]

theorem round_ok (h0 : GOk g0) {cfg : NOICfg} (hfit : PQFits cfg.kind g0.n (g0.toGraph.totalWeight + 1)) (hct : c ≤ g0.toGraph.totalWeight)
    {ord : Nat → Nat → List Nat → List Nat} (ho : ∀ k, IsOrder (ord k)) {g : MGraph} {φ : Nat → Nat}
    (hcon : IsContraction g0.toGraph g.toGraph φ) (hg : GOk g) (lvl : Nat) :
    GOk (round cfg ord c lvl g) ∧ (round cfg ord c lvl g).n ≤ g.n ∧ ∃ φ', IsContraction g0.toGraph (round cfg ord c lvl g).toGraph φ' := by
  have hT : g0.toGraph.totalWeight + 1 < 2 ^ 32 := hfit.1
  obtain ⟨u1, u2, -⟩ := capforest_status h0 hfit hct hcon hg (cfg.rnd lvl)
  unfold round
  dsimp only
  generalize capforest (selectPQ cfg.kind cfg.limited g.n (c + 1) g.toGraph.maxDegree).toPQ cfg.limited g.toGraph (c + 1) (cfg.rnd lvl % g.n) = uf at *
  obtain ⟨a1, a2, -⟩ := hg.step u1 u2 (ho (3 * lvl))
  obtain ⟨-, -, -, b4, -, -, -⟩ := fromUnionFindM_inplace_spec hg.valid hg.located hg.rep u1 u2 (ho (3 * lvl))
  have c1 := hcon.comp b4
  generalize (g.fromUnionFindM uf false (ord (3 * lvl))).1 = g1 at *
  have hb1 : ∑ u ∈ range g1.toGraph.n, g1.toGraph.deg u < 2 ^ 63 := by
    rw [deg_sum_eq]; exact lt_of_le_of_lt (c1.total_le h0.valid.wf) (by omega)
  obtain ⟨v1, v2⟩ := prTests12_uf a1.valid.wf hb1 (by rw [toGraph_n]; exact a1.pos) c
  rw [toGraph_n] at v2
  obtain ⟨d1, d2, -⟩ := a1.step v1 v2 (ho (3 * lvl + 1))
  obtain ⟨-, -, -, e4, -, -, -⟩ := fromUnionFindM_inplace_spec a1.valid a1.located a1.rep v1 v2 (ho (3 * lvl + 1))
  have c2 := c1.comp e4
  generalize (g1.fromUnionFindM (prTests12 g1.toGraph c) false (ord (3 * lvl + 1))).1 = g2 at *
  have w := prTests34_inv d1.valid.wf (c + 1) true
  rw [← prTests34_eq, toGraph_n] at w
  obtain ⟨f1, f2, -⟩ := d1.step w.1 w.2 (ho (3 * lvl + 2))
  obtain ⟨-, -, -, k4, -, -, -⟩ := fromUnionFindM_inplace_spec d1.valid d1.located d1.rep w.1 w.2 (ho (3 * lvl + 2))
  exact ⟨f1, by omega, _, c2.comp k4⟩

theorem round_inv (h0 : GOk g0) (hmin : IsMinCut g0.n g0.toGraph.wt c) {cfg : NOICfg}
    (hfit : PQFits cfg.kind g0.n (g0.toGraph.totalWeight + 1)) {ord : Nat → Nat → List Nat → List Nat} (ho : ∀ k, IsOrder (ord k))
    {g : MGraph} {φ : Nat → Nat} (h : RInv g0 c φ g) (lvl : Nat) : ∃ φ', RInv g0 c φ' (round cfg ord c lvl g) := by
  have hT : g0.toGraph.totalWeight + 1 < 2 ^ 32 := hfit.1
  have hct : c ≤ g0.toGraph.totalWeight := by
    obtain ⟨S, hS, hv⟩ := hmin.1
    rw [← hv, ← toGraph_n g0]; exact cutValue_le_total h0.valid.wf S
  have hmin' : ∀ S, ProperCut g0.toGraph.n S → c ≤ cutValue g0.toGraph.n g0.toGraph.wt S := by
    intro S hS; rw [toGraph_n] at hS ⊢; exact hmin.2 S hS
  obtain ⟨u1, u2, u3⟩ := capforest_status h0 hfit hct h.con h.ok (cfg.rnd lvl)
  unfold round
  dsimp only
  generalize capforest (selectPQ cfg.kind cfg.limited g.n (c + 1) g.toGraph.maxDegree).toPQ cfg.limited g.toGraph (c + 1) (cfg.rnd lvl % g.n) = uf at *
  obtain ⟨φ1, r1⟩ := h.step h0 u1 u2 (ho (3 * lvl)) (fun X _ hv => Or.inl (u3 X hv)) (sing_of_respects h.ok.valid (fun X _ hv => u3 X hv))
  generalize (g.fromUnionFindM uf false (ord (3 * lvl))).1 = g1 at *
  have hb1 : ∑ u ∈ range g1.toGraph.n, g1.toGraph.deg u < 2 ^ 63 := by
    rw [deg_sum_eq]; exact lt_of_le_of_lt (r1.con.total_le h0.valid.wf) (by omega)
  obtain ⟨v1, v2⟩ := prTests12_uf r1.ok.valid.wf hb1 (by rw [toGraph_n]; exact r1.ok.pos) c
  rw [toGraph_n] at v2
  obtain ⟨φ2, r2⟩ := r1.step h0 v1 v2 (ho (3 * lvl + 1))
    (fun X hX hv => by
      have := (prTests12_spec r1.ok.valid.wf hb1 (S := X) (fun T hT => by rw [hv]; exact r1.con.min_le hmin' hT) hv).status
      exact (toGraph_n g1) ▸ this)
    (fun v hv hd x hx he => by
      by_cases hn2 : ∃ y, y < g1.n ∧ y ≠ v
      · obtain ⟨y, hy, hyv⟩ := hn2
        have hv' : v < g1.toGraph.n := by rw [toGraph_n]; exact hv
        have hval : cutValue g1.toGraph.n g1.toGraph.wt (fun u => u == v) = c := by rw [r1.ok.valid.wf.cut_singleton hv']; exact hd
        have := (prTests12_spec r1.ok.valid.wf hb1 (S := fun u => u == v) (fun T hT => by rw [hval]; exact r1.con.min_le hmin' hT) hval).sing
          v hv' (le_of_eq hd) x he
        exact this
      · by_contra hne; exact hn2 ⟨x, hx, hne⟩)
  generalize (g1.fromUnionFindM (prTests12 g1.toGraph c) false (ord (3 * lvl + 1))).1 = g2 at *
  have w := prTests34_inv r2.ok.valid.wf (c + 1) true
  have w3 : ∀ X, ProperCut g2.toGraph.n X → cutValue g2.toGraph.n g2.toGraph.wt X = c → Respects (prTests34 g2.toGraph c) X := by
    intro X hX hv
    rw [prTests34_eq]
    exact ((prClosed_all r2.ok.valid.wf hX (fun T hT => by rw [hv]; exact r2.con.min_le hmin' hT) (by omega)).prTests34 r2.ok.valid.wf
      (Or.inl (simpleWF_of_mutable r2.ok.valid r2.ok.simple).2)).1
  rw [← prTests34_eq, toGraph_n] at w
  exact r2.step h0 w.1 w.2 (ho (3 * lvl + 2)) (fun X hX hv => Or.inl (w3 X hX hv)) (sing_of_respects r2.ok.valid w3)

theorem loop_inv (h0 : GOk g0) (hmin : IsMinCut g0.n g0.toGraph.wt c) {cfg : NOICfg}
    (hfit : PQFits cfg.kind g0.n (g0.toGraph.totalWeight + 1)) {ord : Nat → Nat → List Nat → List Nat} (ho : ∀ k, IsOrder (ord k)) :
    ∀ (f lvl prev : Nat) (g : MGraph) (φ : Nat → Nat), RInv g0 c φ g → ∃ φ', RInv g0 c φ' (loop cfg ord c f lvl prev g) := by
  intro f
  induction f with
  | zero => intro lvl prev g φ h; exact ⟨φ, h⟩
  | succ f ih =>
    intro lvl prev g φ h
    unfold loop
    split
    · obtain ⟨φ', h'⟩ := round_inv h0 hmin hfit ho h lvl
      exact ih _ _ _ _ h'
    · exact ⟨φ, h⟩

theorem loop_fuel (h0 : GOk g0) {cfg : NOICfg} (hfit : PQFits cfg.kind g0.n (g0.toGraph.totalWeight + 1)) (hct : c ≤ g0.toGraph.totalWeight)
    {ord : Nat → Nat → List Nat → List Nat} (ho : ∀ k, IsOrder (ord k)) :
    ∀ (f lvl prev : Nat) (g : MGraph), GOk g → (∃ φ, IsContraction g0.toGraph g.toGraph φ) → g.n + 2 ≤ f →
      loop cfg ord c (f + 1) lvl prev g = loop cfg ord c f lvl prev g := by
  intro f
  induction f with
  | zero => intro _ _ _ _ _ h; omega
  | succ f ih =>
    intro lvl prev g hg ⟨φ, hcon⟩ hf
    rw [loop.eq_2, loop.eq_2 cfg ord c lvl prev g f]
    split
    · obtain ⟨a1, a2, a3⟩ := round_ok h0 hfit hct ho hcon hg lvl
      by_cases hlt : (round cfg ord c lvl g).n < g.n
      · exact ih _ _ _ a1 a3 (by omega)
      · have hpos := hg.pos
        obtain ⟨f', rfl⟩ : ∃ f', f = f' + 1 := ⟨f - 1, by omega⟩
        have e : ∀ k, loop cfg ord c (k + 1) (lvl + 1) g.n (round cfg ord c lvl g) = round cfg ord c lvl g := fun k => by
          rw [loop.eq_2]; exact if_neg hlt
        rw [e, e]
    · rfl

theorem loop_fuel_all (h0 : GOk g0) {cfg : NOICfg} (hfit : PQFits cfg.kind g0.n (g0.toGraph.totalWeight + 1)) (hct : c ≤ g0.toGraph.totalWeight)
    {ord : Nat → Nat → List Nat → List Nat} (ho : ∀ k, IsOrder (ord k)) (lvl prev f : Nat) (hf : g0.n + 2 ≤ f) :
    loop cfg ord c f lvl prev g0 = loop cfg ord c (g0.n + 2) lvl prev g0 := by
  obtain ⟨k, rfl⟩ := Nat.exists_eq_add_of_le hf
  induction k with
  | zero => rfl
  | succ k ih =>
    rw [← ih (by omega)]
    exact loop_fuel h0 hfit hct ho (g0.n + 2 + k) lvl prev g0 h0 ⟨id, isContraction_refl h0.valid.wf⟩ (Nat.le_add_right _ _)

end AllRed
end VieCut
