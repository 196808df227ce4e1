import Verif.Model.LocalSearch
import Verif.Proof.HighDegree

namespace VieCut
open Finset Function

variable {n : Nat} {w : Nat → Nat → Nat}

/-- The part of a solution's weight not incident to `x`. -/
noncomputable def away (n : Nat) (w : Nat → Nat → Nat) (f : Nat → Nat) (x : Nat) : Nat :=
  wsum n w (fun u v => ind (u ≠ x ∧ v ≠ x ∧ f u ≠ f v))

theorem two_multicut_away (hw : ∀ u v, w u v = w v u) {x : Nat} (f : Nat → Nat) :
    2 * multicutValue n w f = away n w f x + 2 * btw n w (fun u => u = x) (fun v => f v ≠ f x) := by
  rw [← two_multicut hw]
  have h1 : wsum n w (fun u v => ind (f u ≠ f v)) = away n w f x +
      (btw n w (fun u => u = x) (fun v => f v ≠ f x) + btw n w (fun u => f u ≠ f x) (fun v => v = x)) := by
    unfold away btw
    rw [← wsum_add, ← wsum_add]
    refine wsum_congr fun u v _ _ => ?_
    by_cases a : u = x <;> by_cases b : v = x
    · subst a; subst b; simp [ind]
    · subst a
      by_cases c : f u = f v
      · simp [ind, b, c]
      · simp [ind, b, c, Ne.symm c]
    · subst b
      by_cases c : f u = f v
      · simp [ind, a, c]
      · simp [ind, a, c]
    · by_cases c : f u = f v
      · simp [ind, a, b, c]
      · simp [ind, a, b, c]
  rw [h1, btw_swap hw (fun u => f u ≠ f x)]
  omega

/-- Moving a vertex changes the weight by the difference of its weights into the two blocks. -/
theorem multicut_move (hw : ∀ u v, w u v = w v u) {x : Nat} (hxx : w x x = 0) (f : Nat → Nat) (b : Nat) :
    multicutValue n w (update f x b) + btw n w (fun u => u = x) (fun v => f v = b) =
      multicutValue n w f + btw n w (fun u => u = x) (fun v => f v = f x) := by
  have h1 := two_multicut_away (n := n) hw (x := x) f
  have h2 := two_multicut_away (n := n) hw (x := x) (update f x b)
  have h3 : away n w (update f x b) x = away n w f x := by
    unfold away
    refine wsum_congr fun u v _ _ => ind_congr ?_
    constructor
    · rintro ⟨a, c, d⟩; rw [update_of_ne a, update_of_ne c] at d; exact ⟨a, c, d⟩
    · rintro ⟨a, c, d⟩; rw [update_of_ne a, update_of_ne c]; exact ⟨a, c, d⟩
  have hself : ∀ P : Nat → Prop, btw n w (fun u => u = x) P = btw n w (fun u => u = x) (fun v => P v ∧ v ≠ x) := by
    intro P
    unfold btw
    refine Finset.sum_congr rfl fun u _ => Finset.sum_congr rfl fun v _ => ?_
    by_cases a : u = x
    · by_cases c : v = x
      · rw [a, c, hxx, Nat.mul_zero, Nat.mul_zero]
      · simp [a, c]
    · simp [ind, a]
  have h4 : btw n w (fun u => u = x) (fun v => update f x b v ≠ update f x b x) =
      btw n w (fun u => u = x) (fun v => f v ≠ b) := by
    rw [hself, hself (fun v => f v ≠ b)]
    refine btw_congr (fun _ _ => Iff.rfl) fun v _ => ?_
    rw [update_self]
    constructor
    · rintro ⟨a, c⟩; rw [update_of_ne c] at a; exact ⟨a, c⟩
    · rintro ⟨a, c⟩; rw [update_of_ne c]; exact ⟨a, c⟩
  have tot : ∀ c, btw n w (fun u => u = x) (fun v => f v = c) + btw n w (fun u => u = x) (fun v => f v ≠ c) =
      btw n w (fun u => u = x) (fun _ => True) := by
    intro c
    rw [btw_split_right _ (fun _ => True) (fun v => f v = c)]
    congr 1 <;> exact btw_congr (fun _ _ => Iff.rfl) fun v _ => by simp
  have t1 := tot b
  have t2 := tot (f x)
  rw [h3, h4] at h2
  omega

namespace LocalSearch

variable {G : Graph} {k : Nat} {fixed : Nat → Bool}

/-- Weight of a solution. -/
abbrev value (G : Graph) (f : Nat → Nat) : Nat := multicutValue G.n G.wt f

theorem blockWgt_eq (hG : G.WF) {x : Nat} (hx : x < G.n) (f : Nat → Nat) (b : Nat) :
    blockWgt G f x b = btw G.n G.wt (fun u => u = x) (fun v => f v = b) := by
  have h1 : blockWgt G f x b = rowTo G x (fun v => f v == b) := rfl
  rw [h1, rowTo_eq hG, btw_row hx]
  refine Finset.sum_congr rfl fun v _ => ?_
  by_cases c : f v = b
  · simp [ind, c]
  · simp [ind, c]

theorem value_move (hG : G.WF) {x : Nat} (hx : x < G.n) (f : Nat → Nat) (b : Nat) :
    value G (update f x b) + blockWgt G f x b = value G f + blockWgt G f x (f x) := by
  rw [blockWgt_eq hG hx, blockWgt_eq hG hx]
  exact multicut_move hG.wt_symm (hG.wt_self x) f b

theorem blockWgt_sum (hG : G.WF) (x b : Nat) (g : Nat → Nat) :
    blockWgt G g x b = ∑ v ∈ range G.n, if g v = b then G.wt x v else 0 := by
  have h1 : blockWgt G g x b = rowTo G x (fun v => g v == b) := rfl
  rw [h1, rowTo_eq hG]
  refine Finset.sum_congr rfl fun v _ => ?_
  simp

theorem wt_le_blockWgt (hG : G.WF) {x y b : Nat} {g : Nat → Nat} (hy : y < G.n) (hb : g y = b) :
    G.wt x y ≤ blockWgt G g x b := by
  rw [blockWgt_sum hG]
  have := Finset.single_le_sum (f := fun v => if g v = b then G.wt x v else 0) (fun _ _ => Nat.zero_le _)
    (Finset.mem_range.2 hy)
  simpa only [hb, if_true] using this

/-- Weights into blocks after a vertex has moved. -/
theorem blockWgt_update (hG : G.WF) (x : Nat) {y : Nat} (hy : y < G.n) (f : Nat → Nat) (c b : Nat) :
    blockWgt G (update f y c) x b + (if f y = b then G.wt x y else 0) =
      blockWgt G f x b + if c = b then G.wt x y else 0 := by
  rw [blockWgt_sum hG, blockWgt_sum hG]
  have hm : y ∈ range G.n := Finset.mem_range.2 hy
  rw [← Finset.add_sum_erase _ _ hm, ← Finset.add_sum_erase _ _ hm, update_self]
  have : ∑ v ∈ (range G.n).erase y, (if update f y c v = b then G.wt x v else 0) =
      ∑ v ∈ (range G.n).erase y, (if f v = b then G.wt x v else 0) := by
    refine Finset.sum_congr rfl fun v hv => ?_
    rw [update_of_ne (Finset.ne_of_mem_erase hv)]
  rw [this]
  omega

theorem blockWgt_far (hG : G.WF) {x y : Nat} (hy : y < G.n) (f : Nat → Nat) (c b : Nat)
    (h : G.wt x y = 0) : blockWgt G (update f y c) x b = blockWgt G f x b := by
  have := blockWgt_update hG x hy f c b
  rw [h] at this
  simpa using this

theorem maxBlock_spec (k own : Nat) (wgt : Nat → Nat) :
    ((maxBlock k own wgt).2 = 0 ∧ (maxBlock k own wgt).1 = 0) ∨
    ((maxBlock k own wgt).1 ≠ own ∧ (maxBlock k own wgt).1 < k ∧ (maxBlock k own wgt).2 = wgt (maxBlock k own wgt).1 ∧
      (maxBlock k own wgt).2 ≠ 0) := by
  unfold maxBlock
  induction k with
  | zero => simp
  | succ k ih =>
    rw [List.range_succ, List.foldl_append, List.foldl_cons, List.foldl_nil]
    generalize (List.range k).foldl _ _ = m at ih
    split
    · split
      · right
        dsimp only
        refine ⟨by assumption, by omega, rfl, by omega⟩
      · rcases ih with ih | ⟨h1, h2, h3, h4⟩
        · exact Or.inl ih
        · exact Or.inr ⟨h1, by omega, h3, h4⟩
    · rcases ih with ih | ⟨h1, h2, h3, h4⟩
      · exact Or.inl ih
      · exact Or.inr ⟨h1, by omega, h3, h4⟩

theorem maxBlock_ge (k own : Nat) (wgt : Nat → Nat) : ∀ i, i < k → i ≠ own → wgt i ≤ (maxBlock k own wgt).2 := by
  unfold maxBlock
  induction k with
  | zero => intro i hi; omega
  | succ k ih =>
    intro i hi hne
    rw [List.range_succ, List.foldl_append, List.foldl_cons, List.foldl_nil]
    generalize (List.range k).foldl _ _ = m at ih
    by_cases hik : i = k
    · subst hik
      rw [if_pos hne]
      split
      · exact Nat.le_refl _
      · omega
    · have := ih i (by omega) hne
      split
      · split
        · dsimp only; omega
        · exact this
      · exact this

theorem touch_spec (x : Nat) (s : GState) : (touch G x s).sol = s.sol ∧ (touch G x s).imp = s.imp ∧
    ∀ v, (touch G x s).next v = if v ∈ (G.edges x).map Prod.fst then none else s.next v := by
  unfold touch
  induction G.edges x generalizing s with
  | nil => simp
  | cons e l ih =>
    rw [List.foldl_cons]
    obtain ⟨h1, h2, h3⟩ := ih { s with next := update s.next e.1 none, bnd := update s.bnd e.1 true }
    refine ⟨h1, h2, fun v => ?_⟩
    rw [h3, List.map_cons]
    by_cases hv : v ∈ l.map Prod.fst
    · rw [if_pos hv, if_pos (List.mem_cons_of_mem _ hv)]
    · rw [if_neg hv]
      dsimp only
      by_cases he : v = e.1
      · rw [he, update_self, if_pos (List.mem_cons_self)]
      · rw [update_of_ne he, if_neg (by simp only [List.mem_cons, not_or]; exact ⟨he, hv⟩)]

/-- A cached entry of vertex `v` is up to date. -/
def Fresh (G : Graph) (f : Nat → Nat) (v : Nat) (bg : Nat × Int) : Prop :=
  (bg.1 ≠ f v → bg.2 = (blockWgt G f v bg.1 : Int) - blockWgt G f v (f v)) ∧
  (bg.1 = f v → bg.2 = -(blockWgt G f v (f v) : Int))

/-- Loop invariant of `gainLocalSearch`; `todo` are the vertices still to come. -/
structure GInv (G : Graph) (k : Nat) (fixed : Nat → Bool) (sol0 : Nat → Nat) (todo : List Nat) (s : GState) : Prop where
  exact_ : (value G s.sol : Int) + s.imp = value G sol0
  nonneg : 0 ≤ s.imp
  fixed_ : ∀ v, fixed v = true → s.sol v = sol0 v
  outside : ∀ v, G.n ≤ v → s.sol v = sol0 v
  labels : ∀ v, s.sol v = sol0 v ∨ s.sol v < k
  free : ∀ v bg, s.next v = some bg → fixed v = false ∧ v < G.n ∧ v ∉ todo
  fresh : ∀ v bg, s.next v = some bg → Fresh G s.sol v bg

theorem fresh_update (hG : G.WF) {f : Nat → Nat} {v y c : Nat} {bg : Nat × Int} (hy : y < G.n)
    (h : Fresh G f v bg) (hvy : v ≠ y) (hfar : G.wt v y = 0) : Fresh G (update f y c) v bg := by
  unfold Fresh at h ⊢
  rw [update_of_ne hvy]
  simp only [blockWgt_far hG hy f c _ hfar]
  exact h

/-- Vertices that are not targets of `x` have weight zero to `x`. -/
theorem far_of_not_mem (hG : G.WF) {x v : Nat} (h : v ∉ (G.edges x).map Prod.fst) : G.wt v x = 0 := by
  by_contra hc
  rw [hG.wt_symm] at hc
  obtain ⟨e, he, rfl⟩ := exists_mem_of_wt_pos (Nat.pos_of_ne_zero hc)
  exact h (List.mem_map_of_mem he)

/-- What the choice of the best block tells about vertex `x`. -/
structure Best (G : Graph) (k : Nat) (f : Nat → Nat) (x mb : Nat) (gain : Int) : Prop where
  lt : mb < k
  fresh : Fresh G f x (mb, gain)

theorem best_maxBlock (hk : 0 < k) (f : Nat → Nat) (x : Nat) :
    Best G k f x (maxBlock k (f x) (blockWgt G f x)).1
      (((maxBlock k (f x) (blockWgt G f x)).2 : Int) - blockWgt G f x (f x)) := by
  have hs := maxBlock_spec k (f x) (blockWgt G f x)
  have hge := maxBlock_ge k (f x) (blockWgt G f x)
  generalize maxBlock k (f x) (blockWgt G f x) = m at hs hge
  rcases hs with ⟨h2, h1⟩ | ⟨h1, h2, h3, h4⟩
  · refine ⟨by omega, fun hne => ?_, fun _ => ?_⟩
    · dsimp only at hne ⊢
      have := hge m.1 (by omega) hne
      have h0 : blockWgt G f x m.1 = 0 := by omega
      rw [h2, h0]
    · dsimp only
      rw [h2]; simp
  · refine ⟨h2, fun _ => ?_, fun h => absurd h h1⟩
    dsimp only
    rw [h3]

/-- Weight after a joint move. -/
theorem value_pair (hG : G.WF) (hs : ∀ u, ((G.edges u).map Prod.fst).Nodup) {x : Nat} (hx : x < G.n) {f : Nat → Nat}
    {mb : Nat} {gain g : Int} {e : Nat × Nat} (he : e ∈ G.edges x) (hb : Fresh G f x (mb, gain))
    (hg : Fresh G f e.1 (mb, g)) (hsame : f e.1 = f x) (hpos : g + gain + 2 * (e.2 : Int) > 0) :
    (value G (update (update f x mb) e.1 mb) : Int) + (g + gain + 2 * (e.2 : Int)) = value G f := by
  have het := hG.tgt_lt x e he
  have hne := hG.no_loop x e he
  have hw : G.wt x e.1 = e.2 := wt_of_mem (hs x) he
  have hw' : G.wt e.1 x = e.2 := by rw [hG.wt_symm]; exact hw
  by_cases hA : mb = f x
  · exfalso
    have h1 := hb.2 hA
    have h2 := hg.2 (hA.trans hsame.symm)
    dsimp only at h1 h2
    have h3 := wt_le_blockWgt (x := x) hG het hsame
    have h4 := wt_le_blockWgt (x := e.1) hG hx hsame.symm
    rw [hw] at h3
    rw [hw'] at h4
    omega
  · have h1 := hb.1 hA
    have h2 := hg.1 (fun h => hA (h.trans hsame))
    dsimp only at h1 h2
    have v1 := value_move hG hx f mb
    have v2 := value_move hG het (update f x mb) mb
    rw [update_of_ne hne, hsame] at v2
    have b1 := blockWgt_update hG e.1 hx f mb mb
    have b2 := blockWgt_update hG e.1 hx f mb (f x)
    rw [if_neg (Ne.symm hA), if_pos rfl, hw'] at b1
    rw [if_pos rfl, if_neg hA, hw'] at b2
    rw [hsame] at h2
    omega

/-- Weight after a single move. -/
theorem value_single (hG : G.WF) {x : Nat} (hx : x < G.n) {f : Nat → Nat} {mb : Nat} {gain : Int}
    (hb : Fresh G f x (mb, gain)) (hpos : gain ≥ 0) : (value G (update f x mb) : Int) + gain = value G f := by
  have v1 := value_move hG hx f mb
  by_cases hA : mb = f x
  · have h1 := hb.2 hA
    dsimp only at h1
    rw [hA] at v1 ⊢
    omega
  · have h1 := hb.1 hA
    dsimp only at h1
    omega

theorem GInv.bnd {sol0 : Nat → Nat} {todo : List Nat} {s : GState} (h : GInv G k fixed sol0 todo s) (b : Nat → Bool) :
    GInv G k fixed sol0 todo { s with bnd := b } :=
  ⟨h.exact_, h.nonneg, h.fixed_, h.outside, h.labels, h.free, h.fresh⟩

theorem GInv.tail {sol0 : Nat → Nat} {x : Nat} {todo : List Nat} {s : GState} (h : GInv G k fixed sol0 (x :: todo) s) :
    GInv G k fixed sol0 todo s :=
  ⟨h.exact_, h.nonneg, h.fixed_, h.outside, h.labels,
    fun v bg hv => ⟨(h.free v bg hv).1, (h.free v bg hv).2.1, fun hm => (h.free v bg hv).2.2 (List.mem_cons_of_mem _ hm)⟩,
    h.fresh⟩

theorem GInv.next_none {sol0 : Nat → Nat} {x : Nat} {todo : List Nat} {s : GState}
    (h : GInv G k fixed sol0 (x :: todo) s) : s.next x = none := by
  cases hn : s.next x with
  | none => rfl
  | some bg => exact absurd List.mem_cons_self (h.free x bg hn).2.2

theorem gmove (hG : G.WF) {sol0 : Nat → Nat} {todo : List Nat} {x mb : Nat} {s : GState} {gain : Int}
    (hx : x < G.n) (hfx : fixed x = false) (hb : Best G k s.sol x mb gain) (hpos : gain ≥ 0)
    (h : GInv G k fixed sol0 (x :: todo) s) :
    GInv G k fixed sol0 todo (touch G x { s with sol := update s.sol x mb, imp := s.imp + gain }) := by
  obtain ⟨t1, t2, t3⟩ := touch_spec (G := G) x { s with sol := update s.sol x mb, imp := s.imp + gain }
  generalize touch G x _ = s' at t1 t2 t3
  dsimp only at t1 t2 t3
  have hv := value_single hG hx hb.fresh hpos
  have hnx := h.next_none
  refine ⟨?_, ?_, ?_, ?_, ?_, ?_, ?_⟩
  · rw [t1, t2]; have := h.exact_; omega
  · rw [t2]; have := h.nonneg; omega
  · intro v hf
    have hvx : v ≠ x := fun e => by rw [e, hfx] at hf; cases hf
    rw [t1, update_of_ne hvx]; exact h.fixed_ v hf
  · intro v hf
    rw [t1, update_of_ne (by omega)]; exact h.outside v hf
  · intro v
    rw [t1]
    by_cases hvx : v = x
    · rw [hvx, update_self]; exact Or.inr hb.lt
    · rw [update_of_ne hvx]; exact h.labels v
  · intro v bg hn
    rw [t3] at hn
    split at hn
    · cases hn
    · exact h.tail.free v bg hn
  · intro v bg hn
    rw [t3] at hn
    split at hn
    · cases hn
    · rename_i hnm
      rw [t1]
      have hvx : v ≠ x := fun e => by rw [e, hnx] at hn; cases hn
      exact fresh_update hG hx (h.fresh v bg hn) hvx (far_of_not_mem hG hnm)

theorem gpair (hG : G.WF) (hs : ∀ u, ((G.edges u).map Prod.fst).Nodup) {sol0 : Nat → Nat} {todo : List Nat} {x mb : Nat}
    {s : GState} {gain g : Int} {e : Nat × Nat} (hx : x < G.n) (hfx : fixed x = false)
    (hb : Best G k s.sol x mb gain) (he : e ∈ G.edges x) (hn : s.next e.1 = some (mb, g)) (hsame : s.sol e.1 = s.sol x)
    (hpos : g + gain + 2 * (e.2 : Int) > 0) (h : GInv G k fixed sol0 (x :: todo) s) :
    let s1 := { s with sol := update (update s.sol x mb) e.1 mb, imp := s.imp + (g + gain + 2 * (e.2 : Int)) }
    let s2 := touch G x s1
    let s3 := touch G e.1 { s2 with next := update s2.next e.1 none }
    GInv G k fixed sol0 todo s3 ∧ ∀ e' ∈ G.edges x, s3.next e'.1 = none := by
  intro s1 s2 s3
  obtain ⟨t1, t2, t3⟩ := touch_spec (G := G) x s1
  obtain ⟨u1, u2, u3⟩ := touch_spec (G := G) e.1 { s2 with next := update s2.next e.1 none }
  change s2.sol = _ at t1
  change s2.imp = _ at t2
  change s3.sol = s2.sol at u1
  change s3.imp = s2.imp at u2
  have hsol : s3.sol = update (update s.sol x mb) e.1 mb := u1.trans t1
  have himp : s3.imp = s.imp + (g + gain + 2 * (e.2 : Int)) := u2.trans t2
  have hnext : ∀ v bg, s3.next v = some bg → s.next v = some bg ∧ v ≠ e.1 ∧
      v ∉ (G.edges x).map Prod.fst ∧ v ∉ (G.edges e.1).map Prod.fst := by
    intro v bg hv
    have := u3 v
    rw [this] at hv
    split at hv
    · cases hv
    · rename_i a
      dsimp only at hv
      by_cases hve : v = e.1
      · rw [hve, update_self] at hv; cases hv
      · rw [update_of_ne hve] at hv
        have h5 := t3 v
        change s2.next v = _ at h5
        rw [h5] at hv
        split at hv
        · cases hv
        · rename_i c
          exact ⟨hv, hve, c, a⟩
  have het := hG.tgt_lt x e he
  have hv := value_pair hG hs hx he hb.fresh (h.fresh _ _ hn) hsame hpos
  have hfe := (h.free _ _ hn).1
  have hnx := h.next_none
  refine ⟨⟨?_, ?_, ?_, ?_, ?_, ?_, ?_⟩, ?_⟩
  · rw [hsol, himp]; have := h.exact_; omega
  · rw [himp]; have := h.nonneg; omega
  · intro v hf
    have hvx : v ≠ x := fun e => by rw [e, hfx] at hf; cases hf
    have hve : v ≠ e.1 := fun e => by rw [e, hfe] at hf; cases hf
    rw [hsol, update_of_ne hve, update_of_ne hvx]; exact h.fixed_ v hf
  · intro v hf
    rw [hsol, update_of_ne (by omega), update_of_ne (by omega)]; exact h.outside v hf
  · intro v
    rw [hsol]
    by_cases hve : v = e.1
    · rw [hve, update_self]; exact Or.inr hb.lt
    · rw [update_of_ne hve]
      by_cases hvx : v = x
      · rw [hvx, update_self]; exact Or.inr hb.lt
      · rw [update_of_ne hvx]; exact h.labels v
  · intro v bg hn
    exact h.tail.free v bg (hnext v bg hn).1
  · intro v bg hn
    obtain ⟨a, b, c, d⟩ := hnext v bg hn
    rw [hsol]
    have hvx : v ≠ x := fun e => by rw [e, hnx] at a; cases a
    exact fresh_update hG het (fresh_update hG hx (h.fresh v bg a) hvx (far_of_not_mem hG c)) b (far_of_not_mem hG d)
  · intro e' he'
    cases hc : s3.next e'.1 with
    | none => rfl
    | some bg => exact absurd (List.mem_map_of_mem he') (hnext _ _ hc).2.2.1

theorem pairs_inv (hG : G.WF) (hs : ∀ u, ((G.edges u).map Prod.fst).Nodup) {sol0 : Nat → Nat} {todo : List Nat} {x mb : Nat}
    {s : GState} {gain : Int} (hx : x < G.n) (hfx : fixed x = false)
    (hb : Best G k s.sol x mb gain) (h : GInv G k fixed sol0 (x :: todo) s) :
    ∀ l : List (Nat × Nat), (∀ e ∈ l, e ∈ G.edges x) →
      let r := l.foldl (pairStep G x mb gain) (s, false)
      (r.2 = false → r.1 = s) ∧
      (r.2 = true → GInv G k fixed sol0 todo r.1 ∧ ∀ e' ∈ G.edges x, r.1.next e'.1 = none) := by
  intro l
  induction l using List.reverseRecOn with
  | nil => intro _; exact ⟨fun _ => rfl, fun h => by cases h⟩
  | append_singleton l e ih =>
    intro hl
    obtain ⟨i1, i2⟩ := ih (fun e he => hl e (List.mem_append_left _ he))
    have he := hl e (List.mem_append_right _ List.mem_cons_self)
    dsimp only
    rw [List.foldl_append, List.foldl_cons, List.foldl_nil]
    generalize l.foldl (pairStep G x mb gain) (s, false) = r at i1 i2
    obtain ⟨r1, r2⟩ := r
    cases r2 with
    | true =>
      have hnone := (i2 rfl).2 e he
      dsimp only at hnone
      have : pairStep G x mb gain (r1, true) e = (r1, true) := by
        unfold pairStep
        dsimp only
        rw [hnone]
      rw [this]
      exact ⟨fun h => (by cases h), i2⟩
    | false =>
      have hrs := i1 rfl
      dsimp only at hrs
      subst hrs
      unfold pairStep
      dsimp only
      cases hn : r1.next e.1 with
      | none => exact ⟨fun _ => rfl, fun h => by cases h⟩
      | some bg =>
        obtain ⟨b, g⟩ := bg
        dsimp only
        split
        · rename_i hc
          obtain ⟨c1, c2, c3, -⟩ := hc
          subst c2
          exact ⟨fun h => (by cases h), fun _ => gpair hG hs hx hfx hb he hn c1 c3 h⟩
        · exact ⟨fun _ => rfl, fun h => by cases h⟩

theorem gainStep_inv (hG : G.WF) (hs : ∀ u, ((G.edges u).map Prod.fst).Nodup) (hk : 0 < k) {sol0 : Nat → Nat}
    {todo : List Nat} {x : Nat} {s : GState} (hx : x < G.n) (hxt : x ∉ todo) (h : GInv G k fixed sol0 (x :: todo) s) :
    GInv G k fixed sol0 todo (gainStep k fixed G s x) := by
  unfold gainStep
  split
  · exact h.tail
  · rename_i hc
    push Not at hc
    have hfx : fixed x = false := by simpa using hc.1
    have hb := best_maxBlock (G := G) hk s.sol x
    dsimp only
    generalize maxBlock k (s.sol x) (blockWgt G s.sol x) = mx at hb
    generalize ((mx.2 : Int) - blockWgt G s.sol x (s.sol x)) = gain at hb
    obtain ⟨s1, hs1, hs1'⟩ : ∃ s1 : GState, s1 = (if mx.2 ≠ 0 then { s with bnd := update s.bnd x false } else s) ∧
        (GInv G k fixed sol0 (x :: todo) s1 ∧ s1.sol = s.sol) := by
      refine ⟨_, rfl, ?_⟩
      split
      · exact ⟨h.bnd _, rfl⟩
      · exact ⟨h, rfl⟩
    rw [← hs1]
    clear hs1 h hc
    obtain ⟨h, hsol⟩ := hs1'
    rw [← hsol] at hb
    clear hsol s
    obtain ⟨p1, p2⟩ := pairs_inv hG hs hx hfx hb h (G.edges x) (fun _ h => h)
    generalize (G.edges x).foldl (pairStep G x mx.1 gain) (s1, false) = r at p1 p2
    obtain ⟨r1, r2⟩ := r
    cases r2 with
    | true => exact (p2 rfl).1
    | false =>
      have := p1 rfl
      dsimp only at this
      subst this
      rw [if_neg (by simp)]
      split
      · rename_i hg
        exact gmove hG hx hfx hb hg h
      · refine ⟨h.exact_, h.nonneg, h.fixed_, h.outside, h.labels, fun v bg hv => ?_, fun v bg hv => ?_⟩
        · dsimp only at hv
          by_cases hvx : v = x
          · subst hvx; exact ⟨hfx, hx, hxt⟩
          · rw [update_of_ne hvx] at hv
            exact h.tail.free v bg hv
        · dsimp only at hv ⊢
          by_cases hvx : v = x
          · subst hvx
            rw [update_self] at hv
            injection hv with hv
            subst hv
            exact hb.fresh
          · rw [update_of_ne hvx] at hv
            exact h.fresh v bg hv

theorem gainLoop_inv (hG : G.WF) (hs : ∀ u, ((G.edges u).map Prod.fst).Nodup) (hk : 0 < k) {sol0 : Nat → Nat} :
    ∀ (perm : List Nat) (s : GState), perm.Nodup → (∀ x ∈ perm, x < G.n) → GInv G k fixed sol0 perm s →
      GInv G k fixed sol0 [] (perm.foldl (gainStep k fixed G) s) := by
  intro perm
  induction perm with
  | nil => intro s _ _ h; exact h
  | cons x l ih =>
    intro s hn hl h
    rw [List.foldl_cons]
    rw [List.nodup_cons] at hn
    exact ih _ hn.2 (fun y hy => hl y (List.mem_cons_of_mem _ hy))
      (gainStep_inv hG hs hk (hl x List.mem_cons_self) hn.1 h)

theorem gain_ok (hG : G.WF) (hs : ∀ u, ((G.edges u).map Prod.fst).Nodup) (hk : 0 < k) {perm : List Nat}
    (hp : perm.Nodup) (hl : ∀ x ∈ perm, x < G.n) (sol : Nat → Nat) :
    let r := gainLocalSearch k fixed G perm sol
    (value G r.1 : Int) + r.2 = value G sol ∧ 0 ≤ r.2 ∧ (∀ v, fixed v = true → r.1 v = sol v) ∧
      (∀ v, G.n ≤ v → r.1 v = sol v) ∧ ∀ v, r.1 v = sol v ∨ r.1 v < k := by
  have h0 : GInv G k fixed sol perm ⟨sol, fun _ => none, fun _ => true, 0⟩ := by
    refine ⟨by simp, Int.le_refl _, fun _ _ => rfl, fun _ _ => rfl, fun _ => Or.inl rfl, ?_, ?_⟩
    · intro v bg h; cases h
    · intro v bg h; cases h
  have := gainLoop_inv hG hs hk perm _ hp hl h0
  exact ⟨this.exact_, this.nonneg, this.fixed_, this.outside, this.labels⟩

end LocalSearch
end VieCut
