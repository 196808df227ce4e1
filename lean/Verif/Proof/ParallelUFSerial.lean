import Verif.Proof.ParallelUF
import Mathlib.Logic.Function.Iterate

/-! # The concurrent union-find: no lost union when unions do not overlap -/

namespace VieCut
open Function

namespace CUF

/-- What is known about a `Find` that has reached `e`; `rt` gives the roots. -/
def LK (par rt : Nat → Nat) (o : Option Op) (e : Nat) : Cont → Prop
  | .ret => ∃ a, o = some (.find a) ∧ rt e = rt a
  | .lhs r => ∃ a b, o = some (.union a b) ∧ (rt e = rt a ∧ rt r = rt b ∨ rt e = rt b ∧ rt r = rt a)
  | .rhs l => ∃ a b, o = some (.union a b) ∧ par l = l ∧ (rt l = rt a ∧ rt e = rt b ∨ rt l = rt b ∧ rt e = rt a)
  | .sx y => ∃ a b, o = some (.same a b) ∧ rt e = rt a ∧ rt y = rt b
  | .sy x => ∃ a b, o = some (.same a b) ∧ rt x = rt a ∧ rt e = rt b

/-- Two different roots of the arguments of the current `Union`. -/
def Roots (par rt : Nat → Nat) (o : Option Op) (x y : Nat) : Prop :=
  ∃ a b, o = some (.union a b) ∧ par x = x ∧ par y = y ∧ x ≠ y ∧ (rt x = rt a ∧ rt y = rt b ∨ rt x = rt b ∧ rt y = rt a)

/-- The arguments of the current `Union` have the same root. -/
def Joined (rt : Nat → Nat) (o : Option Op) : Prop := ∃ a b, o = some (.union a b) ∧ rt a = rt b

/-- What is known about a thread. -/
def LP (par rank rt κ : Nat → Nat) (o : Option Op) : PC → Prop
  | .idle => o = none
  | .test k e => LK par rt o e k
  | .next k e => LK par rt o e k ∧ par e ≠ e
  | .grand k e nx => LK par rt o e k ∧ par e ≠ e ∧ rt nx = rt e
  | .halve k e nx p => LK par rt o e k ∧ par e ≠ e ∧ rt nx = rt e ∧ rt p = rt e ∧ (p = nx ∨ par nx ≠ nx ∧ κ nx < κ p)
  | .move k e nx => LK par rt o e k ∧ rt nx = rt e
  | .rankL l r => Roots par rt o l r
  | .rankR l r rl => Roots par rt o l r ∧ rank l = rl
  | .chkP u => u.first = true ∧ Roots par rt o u.x u.y ∧ rank u.x = u.xr ∨ u.first = false ∧ u.x = u.y ∧ Joined rt o
  | .chkR u => u.first = true ∧ Roots par rt o u.x u.y ∧ rank u.x = u.xr ∨ u.first = false ∧ u.x = u.y ∧ Joined rt o
  | .linkP u => u.first = true ∧ Roots par rt o u.x u.y ∧ rank u.x = u.xr ∨ u.first = false ∧ u.x = u.y ∧ Joined rt o
  | .readR u => Joined rt o ∧ (u.first = true ∨ u.first = false ∧ u.x = u.y)
  | .linkR u old => Joined rt o ∧ (u.first = true ∧ rank u.x = old ∨ u.first = false ∧ u.x = u.y)
  | .undo u => Joined rt o ∧ u.first = false ∧ u.x = u.y
  | .root x y => ∃ a b, o = some (.same a b) ∧ rt x = rt a ∧ rt y = rt b

/-- The forest: `rt` gives the roots, `κ` increases along the pointers and is bounded by `B`. -/
structure Forest (par rt κ : Nat → Nat) (B : Nat) : Prop where
  fix : ∀ x, par x = x → rt x = x
  stp : ∀ x, rt (par x) = rt x
  idem : ∀ x, par (rt x) = rt x
  key : ∀ x, par x ≠ x → κ x < κ (par x)
  bnd : ∀ x, κ x ≤ B

/-- The invariant while unions do not overlap. -/
structure Ser (s : St) (rt κ : Nat → Nat) (B : Nat) : Prop where
  forest : Forest s.parent rt κ B
  pc : ∀ t, LP s.parent s.rank rt κ (s.op t) (s.pc t)
  req : ∀ a b, (a, b) ∈ s.reqs → rt a = rt b ∨ ∃ t, s.op t = some (.union a b)

/-- The thread executes a `Union`. -/
def InUnion (s : St) (t : Nat) : Prop := ∃ a b, s.op t = some (.union a b)

variable {s : St} {t : Nat} {rt κ : Nat → Nat} {B : Nat}

theorem Forest.root {par : Nat → Nat} (h : Forest par rt κ B) (x : Nat) : ∃ i, par^[i] x = rt x := by
  have : ∀ c x, B - κ x ≤ c → ∃ i, par^[i] x = rt x := by
    intro c
    induction c with
    | zero =>
      intro x hx
      by_cases hp : par x = x
      · exact ⟨0, (h.fix x hp).symm⟩
      · have := h.key x hp; have := h.bnd (par x); omega
    | succ c ih =>
      intro x hx
      by_cases hp : par x = x
      · exact ⟨0, (h.fix x hp).symm⟩
      · have := h.key x hp; have := h.bnd (par x)
        obtain ⟨i, hi⟩ := ih (par x) (by omega)
        exact ⟨i + 1, by rw [iterate_succ_apply, hi, h.stp]⟩
  exact this _ x (Nat.le_refl _)

theorem LK.frame {par par' rt' : Nat → Nat} {o : Option Op} {e : Nat} {k : Cont} (h : LK par rt o e k)
    (hrt : ∀ x y, rt x = rt y → rt' x = rt' y) (hu : (∃ a b, o = some (.union a b)) → ∀ x, par x = x → par' x = x) : LK par' rt' o e k := by
  cases k with
  | ret => obtain ⟨a, h1, h2⟩ := h; exact ⟨a, h1, hrt _ _ h2⟩
  | lhs r =>
    obtain ⟨a, b, h1, h2⟩ := h
    refine ⟨a, b, h1, ?_⟩
    rcases h2 with ⟨h2, h3⟩ | ⟨h2, h3⟩
    · exact Or.inl ⟨hrt _ _ h2, hrt _ _ h3⟩
    · exact Or.inr ⟨hrt _ _ h2, hrt _ _ h3⟩
  | rhs l =>
    obtain ⟨a, b, h1, h0, h2⟩ := h
    refine ⟨a, b, h1, hu ⟨a, b, h1⟩ _ h0, ?_⟩
    rcases h2 with ⟨h2, h3⟩ | ⟨h2, h3⟩
    · exact Or.inl ⟨hrt _ _ h2, hrt _ _ h3⟩
    · exact Or.inr ⟨hrt _ _ h2, hrt _ _ h3⟩
  | sx y => obtain ⟨a, b, h1, h2, h3⟩ := h; exact ⟨a, b, h1, hrt _ _ h2, hrt _ _ h3⟩
  | sy x => obtain ⟨a, b, h1, h2, h3⟩ := h; exact ⟨a, b, h1, hrt _ _ h2, hrt _ _ h3⟩

theorem Roots.frame {par par' rt' : Nat → Nat} {o : Option Op} {x y : Nat} (h : Roots par rt o x y)
    (hrt : ∀ x y, rt x = rt y → rt' x = rt' y) (hu : ∀ x, par x = x → par' x = x) : Roots par' rt' o x y := by
  obtain ⟨a, b, h1, h2, h3, h4, h5⟩ := h
  refine ⟨a, b, h1, hu _ h2, hu _ h3, h4, ?_⟩
  rcases h5 with ⟨h5, h6⟩ | ⟨h5, h6⟩
  · exact Or.inl ⟨hrt _ _ h5, hrt _ _ h6⟩
  · exact Or.inr ⟨hrt _ _ h5, hrt _ _ h6⟩

theorem Joined.frame {rt' : Nat → Nat} {o : Option Op} (h : Joined rt o) (hrt : ∀ x y, rt x = rt y → rt' x = rt' y) : Joined rt' o := by
  obtain ⟨a, b, h1, h2⟩ := h
  exact ⟨a, b, h1, hrt _ _ h2⟩

/-- What other threads do to a thread's knowledge. -/
theorem LP.frame {par rank par' rank' rt' κ' : Nat → Nat} {o : Option Op} {p : PC} (h : LP par rank rt κ o p)
    (hrt : ∀ x y, rt x = rt y → rt' x = rt' y) (hnr : ∀ x, par x ≠ x → par' x ≠ x ∧ κ' x = κ x) (hκ : ∀ x, κ x ≤ κ' x)
    (hu : (∃ a b, o = some (.union a b)) → (∀ x, par x = x → par' x = x) ∧ rank' = rank) : LP par' rank' rt' κ' o p := by
  have hu' : (∃ a b, o = some (.union a b)) → ∀ x, par x = x → par' x = x := fun h => (hu h).1
  have hR : ∀ {x y}, Roots par rt o x y → Roots par' rt' o x y ∧ rank' = rank := fun {x y} h => by
    have : ∃ a b, o = some (.union a b) := by obtain ⟨a, b, h1, -⟩ := h; exact ⟨a, b, h1⟩
    exact ⟨h.frame hrt (hu this).1, (hu this).2⟩
  have hU : ∀ {u : Upd}, (u.first = true ∧ Roots par rt o u.x u.y ∧ rank u.x = u.xr ∨ u.first = false ∧ u.x = u.y ∧ Joined rt o) →
      (u.first = true ∧ Roots par' rt' o u.x u.y ∧ rank' u.x = u.xr ∨ u.first = false ∧ u.x = u.y ∧ Joined rt' o) := by
    rintro u (⟨h1, h2, h3⟩ | ⟨h1, h2, h3⟩)
    · obtain ⟨h4, h5⟩ := hR h2
      exact Or.inl ⟨h1, h4, by rw [h5]; exact h3⟩
    · exact Or.inr ⟨h1, h2, h3.frame hrt⟩
  cases p with
  | idle => exact h
  | test k e => exact LK.frame h hrt hu'
  | next k e => exact ⟨h.1.frame hrt hu', (hnr _ h.2).1⟩
  | grand k e nx => exact ⟨h.1.frame hrt hu', (hnr _ h.2.1).1, hrt _ _ h.2.2⟩
  | halve k e nx p =>
    obtain ⟨h1, h2, h3, h4, h5⟩ := h
    refine ⟨h1.frame hrt hu', (hnr _ h2).1, hrt _ _ h3, hrt _ _ h4, ?_⟩
    rcases h5 with h5 | ⟨h5, h6⟩
    · exact Or.inl h5
    · refine Or.inr ⟨(hnr _ h5).1, ?_⟩
      rw [(hnr _ h5).2]
      exact Nat.lt_of_lt_of_le h6 (hκ _)
  | move k e nx => exact ⟨h.1.frame hrt hu', hrt _ _ h.2⟩
  | rankL l r => exact (hR h).1
  | rankR l r rl => obtain ⟨h1, h2⟩ := h; exact ⟨(hR h1).1, by rw [(hR h1).2]; exact h2⟩
  | chkP u => exact hU h
  | chkR u => exact hU h
  | linkP u => exact hU h
  | readR u => exact ⟨h.1.frame hrt, h.2⟩
  | linkR u old =>
    obtain ⟨h1, h2⟩ := h
    have h0 : rank' = rank := by obtain ⟨a, b, h3, -⟩ := h1; exact (hu ⟨a, b, h3⟩).2
    exact ⟨h1.frame hrt, by rw [h0]; exact h2⟩
  | undo u => exact ⟨h.1.frame hrt, h.2⟩
  | root x y => obtain ⟨a, b, h1, h2, h3⟩ := h; exact ⟨a, b, h1, hrt _ _ h2, hrt _ _ h3⟩

theorem Ser.start (prog : Nat → List Op) : Ser (start prog) id (fun _ => 0) 0 :=
  ⟨⟨fun _ _ => rfl, fun _ => rfl, fun _ => rfl, fun _ h => absurd rfl h, fun _ => Nat.le_refl _⟩, fun _ => rfl,
    fun a b h => by simp [CUF.start] at h⟩

theorem Ser.goto (h : Ser s rt κ B) {p : PC} (hp : LP s.parent s.rank rt κ (s.op t) p) : Ser (s.goto t p) rt κ B := by
  refine ⟨h.forest, fun t' => ?_, h.req⟩
  show LP _ _ _ _ _ (update s.pc t p t')
  by_cases ht : t' = t
  · subst ht; rw [update_self]; exact hp
  · rw [update_of_ne ht]; exact h.pc t'

theorem Ser.ret (h : Ser s rt κ B) {r : Res} (hr : ∀ a b, s.op t = some (.union a b) → rt a = rt b) : Ser (s.ret t r) rt κ B := by
  refine ⟨h.forest, fun t' => ?_, fun a b hab => ?_⟩
  · show LP _ _ _ _ (update s.op t none t') (update s.pc t .idle t')
    by_cases ht : t' = t
    · subst ht; rw [update_self, update_self]; rfl
    · rw [update_of_ne ht, update_of_ne ht]; exact h.pc t'
  · rcases h.req a b hab with h1 | ⟨t', h1⟩
    · exact Or.inl h1
    · by_cases ht : t' = t
      · subst ht; exact Or.inl (hr a b h1)
      · refine Or.inr ⟨t', ?_⟩
        show update s.op t none t' = _
        rw [update_of_ne ht]; exact h1

theorem Ser.found (h : Ser s rt κ B) {e : Nat} {k : Cont} (hk : LK s.parent rt (s.op t) e k) (he : s.parent e = e) :
    Ser (s.found t e k) rt κ B := by
  cases k with
  | ret =>
    obtain ⟨a, h1, h2⟩ := hk
    exact h.ret fun _ _ ho => by rw [h1] at ho; cases ho
  | lhs r =>
    obtain ⟨a, b, h1, h2⟩ := hk
    exact h.goto ⟨a, b, h1, he, h2⟩
  | rhs l =>
    obtain ⟨a, b, h1, h2, h3⟩ := hk
    show Ser (if l = e then _ else _) rt κ B
    split
    · rename_i hle
      subst hle
      refine h.ret fun a' b' ho => ?_
      rw [h1] at ho; cases ho
      rcases h3 with ⟨h3, h4⟩ | ⟨h3, h4⟩
      · rw [← h3, ← h4]
      · rw [← h3, ← h4]
    · rename_i hle
      exact h.goto ⟨a, b, h1, h2, he, hle, h3⟩
  | sx y =>
    obtain ⟨a, b, h1, h2, h3⟩ := hk
    exact h.goto ⟨a, b, h1, h2, h3⟩
  | sy x =>
    obtain ⟨a, b, h1, h2, h3⟩ := hk
    show Ser (if x = e then _ else _) rt κ B
    split
    · exact h.ret fun _ _ ho => by rw [h1] at ho; cases ho
    · exact h.goto ⟨a, b, h1, h2, h3⟩

theorem Ser.joinedRet (h : Ser s rt κ B) {r : Res} (hj : Joined rt (s.op t)) : Ser (s.ret t r) rt κ B := by
  obtain ⟨a, b, h1, h2⟩ := hj
  exact h.ret fun a' b' ho => by rw [h1] at ho; cases ho; exact h2

/-- A failing second `UpdateRoot`. -/
theorem Ser.failed (h : Ser s rt κ B) {u : Upd} (hu : u.first = false) (hj : Joined rt (s.op t)) : Ser (s.failed t u) rt κ B := by
  unfold St.failed
  rw [hu]
  exact h.joinedRet hj

theorem Ser.updated (h : Ser s rt κ B) {u : Upd} (hj : Joined rt (s.op t)) : Ser (s.updated t u) rt κ B := by
  unfold St.updated
  split
  · exact h.goto (Or.inr ⟨rfl, rfl, hj⟩)
  · exact h.joinedRet hj

/-- Path halving. -/
theorem Ser.halve (h : Ser s rt κ B) {e nx p : Nat} (h1 : s.parent e = nx) (h2 : s.parent e ≠ e) (h4 : rt p = rt e)
    (h5 : p = nx ∨ s.parent nx ≠ nx ∧ κ nx < κ p) : Ser { s with parent := update s.parent e p } rt κ B := by
  have hk : κ e < κ p := by
    have := h.forest.key e h2
    rw [h1] at this
    rcases h5 with rfl | h5
    · exact this
    · omega
  have hpe : p ≠ e := by rintro rfl; omega
  have hroot : ∀ x, s.parent x = x → update s.parent e p x = x := by
    intro x hx
    have : x ≠ e := by rintro rfl; exact h2 hx
    rw [update_of_ne this]; exact hx
  have hnr : ∀ x, s.parent x ≠ x → update s.parent e p x ≠ x := by
    intro x hx
    by_cases hxe : x = e
    · subst hxe; rw [update_self]; exact hpe
    · rw [update_of_ne hxe]; exact hx
  refine ⟨⟨fun x hx => ?_, fun x => ?_, fun x => hroot _ (h.forest.idem x), fun x hx => ?_, h.forest.bnd⟩, fun t' => ?_, h.req⟩
  · refine h.forest.fix x ?_
    by_contra hc
    exact hnr x hc hx
  · show rt (update s.parent e p x) = rt x
    by_cases hxe : x = e
    · subst hxe; rw [update_self]; exact h4
    · rw [update_of_ne hxe]; exact h.forest.stp x
  · show κ x < κ (update s.parent e p x)
    by_cases hxe : x = e
    · subst hxe; rw [update_self]; exact hk
    · change update s.parent e p x ≠ x at hx
      rw [update_of_ne hxe] at hx ⊢; exact h.forest.key x hx
  · exact (h.pc t').frame (fun _ _ h => h) (fun x hx => ⟨hnr x hx, rfl⟩) (fun _ => Nat.le_refl _) fun _ => ⟨hroot, rfl⟩

/-- Setting the pointer of a root to itself. -/
theorem set_self {x : Nat} (hx : s.parent x = x) : { s with parent := update s.parent x x } = s := by
  have : update s.parent x x = s.parent := by
    funext z
    by_cases hz : z = x
    · subst hz; rw [update_self, hx]
    · rw [update_of_ne hz]
  rw [this]

/-- Linking root `x` below root `y`. -/
theorem Ser.link (h : Ser s rt κ B) {u : Upd} (hr : Roots s.parent rt (s.op t) u.x u.y) (hone : ∀ t', InUnion s t' → t' = t)
    (hf : u.first = true) :
    Ser ({ s with parent := update s.parent u.x u.y }.goto t (.readR u)) (fun z => if rt z = u.x then u.y else rt z)
      (update κ u.y (max (κ u.y) (κ u.x + 1))) (B + 1) := by
  obtain ⟨a, b, h1, hx, hy, hxy, h2⟩ := hr
  generalize hX : u.x = x at *
  generalize hY : u.y = y at *
  have rx := h.forest.fix x hx
  have ry := h.forest.fix y hy
  have hrt : ∀ z w, rt z = rt w → (if rt z = x then y else rt z) = (if rt w = x then y else rt w) := fun z w hzw => by rw [hzw]
  have hnr : ∀ z, s.parent z ≠ z → update s.parent x y z ≠ z ∧ update κ y (max (κ y) (κ x + 1)) z = κ z := by
    intro z hz
    have : z ≠ x := by rintro rfl; exact hz hx
    have : z ≠ y := by rintro rfl; exact hz hy
    rw [update_of_ne ‹z ≠ x›, update_of_ne ‹z ≠ y›]
    exact ⟨hz, rfl⟩
  have hκ : ∀ z, κ z ≤ update κ y (max (κ y) (κ x + 1)) z := by
    intro z
    by_cases hz : z = y
    · subst hz; rw [update_self]; omega
    · rw [update_of_ne hz]
  refine ⟨⟨fun z hz => ?_, fun z => ?_, fun z => ?_, fun z hz => ?_, fun z => ?_⟩, fun t' => ?_, fun c d hcd => ?_⟩
  · change update s.parent x y z = z at hz
    have hzx : z ≠ x := by rintro rfl; rw [update_self] at hz; exact hxy hz.symm
    rw [update_of_ne hzx] at hz
    show (if rt z = x then y else rt z) = z
    rw [h.forest.fix z hz, if_neg hzx]
  · show (if rt (update s.parent x y z) = x then y else rt (update s.parent x y z)) = if rt z = x then y else rt z
    by_cases hzx : z = x
    · subst hzx
      rw [update_self, ry, rx, if_pos rfl, if_neg (Ne.symm hxy)]
    · rw [update_of_ne hzx, h.forest.stp]
  · show update s.parent x y (if rt z = x then y else rt z) = if rt z = x then y else rt z
    split
    · rw [update_of_ne (Ne.symm hxy)]; exact hy
    · next hne => rw [update_of_ne hne]; exact h.forest.idem z
  · change update s.parent x y z ≠ z at hz
    show update κ y (max (κ y) (κ x + 1)) z < update κ y (max (κ y) (κ x + 1)) (update s.parent x y z)
    by_cases hzx : z = x
    · subst hzx
      rw [update_self, update_self, update_of_ne hxy]; omega
    · rw [update_of_ne hzx] at hz ⊢
      rw [(hnr z hz).2]
      exact Nat.lt_of_lt_of_le (h.forest.key z hz) (hκ _)
  · by_cases hz : z = y
    · subst hz
      rw [update_self]
      have := h.forest.bnd x
      have := h.forest.bnd z
      omega
    · rw [update_of_ne hz]
      have := h.forest.bnd z
      omega
  · show LP (update s.parent x y) s.rank _ _ (s.op t') (update s.pc t (.readR u) t')
    by_cases ht : t' = t
    · subst ht
      rw [update_self]
      refine ⟨⟨a, b, h1, ?_⟩, Or.inl hf⟩
      show (if rt a = x then y else rt a) = if rt b = x then y else rt b
      rcases h2 with ⟨h2, h3⟩ | ⟨h2, h3⟩
      · rw [← h2, ← h3, rx, ry, if_pos rfl, if_neg (Ne.symm hxy)]
      · rw [← h2, ← h3, rx, ry, if_pos rfl, if_neg (Ne.symm hxy)]
    · rw [update_of_ne ht]
      exact (h.pc t').frame hrt hnr hκ fun hu => absurd (hone t' hu) ht
  · rcases h.req c d hcd with h3 | ⟨t', h3⟩
    · exact Or.inl (hrt _ _ h3)
    · exact Or.inr ⟨t', h3⟩

/-- Writing a rank during a `Union`. -/
theorem Ser.setRank (h : Ser s rt κ B) (hone : ∀ t', InUnion s t' → t' = t) (r : Nat → Nat) (p : PC)
    (hp : LP s.parent r rt κ (s.op t) p) : Ser ({ s with rank := r }.goto t p) rt κ B := by
  refine ⟨h.forest, fun t' => ?_, h.req⟩
  show LP s.parent r _ _ (s.op t') (update s.pc t p t')
  by_cases ht : t' = t
  · subst ht; rw [update_self]; exact hp
  · rw [update_of_ne ht]
    exact (h.pc t').frame (fun _ _ h => h) (fun x hx => ⟨hx, rfl⟩) (fun _ => Nat.le_refl _) fun hu => absurd (hone t' hu) ht

theorem Ser.begin (h : Ser s rt κ B) (o : Op) (rest : List Op) (hi : s.op t = none) : Ser (s.begin t o rest) rt κ B := by
  have key : ∀ (reqs : List (Nat × Nat)) (p : PC), (∀ a b, (a, b) ∈ reqs → (a, b) ∈ s.reqs ∨ o = .union a b) →
      LP s.parent s.rank rt κ (some o) p →
      Ser ({ s with prog := update s.prog t rest, op := update s.op t (some o), reqs := reqs, pc := update s.pc t p }) rt κ B := by
    intro reqs p hr hp
    refine ⟨h.forest, fun t' => ?_, fun a b hab => ?_⟩
    · show LP _ _ _ _ (update s.op t (some o) t') (update s.pc t p t')
      by_cases ht : t' = t
      · subst ht; rw [update_self, update_self]; exact hp
      · rw [update_of_ne ht, update_of_ne ht]; exact h.pc t'
    · rcases hr a b hab with h1 | h1
      · rcases h.req a b h1 with h2 | ⟨t', h2⟩
        · exact Or.inl h2
        · refine Or.inr ⟨t', ?_⟩
          have : t' ≠ t := by rintro rfl; rw [hi] at h2; cases h2
          show update s.op t (some o) t' = _
          rw [update_of_ne this]; exact h2
      · exact Or.inr ⟨t, by show update s.op t (some o) t = _; rw [update_self, h1]⟩
  cases o with
  | find a => exact key s.reqs (.test .ret a) (fun _ _ h => Or.inl h) ⟨a, rfl, rfl⟩
  | union a b =>
    refine key ((a, b) :: s.reqs) (.test (.lhs b) a) (fun c d h => ?_) ⟨a, b, rfl, Or.inl ⟨rfl, rfl⟩⟩
    rcases List.mem_cons.1 h with h | h
    · cases h; exact Or.inr rfl
    · exact Or.inl h
  | same a b => exact key s.reqs (.test (.sx b) a) (fun _ _ h => Or.inl h) ⟨a, b, rfl, rfl, rfl⟩

theorem LK.move {par : Nat → Nat} {o : Option Op} {e e' : Nat} {k : Cont} (h : LK par rt o e k) (he : rt e' = rt e) : LK par rt o e' k := by
  cases k with
  | ret => obtain ⟨a, h1, h2⟩ := h; exact ⟨a, h1, he.trans h2⟩
  | lhs r => obtain ⟨a, b, h1, h2⟩ := h; exact ⟨a, b, h1, by rw [he]; exact h2⟩
  | rhs l => obtain ⟨a, b, h1, h0, h2⟩ := h; exact ⟨a, b, h1, h0, by rw [he]; exact h2⟩
  | sx y => obtain ⟨a, b, h1, h2, h3⟩ := h; exact ⟨a, b, h1, he.trans h2, h3⟩
  | sy x => obtain ⟨a, b, h1, h2, h3⟩ := h; exact ⟨a, b, h1, h2, he.trans h3⟩

/-- One step, while at most one thread is in a `Union`. -/
theorem Ser.step (h : Ser s rt κ B) (t : Nat) (hone : ∀ t₁ t₂, InUnion s t₁ → InUnion s t₂ → t₁ = t₂) :
    ∃ rt' κ' B', Ser (step s t) rt' κ' B' := by
  have hp := h.pc t
  have one : InUnion s t → ∀ t', InUnion s t' → t' = t := fun h t' h' => hone t' t h' h
  unfold CUF.step
  generalize s.pc t = p at hp ⊢
  cases p with
  | idle =>
    dsimp only
    split
    · exact ⟨rt, κ, B, h⟩
    · exact ⟨rt, κ, B, h.begin _ _ hp⟩
  | test k e =>
    dsimp only
    split
    · next he => exact ⟨rt, κ, B, h.found hp he⟩
    · next he => exact ⟨rt, κ, B, h.goto ⟨hp, he⟩⟩
  | next k e => exact ⟨rt, κ, B, h.goto ⟨hp.1, hp.2, h.forest.stp e⟩⟩
  | grand k e nx =>
    refine ⟨rt, κ, B, h.goto ⟨hp.1, hp.2.1, hp.2.2, (h.forest.stp nx).trans hp.2.2, ?_⟩⟩
    by_cases hn : s.parent nx = nx
    · exact Or.inl hn
    · exact Or.inr ⟨hn, h.forest.key nx hn⟩
  | halve k e nx p =>
    obtain ⟨h1, h2, h3, h4, h5⟩ := hp
    dsimp only
    split
    · next he =>
      refine ⟨rt, κ, B, (h.halve he h2 h4 h5).goto ⟨?_, h3⟩⟩
      refine h1.frame (fun _ _ h => h) fun _ x hx => ?_
      have : x ≠ e := by rintro rfl; exact h2 hx
      show update s.parent e p x = x
      rw [update_of_ne this]; exact hx
    · exact ⟨rt, κ, B, h.goto ⟨h1, h3⟩⟩
  | move k e nx => exact ⟨rt, κ, B, h.goto (hp.1.move ((h.forest.stp nx).trans hp.2))⟩
  | rankL l r => exact ⟨rt, κ, B, h.goto ⟨hp, rfl⟩⟩
  | rankR l r rl =>
    obtain ⟨⟨a, b, h1, h2, h3, h4, h5⟩, h6⟩ := hp
    refine ⟨rt, κ, B, h.goto (Or.inl ?_)⟩
    unfold ordered
    split
    · exact ⟨rfl, ⟨a, b, h1, h3, h2, Ne.symm h4, by tauto⟩, rfl⟩
    · exact ⟨rfl, ⟨a, b, h1, h2, h3, h4, h5⟩, h6⟩
  | chkP u =>
    dsimp only
    split
    · exact ⟨rt, κ, B, h.goto hp⟩
    · next hn =>
      rcases hp with ⟨_, ⟨a, b, _, h2, _⟩, _⟩ | ⟨h1, h2, h3⟩
      · exact absurd h2 hn
      · exact ⟨rt, κ, B, h.failed h1 h3⟩
  | chkR u =>
    dsimp only
    split
    · exact ⟨rt, κ, B, h.goto hp⟩
    · next hn =>
      rcases hp with ⟨_, _, h2⟩ | ⟨h1, h2, h3⟩
      · exact absurd h2 hn
      · exact ⟨rt, κ, B, h.failed h1 h3⟩
  | linkP u =>
    dsimp only
    rcases hp with ⟨h1, h2, h3⟩ | ⟨h1, h2, h3⟩
    · have hx : s.parent u.x = u.x := by obtain ⟨a, b, _, h4, _⟩ := h2; exact h4
      rw [if_pos hx]
      refine ⟨_, _, _, h.link h2 (one ?_) h1⟩
      obtain ⟨a, b, h4, _⟩ := h2
      exact ⟨a, b, h4⟩
    · split
      · next hx =>
        rw [← h2, set_self hx]
        exact ⟨rt, κ, B, h.goto ⟨h3, Or.inr ⟨h1, h2⟩⟩⟩
      · exact ⟨rt, κ, B, h.failed h1 h3⟩
  | readR u =>
    obtain ⟨h1, h2⟩ := hp
    refine ⟨rt, κ, B, h.goto ⟨h1, ?_⟩⟩
    rcases h2 with h2 | h2
    · exact Or.inl ⟨h2, rfl⟩
    · exact Or.inr h2
  | linkR u old =>
    obtain ⟨h1, h2⟩ := hp
    have hin : InUnion s t := by obtain ⟨a, b, h3, _⟩ := h1; exact ⟨a, b, h3⟩
    dsimp only
    split
    · have h' : Ser { s with rank := update s.rank u.x u.yr, pc := update s.pc t (.readR u) } rt κ B :=
        h.setRank (one hin) (update s.rank u.x u.yr) (.readR u) ⟨h1, by tauto⟩
      have e1 : ({ s with rank := update s.rank u.x u.yr } : St).updated t u =
          ({ s with rank := update s.rank u.x u.yr, pc := update s.pc t (.readR u) } : St).updated t u := by
        unfold St.updated St.goto St.ret
        simp only [update_idem]
      rw [e1]
      exact ⟨rt, κ, B, h'.updated h1⟩
    · next hne =>
      rcases h2 with ⟨_, h2⟩ | h2
      · exact absurd h2 hne
      · exact ⟨rt, κ, B, h.goto ⟨h1, h2⟩⟩
  | undo u =>
    obtain ⟨h1, h2, h3⟩ := hp
    dsimp only
    split
    · next hx =>
      rw [set_self (hx.trans h3.symm)]
      exact ⟨rt, κ, B, h.failed h2 h1⟩
    · exact ⟨rt, κ, B, h.failed h2 h1⟩
  | root x y =>
    obtain ⟨a, b, h1, h2, h3⟩ := hp
    dsimp only
    split
    · exact ⟨rt, κ, B, h.ret fun _ _ ho => by rw [h1] at ho; cases ho⟩
    · exact ⟨rt, κ, B, h.goto ⟨a, b, h1, h2, h3⟩⟩

/-- A run in which no two unions overlap. -/
theorem Ser.run (h : Ser s rt κ B) (sched : List Nat)
    (hone : ∀ k t₁ t₂, InUnion (run s (sched.take k)) t₁ → InUnion (run s (sched.take k)) t₂ → t₁ = t₂) :
    ∃ rt' κ' B', Ser (run s sched) rt' κ' B' := by
  induction sched generalizing s rt κ B with
  | nil => exact ⟨rt, κ, B, h⟩
  | cons t l ih =>
    obtain ⟨rt', κ', B', h'⟩ := h.step t (hone 0)
    exact ih h' fun k t₁ t₂ => hone (k + 1) t₁ t₂

end CUF
end VieCut
