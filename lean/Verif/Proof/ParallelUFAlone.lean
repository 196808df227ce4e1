import Verif.Proof.ParallelUF
import Mathlib.Data.Finset.Card
import Mathlib.Data.Finset.Range
import Mathlib.Data.Finset.Filter

/-! # The concurrent union-find: a thread that runs alone finishes its call -/

namespace VieCut
open Function Finset

namespace CUF

/-- `v` is reached from `x` by following pointers. -/
def Orb (par : Nat → Nat) (x v : Nat) : Prop := ∃ i, par^[i] x = v

theorem Orb.next {par : Nat → Nat} {x v : Nat} (h : Orb par x v) : Orb par x (par v) := by
  obtain ⟨i, rfl⟩ := h
  exact ⟨i + 1, iterate_succ_apply' _ _ _⟩

/-- Inner vertices on the way from `x`. -/
noncomputable def inn (par : Nat → Nat) (N x : Nat) : Finset Nat :=
  letI := Classical.decPred fun v => par v ≠ v ∧ Orb par x v
  (range N).filter fun v => par v ≠ v ∧ Orb par x v

theorem mem_inn {par : Nat → Nat} {N x v : Nat} : v ∈ inn par N x ↔ v < N ∧ par v ≠ v ∧ Orb par x v := by
  classical
  unfold inn
  simp only [mem_filter, mem_range]

/-- Path halving leaves fewer vertices, also on a cycle. -/
theorem inn_halve {par : Nat → Nat} {N e : Nat} (hN : ∀ x, N ≤ x → par x = x) (he : par e ≠ e) :
    (inn (update par e (par (par e))) N (par (par e))).card < (inn par N e).card := by
  set nx := par e with hnx
  set p := par nx with hp
  set par' := update par e p with hpar'
  have heN : e < N := by
    by_contra h
    exact he (hN e (by omega))
  have hsub : ∀ i, Orb par e (par'^[i] p) := by
    intro i
    induction i with
    | zero => exact ⟨2, rfl⟩
    | succ i ih =>
      rw [iterate_succ_apply']
      by_cases h : par'^[i] p = e
      · rw [h, hpar', update_self]; exact ⟨2, rfl⟩
      · rw [hpar', update_of_ne (by rw [← hpar']; exact h)]; rw [← hpar']; exact ih.next
  refine Finset.card_lt_card ⟨fun v hv => ?_, fun hall => ?_⟩
  · obtain ⟨h1, h2, i, h3⟩ := mem_inn.1 hv
    refine mem_inn.2 ⟨h1, ?_, h3 ▸ hsub i⟩
    by_cases hv' : v = e
    · rw [hv']; exact he
    · rwa [hpar', update_of_ne hv'] at h2
  · by_cases hc : Orb par p e
    · -- a cycle through `e`
      obtain ⟨i, hi⟩ := hc
      have hper : par^[i + 2] e = e := hi
      have hpn : p ≠ nx := by
        intro h
        have : ∀ j, par^[j] nx = nx := fun j => iterate_fixed (by rw [← hp]; exact h) j
        have h1 : e = nx := by rw [← hi, h]; exact this i
        exact he h1.symm
      have hinj : ∀ v, Orb par e v → par v = nx → v = e := by
        rintro v ⟨j, rfl⟩ hv
        have h1 : par^[i + 2] (par^[j] e) = par^[j] e := by
          rw [← iterate_add_apply, Nat.add_comm, iterate_add_apply, hper]
        have h2 : par^[i + 1] (par (par^[j] e)) = par^[i + 1] (par e) := by rw [hv]
        rw [← iterate_succ_apply, ← iterate_succ_apply, h1] at h2
        rw [h2]; exact hper
      have hno : ∀ j, par'^[j] p ≠ nx := by
        intro j
        induction j with
        | zero => exact hpn
        | succ j ih =>
          rw [iterate_succ_apply']
          by_cases h : par'^[j] p = e
          · rw [h, hpar', update_self]; exact hpn
          · intro h2
            rw [hpar', update_of_ne (by rw [← hpar']; exact h), ← hpar'] at h2
            exact h (hinj _ (hsub j) h2)
      have hmem : nx ∈ inn par N e := by
        refine mem_inn.2 ⟨?_, by rw [← hp]; exact hpn, ⟨1, rfl⟩⟩
        by_contra h
        exact hpn (hN nx (by omega))
      obtain ⟨-, -, j, hj⟩ := mem_inn.1 (hall hmem)
      exact hno j hj
    · have hmem : e ∈ inn par N e := mem_inn.2 ⟨heN, he, ⟨0, rfl⟩⟩
      obtain ⟨-, -, j, hj⟩ := mem_inn.1 (hall hmem)
      apply hc
      have hstay : ∀ j, (∃ i ≤ j, par^[i] p = e) ∨ par'^[j] p = par^[j] p := by
        intro j
        induction j with
        | zero => exact Or.inr rfl
        | succ j ih =>
          rcases ih with ⟨i, hi, h⟩ | h
          · exact Or.inl ⟨i, by omega, h⟩
          · by_cases h2 : par^[j] p = e
            · exact Or.inl ⟨j, by omega, h2⟩
            · right
              rw [iterate_succ_apply', iterate_succ_apply', h, hpar', update_of_ne h2]
      rcases hstay j with ⟨i, -, h⟩ | h
      · exact ⟨i, h⟩
      · exact ⟨j, by rw [← h]; exact hj⟩

theorem run_append (s : St) (l l' : List Nat) : run s (l ++ l') = run (run s l) l' := by
  unfold run; rw [List.foldl_append]

theorem run_cons (s : St) (t : Nat) (l : List Nat) : run s (t :: l) = run (step s t) l := rfl

variable {t : Nat}

/-- Thread `t` alone finishes its call. -/
def Done (s : St) (t : Nat) : Prop := ∃ m, (run s (List.replicate m t)).op t = none

theorem Done.step {s : St} (h : Done (step s t) t) : Done s t := by
  obtain ⟨m, h⟩ := h
  exact ⟨m + 1, by rw [List.replicate_succ, run_cons]; exact h⟩

theorem Done.ret (s : St) (r : Res) : Done (s.ret t r) t := ⟨0, by simp [run, St.ret]⟩

/-- `parent` differs from the identity at finitely many places only. -/
def Fin' (s : St) : Prop := ∃ N, ∀ x, N ≤ x → s.parent x = x

/-- A `Find` that runs alone reaches a root. -/
theorem find_alone {k : Cont} (N : Nat) : ∀ (c : Nat) (s : St) (e : Nat), (inn s.parent N e).card ≤ c → (∀ x, N ≤ x → s.parent x = x) →
    s.pc t = .test k e → ∃ m par' r, run s (List.replicate m t) = { s with parent := par', pc := update s.pc t (.test k r) } ∧
      par' r = r ∧ (∀ x, s.parent x = x → par' x = x) ∧ ∀ x, N ≤ x → par' x = x := by
  intro c
  induction c with
  | zero =>
    intro s e hc hN hpc
    by_cases he : s.parent e = e
    · exact ⟨0, s.parent, e, by show s = _; rw [← hpc, update_eq_self], he, fun _ h => h, hN⟩
    · have := inn_halve hN he
      omega
  | succ c ih =>
    intro s e hc hN hpc
    by_cases he : s.parent e = e
    · exact ⟨0, s.parent, e, by show s = _; rw [← hpc, update_eq_self], he, fun _ h => h, hN⟩
    · let s5 : St := { s with parent := update s.parent e (s.parent (s.parent e)),
                              pc := update s.pc t (.test k (s.parent (s.parent e))) }
      have hrun : run s (List.replicate 5 t) = s5 := by
        have hne : s.parent e ≠ e := he
        have e1 : step s t = s.goto t (.next k e) := by unfold step; rw [hpc]; simp only; rw [if_neg he]
        have e2 : step (s.goto t (.next k e)) t = s.goto t (.grand k e (s.parent e)) := by
          unfold step St.goto; simp only [update_self, update_idem]
        have e3 : step (s.goto t (.grand k e (s.parent e))) t = s.goto t (.halve k e (s.parent e) (s.parent (s.parent e))) := by
          unfold step St.goto; simp only [update_self, update_idem]
        have e4 : step (s.goto t (.halve k e (s.parent e) (s.parent (s.parent e)))) t =
            { s with parent := update s.parent e (s.parent (s.parent e)) }.goto t (.move k e (s.parent e)) := by
          unfold step St.goto; simp only [update_self, update_idem, if_true]
        have e5 : step ({ s with parent := update s.parent e (s.parent (s.parent e)) }.goto t (.move k e (s.parent e))) t = s5 := by
          unfold step St.goto; simp only [update_self, update_idem]
          rw [update_of_ne hne]
        show step (step (step (step (step s t) t) t) t) t = s5
        rw [e1, e2, e3, e4, e5]
      have hN5 : ∀ x, N ≤ x → s5.parent x = x := by
        intro x hx
        have : x ≠ e := by rintro rfl; exact he (hN _ hx)
        show update s.parent e (s.parent (s.parent e)) x = x
        rw [update_of_ne this]; exact hN x hx
      obtain ⟨m, par', r, h1, h2, h3, h4⟩ := ih s5 (s.parent (s.parent e)) (by have := inn_halve hN he; show (inn (update s.parent e (s.parent (s.parent e))) N (s.parent (s.parent e))).card ≤ c; omega) hN5
        (by show update _ _ _ t = _; rw [update_self])
      refine ⟨5 + m, par', r, ?_, h2, fun x hx => h3 x ?_, h4⟩
      · rw [List.replicate_add, run_append, hrun, h1]
        show ({ s with parent := par', pc := update (update s.pc t _) t _ } : St) = _
        rw [update_idem]
      · have : x ≠ e := by rintro rfl; exact he hx
        show update s.parent e (s.parent (s.parent e)) x = x
        rw [update_of_ne this]; exact hx

/-- The state after the last test of a `Find`. -/
theorem find_done {s : St} {k : Cont} {e : Nat} (hf : Fin' s) (hpc : s.pc t = .test k e)
    (h : ∀ (s' : St) (r : Nat), Fin' s' → s'.parent r = r → (∀ x, s.parent x = x → s'.parent x = x) → s'.op = s.op →
      Done (s'.found t r k) t) : Done s t := by
  obtain ⟨N, hN⟩ := hf
  obtain ⟨m, par', r, h1, h2, h3, h4⟩ := find_alone N _ s e (Nat.le_refl _) hN hpc
  have := h { s with parent := par', pc := update s.pc t (.test k r) } r ⟨N, h4⟩ h2 h3 rfl
  have e1 : step ({ s with parent := par', pc := update s.pc t (.test k r) } : St) t =
      ({ s with parent := par', pc := update s.pc t (.test k r) } : St).found t r k := by
    unfold step; simp only [update_self]; rw [if_pos h2]
  rw [← e1] at this
  obtain ⟨m', h'⟩ := this.step
  exact ⟨m + m', by rw [List.replicate_add, run_append, h1]; exact h'⟩

theorem step_goto (s : St) (p : PC) : (s.goto t p).pc t = p := update_self ..

/-- The second `UpdateRoot` of a `Union`. -/
theorem second_done (s : St) (u : Upd) (hu : u.first = false) :
    Done (s.goto t (.chkP u)) t ∧ Done (s.goto t (.chkR u)) t ∧ Done (s.goto t (.linkP u)) t ∧ Done (s.goto t (.readR u)) t ∧
    (∀ old, Done (s.goto t (.linkR u old)) t) ∧ Done (s.goto t (.undo u)) t := by
  have hfail : ∀ s : St, Done (s.failed t u) t := fun s => by
    unfold St.failed; rw [hu]; exact Done.ret _ _
  have hupd : ∀ s : St, Done (s.updated t u) t := fun s => by
    unfold St.updated; rw [hu]; exact Done.ret _ _
  have h6 : ∀ s : St, Done (s.goto t (.undo u)) t := fun s => by
    refine Done.step ?_
    unfold step; rw [step_goto]; dsimp only
    split
    · exact hfail _
    · exact hfail _
  have h5 : ∀ (s : St) old, Done (s.goto t (.linkR u old)) t := fun s old => by
    refine Done.step ?_
    unfold step; rw [step_goto]; dsimp only
    split
    · exact hupd _
    · have := h6 s
      unfold St.goto at this ⊢
      dsimp only
      rwa [update_idem]
  have gg : ∀ (s : St) p q, (s.goto t p).goto t q = s.goto t q := fun s p q => by
    unfold St.goto; simp only [update_idem]
  have h4 : ∀ s : St, Done (s.goto t (.readR u)) t := fun s => by
    refine Done.step ?_
    unfold step; rw [step_goto]; dsimp only
    rw [gg]; exact h5 s _
  have h3 : ∀ s : St, Done (s.goto t (.linkP u)) t := fun s => by
    refine Done.step ?_
    unfold step; rw [step_goto]; dsimp only
    split
    · exact h4 _
    · exact hfail _
  have h2 : ∀ s : St, Done (s.goto t (.chkR u)) t := fun s => by
    refine Done.step ?_
    unfold step; rw [step_goto]; dsimp only
    split
    · rw [gg]; exact h3 s
    · exact hfail _
  have h1 : ∀ s : St, Done (s.goto t (.chkP u)) t := fun s => by
    refine Done.step ?_
    unfold step; rw [step_goto]; dsimp only
    split
    · rw [gg]; exact h2 s
    · exact hfail _
  exact ⟨h1 s, h2 s, h3 s, h4 s, h5 s, h6 s⟩

theorem goto_goto (s : St) (p q : PC) : (s.goto t p).goto t q = s.goto t q := by
  unfold St.goto; simp only [update_idem]

/-- Two different roots are linked. -/
theorem rankL_done (s : St) {l r : Nat} (hl : s.parent l = l) (hr : s.parent r = r) : Done (s.goto t (.rankL l r)) t := by
  refine Done.step ?_
  unfold step; rw [step_goto]; dsimp only
  rw [goto_goto]
  refine Done.step ?_
  unfold step; rw [step_goto]; dsimp only
  rw [goto_goto]
  show Done (s.goto t (.chkP (ordered l r (s.rank l) (s.rank r)))) t
  obtain ⟨h1, h2, h3⟩ : (ordered l r (s.rank l) (s.rank r)).first = true ∧
      s.parent (ordered l r (s.rank l) (s.rank r)).x = (ordered l r (s.rank l) (s.rank r)).x ∧
      s.rank (ordered l r (s.rank l) (s.rank r)).x = (ordered l r (s.rank l) (s.rank r)).xr := by
    unfold ordered; split <;> simp [hl, hr]
  generalize ordered l r (s.rank l) (s.rank r) = u at *
  refine Done.step ?_
  unfold step; rw [step_goto]; dsimp only
  rw [if_pos (show (s.goto t (.chkP u)).parent u.x = u.x from h2), goto_goto]
  refine Done.step ?_
  unfold step; rw [step_goto]; dsimp only
  rw [if_pos (show (s.goto t (.chkR u)).rank u.x = u.xr from h3), goto_goto]
  refine Done.step ?_
  unfold step; rw [step_goto]; dsimp only
  rw [if_pos (show (s.goto t (.linkP u)).parent u.x = u.x from h2)]
  refine Done.step ?_
  unfold step; rw [step_goto]; dsimp only
  rw [goto_goto]
  refine Done.step ?_
  unfold step; rw [step_goto]; dsimp only
  have hupd : ∀ s : St, Done (s.updated t u) t := fun s => by
    unfold St.updated
    split
    · exact (second_done _ _ rfl).1
    · exact Done.ret _ _
  split
  · exact hupd _
  · next h => exact absurd rfl h

theorem Fin'.goto {s : St} (h : Fin' s) (p : PC) : Fin' (s.goto t p) := h

theorem rhs_done {s : St} (hf : Fin' s) {l e : Nat} (hl : s.parent l = l) (hpc : s.pc t = .test (.rhs l) e) : Done s t := by
  refine find_done hf hpc fun s' r _ h2 h3 _ => ?_
  show Done (if l = r then _ else _) t
  split
  · exact Done.ret _ _
  · exact rankL_done s' (h3 l hl) h2

theorem lhs_done {s : St} (hf : Fin' s) {b e : Nat} (hpc : s.pc t = .test (.lhs b) e) : Done s t := by
  refine find_done hf hpc fun s' r h1 h2 h3 _ => ?_
  exact rhs_done (s := s'.goto t (.test (.rhs r) b)) h1 h2 (step_goto _ _)

theorem failed_done {s : St} (hf : Fin' s) (u : Upd) : Done (s.failed t u) t := by
  unfold St.failed
  split
  · exact lhs_done (s := s.goto t _) hf (step_goto _ _)
  · exact Done.ret _ _

theorem Fin'.set {s : St} (h : Fin' s) (x y : Nat) : Fin' { s with parent := update s.parent x y } := by
  obtain ⟨N, hN⟩ := h
  refine ⟨max N (x + 1), fun z hz => ?_⟩
  show update s.parent x y z = z
  rw [update_of_ne (by omega)]
  exact hN z (by omega)

/-- Any `UpdateRoot`. -/
theorem upd_done {s : St} (hf : Fin' s) (u : Upd) :
    Done (s.goto t (.chkP u)) t ∧ Done (s.goto t (.chkR u)) t ∧ Done (s.goto t (.linkP u)) t ∧ Done (s.goto t (.readR u)) t ∧
    (∀ old, Done (s.goto t (.linkR u old)) t) ∧ Done (s.goto t (.undo u)) t := by
  have hupd : ∀ s : St, Done (s.updated t u) t := fun s => by
    unfold St.updated
    split
    · exact (second_done _ _ rfl).1
    · exact Done.ret _ _
  have h6 : ∀ s : St, Fin' s → Done (s.goto t (.undo u)) t := fun s hf => by
    refine Done.step ?_
    unfold step; rw [step_goto]; dsimp only
    split
    · exact failed_done (Fin'.set (s := s.goto t (.undo u)) hf _ _) u
    · exact failed_done (hf.goto _) u
  have h5 : ∀ (s : St) (_ : Fin' s) old, Done (s.goto t (.linkR u old)) t := fun s hf old => by
    refine Done.step ?_
    unfold step; rw [step_goto]; dsimp only
    split
    · exact hupd _
    · rw [goto_goto]; exact h6 s hf
  have h4 : ∀ s : St, Fin' s → Done (s.goto t (.readR u)) t := fun s hf => by
    refine Done.step ?_
    unfold step; rw [step_goto]; dsimp only
    rw [goto_goto]; exact h5 s hf _
  have h3 : ∀ s : St, Fin' s → Done (s.goto t (.linkP u)) t := fun s hf => by
    refine Done.step ?_
    unfold step; rw [step_goto]; dsimp only
    split
    · exact h4 _ (Fin'.set (s := s.goto t (.linkP u)) hf _ _)
    · exact failed_done (hf.goto _) u
  have h2 : ∀ s : St, Fin' s → Done (s.goto t (.chkR u)) t := fun s hf => by
    refine Done.step ?_
    unfold step; rw [step_goto]; dsimp only
    split
    · rw [goto_goto]; exact h3 s hf
    · exact failed_done (hf.goto _) u
  have h1 : ∀ s : St, Fin' s → Done (s.goto t (.chkP u)) t := fun s hf => by
    refine Done.step ?_
    unfold step; rw [step_goto]; dsimp only
    split
    · rw [goto_goto]; exact h2 s hf
    · exact failed_done (hf.goto _) u
  exact ⟨h1 s hf, h2 s hf, h3 s hf, h4 s hf, h5 s hf, h6 s hf⟩

theorem rankR_done {s : St} (hf : Fin' s) (l r rl : Nat) : Done (s.goto t (.rankR l r rl)) t := by
  refine Done.step ?_
  unfold step; rw [step_goto]; dsimp only
  rw [goto_goto]
  exact (upd_done hf _).1

theorem rankL_done' {s : St} (hf : Fin' s) (l r : Nat) : Done (s.goto t (.rankL l r)) t := by
  refine Done.step ?_
  unfold step; rw [step_goto]; dsimp only
  rw [goto_goto]
  exact rankR_done hf _ _ _

theorem root_done {s : St} {x y : Nat} (hx : s.parent x = x) : Done (s.goto t (.root x y)) t := by
  refine Done.step ?_
  unfold step; rw [step_goto]; dsimp only
  rw [if_pos (show (s.goto t (.root x y)).parent x = x from hx)]
  exact Done.ret _ _

theorem sy_done {s : St} (hf : Fin' s) {x e : Nat} (hx : s.parent x = x) (hpc : s.pc t = .test (.sy x) e) : Done s t := by
  refine find_done hf hpc fun s' r _ h2 h3 _ => ?_
  show Done (if x = r then _ else _) t
  split
  · exact Done.ret _ _
  · exact root_done (h3 x hx)

theorem sx_done {s : St} (hf : Fin' s) {y e : Nat} (hpc : s.pc t = .test (.sx y) e) : Done s t := by
  refine find_done hf hpc fun s' r h1 h2 h3 _ => ?_
  exact sy_done (s := s'.goto t _) h1 h2 (step_goto _ _)

theorem root_done' {s : St} (hf : Fin' s) (x y : Nat) : Done (s.goto t (.root x y)) t := by
  refine Done.step ?_
  unfold step; rw [step_goto]; dsimp only
  split
  · exact Done.ret _ _
  · rw [goto_goto]; exact sx_done (s := s.goto t _) hf (step_goto _ _)

theorem test_done {s : St} (hf : Fin' s) (k : Cont) (e : Nat) : Done (s.goto t (.test k e)) t := by
  refine find_done (s := s.goto t _) hf (step_goto _ _) fun s' r h1 h2 h3 _ => ?_
  cases k with
  | ret => exact Done.ret _ _
  | lhs b => exact rhs_done (s := s'.goto t _) h1 h2 (step_goto _ _)
  | rhs l =>
    show Done (if l = r then _ else _) t
    split
    · exact Done.ret _ _
    · exact rankL_done' h1 _ _
  | sx y => exact sy_done (s := s'.goto t _) h1 h2 (step_goto _ _)
  | sy x =>
    show Done (if x = r then _ else _) t
    split
    · exact Done.ret _ _
    · exact root_done' h1 _ _

/-- A thread that runs alone finishes its call. -/
theorem alone_done {s : St} (hf : Fin' s) (hp : s.pc t ≠ .idle) : Done s t := by
  have hs : s = s.goto t (s.pc t) := by unfold St.goto; rw [update_eq_self]
  rw [hs]
  have h5 : ∀ (s : St) (_ : Fin' s) k e nx, Done (s.goto t (.move k e nx)) t := fun s hf k e nx => by
    refine Done.step ?_
    unfold step; rw [step_goto]; dsimp only
    rw [goto_goto]; exact test_done hf _ _
  have h4 : ∀ (s : St) (_ : Fin' s) k e nx p, Done (s.goto t (.halve k e nx p)) t := fun s hf k e nx p => by
    refine Done.step ?_
    unfold step; rw [step_goto]; dsimp only
    split
    · exact h5 _ (Fin'.set (s := s.goto t _) hf _ _) _ _ _
    · rw [goto_goto]; exact h5 _ hf _ _ _
  have h3 : ∀ (s : St) (_ : Fin' s) k e nx, Done (s.goto t (.grand k e nx)) t := fun s hf k e nx => by
    refine Done.step ?_
    unfold step; rw [step_goto]; dsimp only
    rw [goto_goto]; exact h4 _ hf _ _ _ _
  cases h : s.pc t with
  | idle => exact absurd h hp
  | test k e => exact test_done hf _ _
  | next k e =>
    refine Done.step ?_
    unfold step; rw [step_goto]; dsimp only
    rw [goto_goto]; exact h3 _ hf _ _ _
  | grand k e nx => exact h3 _ hf _ _ _
  | halve k e nx p => exact h4 _ hf _ _ _ _
  | move k e nx => exact h5 _ hf _ _ _
  | rankL l r => exact rankL_done' hf _ _
  | rankR l r rl => exact rankR_done hf _ _ _
  | chkP u => exact (upd_done hf u).1
  | chkR u => exact (upd_done hf u).2.1
  | linkP u => exact (upd_done hf u).2.2.1
  | readR u => exact (upd_done hf u).2.2.2.1
  | linkR u old => exact (upd_done hf u).2.2.2.2.1 old
  | undo u => exact (upd_done hf u).2.2.2.2.2
  | root x y => exact root_done' hf _ _

theorem ret_parent (s : St) (r : Res) : (s.ret t r).parent = s.parent := rfl

theorem found_parent (s : St) (e : Nat) (k : Cont) : (s.found t e k).parent = s.parent := by
  cases k with
  | ret => rfl
  | lhs b => rfl
  | rhs l => show (if l = e then _ else _ : St).parent = _; split <;> rfl
  | sx y => rfl
  | sy x => show (if x = e then _ else _ : St).parent = _; split <;> rfl

theorem failed_parent (s : St) (u : Upd) : (s.failed t u).parent = s.parent := by
  unfold St.failed; split <;> rfl

theorem updated_parent (s : St) (u : Upd) : (s.updated t u).parent = s.parent := by
  unfold St.updated; split <;> rfl

theorem begin_parent (s : St) (o : Op) (rest : List Op) : (s.begin t o rest).parent = s.parent := by
  cases o <;> rfl

theorem Fin'.step {s : St} (h : Fin' s) (t : Nat) : Fin' (step s t) := by
  have key : ∀ s' : St, (s'.parent = s.parent ∨ ∃ x y, s'.parent = update s.parent x y) → Fin' s' := by
    rintro s' (h' | ⟨x, y, h'⟩)
    · obtain ⟨N, hN⟩ := h; exact ⟨N, by rw [h']; exact hN⟩
    · obtain ⟨N, hN⟩ := Fin'.set h x y; exact ⟨N, by rw [h']; exact hN⟩
  refine key _ ?_
  unfold CUF.step
  cases s.pc t <;> dsimp only <;> (try split) <;>
    first
    | exact Or.inl rfl
    | exact Or.inl (found_parent ..)
    | exact Or.inl (failed_parent ..)
    | exact Or.inl (updated_parent ..)
    | exact Or.inl (begin_parent ..)
    | exact Or.inr ⟨_, _, rfl⟩
    | exact Or.inr ⟨_, _, failed_parent ..⟩

theorem Fin'.run {s : St} (h : Fin' s) (sched : List Nat) : Fin' (run s sched) := by
  induction sched generalizing s with
  | nil => exact h
  | cons t l ih => exact ih (h.step t)

end CUF
end VieCut
