import Verif.Proof.BalancedCycle

/-! # The depth-first search of the most balanced minimum cut -/

namespace VieCut
namespace Balanced
open Finset MGraph Function

/-- The state of the search: `π` is the stack and `D x` the set found from a finished vertex `x`. -/
structure Inv (E : Env) (s : St) (π : List Nat) (D : Nat → Finset Nat) : Prop where
  act : ∀ v, v ∈ π ↔ s.status v = .active ∨ s.status v = .cycle
  lt : ∀ v, s.status v ≠ .undiscovered → v < E.C.n
  root : ∀ v, s.status v ≠ .undiscovered → s.status E.start ≠ .undiscovered
  closed : ∀ x y, s.status x = .finished → E.C.Adj x y → s.status y ≠ .undiscovered
  self : ∀ x, s.status x = .finished → x ∈ D x
  sub : ∀ x, s.status x = .finished → ∀ y ∈ D x, s.status y = .finished
  trans : ∀ x, s.status x = .finished → ∀ y ∈ D x, D y ⊆ D x
  up : ∀ x, s.status x = .finished → ∀ y ∈ D x, y ≠ x → s.parent y ∈ D x
  par : ∀ x, s.status x = .finished → x ≠ E.start →
    (s.status (s.parent x) = .finished ∧ D x ⊆ D (s.parent x) ∧ s.parent x ∉ D x) ∨ s.parent x ∈ π
  padj : ∀ x, s.status x = .finished → x ≠ E.start → E.C.Adj x (s.parent x)
  edge : ∀ x y, s.status x = .finished → E.C.Adj x y → y ∈ π ∨ (s.status y = .finished ∧ (y ∈ D x ∨ x ∈ D y))
  wt : ∀ x, s.status x = .finished → s.sub x = ∑ q ∈ D x, E.vw q
  back : ∀ x y, s.status x = .finished → y ∈ π → E.C.Adj x y → s.parent x = y ∨ x ∈ s.out y
  outFin : ∀ a, s.status a = .finished → ∀ t, t ∈ s.out a ↔ E.C.Adj t a ∧ t ∈ D a ∧ t ≠ a ∧ s.parent t ≠ a
  outPi : ∀ y, y ∈ π → ∀ t ∈ s.out y, s.status t ≠ .undiscovered ∧ E.C.Adj t y ∧ s.parent t ≠ y
  outCyc : ∀ y, y ∈ π → s.out y ≠ [] → s.status y = .cycle
  outU : ∀ v, s.status v = .undiscovered → s.out v = []

/-- The search from `n` took the state `s` to `s'`. -/
structure Post (E : Env) (n : Nat) (π : List Nat) (s : St) (D : Nat → Finset Nat) (s' : St) (D' : Nat → Finset Nat) : Prop where
  inv : Inv E s' π D'
  self : n ∈ D' n
  new : ∀ y ∈ D' n, s.status y = .undiscovered
  fin : ∀ v, s'.status v = .finished ↔ s.status v = .finished ∨ v ∈ D' n
  dis : ∀ v, s'.status v = .undiscovered ↔ s.status v = .undiscovered ∧ v ∉ D' n
  par : ∀ v, s.status v ≠ .undiscovered ∨ v = n → s'.parent v = s.parent v
  old : ∀ v, s.status v = .finished → s'.sub v = s.sub v ∧ s'.out v = s.out v ∧ D' v = D v
  outs : ∀ a ∈ π, ∀ t ∈ s'.out a, t ∈ s.out a ∨ t ∈ D' n
  mono : ∀ a ∈ π, ∀ t ∈ s.out a, t ∈ s'.out a

/-- The search is in the loop over the edges of `n`; `N` was found so far. -/
structure Scan (E : Env) (n : Nat) (π : List Nat) (s0 : St) (D0 : Nat → Finset Nat) (s : St) (D : Nat → Finset Nat) (N : Finset Nat)
    (cw : Nat) : Prop where
  inv : Inv E s (n :: π) D
  new : ∀ y ∈ N, s0.status y = .undiscovered ∧ y ≠ n
  fin : ∀ v, s.status v = .finished ↔ s0.status v = .finished ∨ v ∈ N
  dis : ∀ v, s.status v = .undiscovered ↔ s0.status v = .undiscovered ∧ v ≠ n ∧ v ∉ N
  par : ∀ v, s0.status v ≠ .undiscovered ∨ v = n → s.parent v = s0.parent v
  old : ∀ v, s0.status v = .finished → s.sub v = s0.sub v ∧ s.out v = s0.out v ∧ D v = D0 v
  sub : ∀ y ∈ N, D y ⊆ N ∧ (s.parent y = n ∨ s.parent y ∈ N)
  outs : ∀ a ∈ n :: π, ∀ t ∈ s.out a, t ∈ s0.out a ∨ t ∈ N ∨ t = n
  mono : ∀ a ∈ π, ∀ t ∈ s0.out a, t ∈ s.out a
  cw : cw = ∑ q ∈ N, E.vw q

/-- `n` may be visited. -/
structure Pre (E : Env) (n : Nat) (π : List Nat) (s : St) : Prop where
  lt : n < E.C.n
  und : s.status n = .undiscovered
  par : n ≠ E.start → s.parent n ∈ π ∧ E.C.Adj n (s.parent n)

variable {E : Env} {c : Nat}

theorem upd_same {α : Type} (f : Nat → α) (i : Nat) (a : α) : update f i a i = a := by simp [update]

theorem upd_ne {α : Type} (f : Nat → α) {i j : Nat} (a : α) (h : j ≠ i) : update f i a j = f j := by simp [update, h]

theorem Inv.begin {s : St} {π : List Nat} {D : Nat → Finset Nat} {n : Nat} (h : Inv E s π D) (hp : Pre E n π s) :
    Scan E n π s D { s with status := update s.status n .active } D ∅ 0 := by
  have hne : ∀ v, s.status v ≠ .undiscovered → v ≠ n := fun v hv he => hv (he ▸ hp.und)
  have hf : ∀ v, update s.status n .active v = .finished ↔ s.status v = .finished := by
    intro v
    by_cases he : v = n
    · subst he; rw [upd_same, hp.und]; simp
    · rw [upd_ne _ _ he]
  have hd : ∀ v, update s.status n .active v ≠ .undiscovered ↔ s.status v ≠ .undiscovered ∨ v = n := by
    intro v
    by_cases he : v = n
    · subst he; rw [upd_same]; simp
    · rw [upd_ne _ _ he]; simp [he]
  have hnπ : n ∉ π := by
    intro hn
    rcases (h.act n).1 hn with h1 | h1 <;> rw [hp.und] at h1 <;> simp at h1
  have hout : s.out n = [] := h.outU n hp.und
  refine ⟨⟨?_, ?_, ?_, ?_, ?_, ?_, ?_, ?_, ?_, ?_, ?_, ?_, ?_, ?_, ?_, ?_, ?_⟩, by simp, by simp [hf], ?_, fun _ _ => rfl,
    fun _ _ => ⟨rfl, rfl, rfl⟩, by simp, fun a _ t ht => Or.inl ht, fun a _ t ht => ht, by simp⟩
  · intro v
    by_cases he : v = n
    · subst he; dsimp only; rw [upd_same]; simp
    · dsimp only
      rw [upd_ne _ _ he, List.mem_cons, ← h.act v]
      simp [he]
  · intro v hv
    rcases (hd v).1 hv with h1 | h1
    · exact h.lt v h1
    · rw [h1]; exact hp.lt
  · intro v hv
    dsimp only
    rw [hd]
    rcases (hd v).1 hv with h1 | h1
    · exact Or.inl (h.root v h1)
    · by_cases he : E.start = n
      · exact Or.inr he
      · left
        have := (hp.par (Ne.symm he)).1
        refine h.root (s.parent n) (fun hu => ?_)
        rcases (h.act _).1 this with h2 | h2 <;> rw [hu] at h2 <;> simp at h2
  · intro x y hx hxy
    dsimp only at hx ⊢
    rw [hf] at hx
    rw [hd]
    exact Or.inl (h.closed x y hx hxy)
  · intro x hx; exact h.self x ((hf x).1 hx)
  · intro x hx y hy; exact (hf y).2 (h.sub x ((hf x).1 hx) y hy)
  · intro x hx; exact h.trans x ((hf x).1 hx)
  · intro x hx; exact h.up x ((hf x).1 hx)
  · intro x hx hs
    rcases h.par x ((hf x).1 hx) hs with h1 | h1
    · exact Or.inl ⟨(hf _).2 h1.1, h1.2⟩
    · exact Or.inr (List.mem_cons_of_mem _ h1)
  · intro x hx; exact h.padj x ((hf x).1 hx)
  · intro x y hx hxy
    rcases h.edge x y ((hf x).1 hx) hxy with h1 | h1
    · exact Or.inl (List.mem_cons_of_mem _ h1)
    · exact Or.inr ⟨(hf y).2 h1.1, h1.2⟩
  · intro x hx; exact h.wt x ((hf x).1 hx)
  · intro x y hx hy hxy
    rcases List.mem_cons.1 hy with h1 | h1
    · subst h1
      exact absurd hp.und (h.closed x y ((hf x).1 hx) hxy)
    · exact h.back x y ((hf x).1 hx) h1 hxy
  · intro a ha; exact h.outFin a ((hf a).1 ha)
  · intro y hy t ht
    rcases List.mem_cons.1 hy with h1 | h1
    · subst h1
      dsimp only at ht
      rw [hout] at ht
      simp at ht
    · obtain ⟨i1, i2⟩ := h.outPi y h1 t ht
      exact ⟨(hd t).2 (Or.inl i1), i2⟩
  · intro y hy ho
    rcases List.mem_cons.1 hy with h1 | h1
    · subst h1
      exact absurd hout ho
    · dsimp only
      rw [upd_ne _ _ (by rintro rfl; exact hnπ h1)]
      exact h.outCyc y h1 ho
  · intro v hv
    refine h.outU v ?_
    by_contra hn
    exact (hd v).2 (Or.inl hn) hv
  · intro v
    have := hd v
    simp only [Finset.notMem_empty, not_false_eq_true, and_true]
    constructor
    · intro hv
      constructor
      · by_contra hn; exact this.2 (Or.inl hn) hv
      · intro hn; exact this.2 (Or.inr hn) hv
    · rintro ⟨h1, h2⟩
      by_contra hn
      rcases this.1 hn with h3 | h3
      · exact h3 h1
      · exact h2 h3

/-- Everything is scanned: the vertex is finished. -/
theorem Scan.done (hF : Facts E.C c) {s0 s : St} {π : List Nat} {D0 D : Nat → Finset Nat} {n cw : Nat} {N : Finset Nat} (h0 : Inv E s0 π D0)
    (hp : Pre E n π s0) (h : Scan E n π s0 D0 s D N cw)
    (hdone : ∀ y, E.C.Adj n y → s.status y ≠ .undiscovered ∧ (y ∈ π → s.parent n = y ∨ n ∈ s.out y)) :
    Post E n π s0 D0 (finish n (cw + E.vw n) s) (update D n (insert n N)) := by
  have hN := h.new
  have hnN : n ∉ N := fun hn => (hN n hn).2 rfl
  have hnact : s.status n = .active ∨ s.status n = .cycle := (h.inv.act n).1 List.mem_cons_self
  have hnf : s.status n ≠ .finished := by rcases hnact with h1 | h1 <;> rw [h1] <;> simp
  have hnπ : n ∉ π := by
    intro hn
    rcases (h0.act n).1 hn with h1 | h1 <;> rw [hp.und] at h1 <;> simp at h1
  have hst : (finish n (cw + E.vw n) s).status = update s.status n .finished := rfl
  have hpar : (finish n (cw + E.vw n) s).parent = s.parent := rfl
  have hou : (finish n (cw + E.vw n) s).out = s.out := rfl
  have hsub : (finish n (cw + E.vw n) s).sub = update s.sub n (cw + E.vw n) := rfl
  have hf : ∀ v, (finish n (cw + E.vw n) s).status v = .finished ↔ s.status v = .finished ∨ v = n := by
    intro v
    rw [hst]
    by_cases he : v = n
    · subst he; rw [upd_same]; simp
    · rw [upd_ne _ _ he]; simp [he]
  have hd : ∀ v, (finish n (cw + E.vw n) s).status v = .undiscovered ↔ s.status v = .undiscovered := by
    intro v
    rw [hst]
    by_cases he : v = n
    · subst he; rw [upd_same]
      rcases hnact with h1 | h1 <;> rw [h1] <;> simp
    · rw [upd_ne _ _ he]
  have hDn : update D n (insert n N) n = insert n N := upd_same _ _ _
  have hD : ∀ v, v ≠ n → update D n (insert n N) v = D v := fun v hv => upd_ne _ _ hv
  -- old finished vertices are not adjacent to `n`
  have hold : ∀ x, s.status x = .finished → E.C.Adj x n → x ∈ N := by
    intro x hx hxn
    rcases (h.fin x).1 hx with h1 | h1
    · exact absurd hp.und (h0.closed x n h1 hxn)
    · exact h1
  have hNfin : ∀ x ∈ N, s.status x = .finished := fun x hx => (h.fin x).2 (Or.inr hx)
  have hlt : ∀ x, s.status x = .finished → x < E.C.n := fun x hx => h.inv.lt x (by rw [hx]; simp)
  have hnlt : n < E.C.n := hp.lt
  have hparn : s.parent n = s0.parent n := h.par n (Or.inr rfl)
  refine ⟨⟨?_, ?_, ?_, ?_, ?_, ?_, ?_, ?_, ?_, ?_, ?_, ?_, ?_, ?_, ?_, ?_, ?_⟩, by rw [hDn]; exact Finset.mem_insert_self _ _, ?_, ?_, ?_, ?_, ?_, ?_, ?_⟩
  · intro v
    rw [hst]
    by_cases he : v = n
    · subst he; rw [upd_same]; simp [hnπ]
    · rw [upd_ne _ _ he, ← h.inv.act v, List.mem_cons]
      simp [he]
  · intro v hv
    exact h.inv.lt v (fun hu => hv ((hd v).2 hu))
  · intro v hv hu
    exact h.inv.root v (fun hu => hv ((hd v).2 hu)) ((hd _).1 hu)
  · intro x y hx hxy hu
    rw [hd] at hu
    rcases (hf x).1 hx with h1 | h1
    · exact h.inv.closed x y h1 hxy hu
    · subst h1; exact (hdone y hxy).1 hu
  · intro x hx
    rcases (hf x).1 hx with h1 | h1
    · rw [hD x (by rintro rfl; exact hnf h1)]; exact h.inv.self x h1
    · subst h1; rw [hDn]; exact Finset.mem_insert_self _ _
  · intro x hx y hy
    rw [hf]
    rcases (hf x).1 hx with h1 | h1
    · rw [hD x (by rintro rfl; exact hnf h1)] at hy
      exact Or.inl (h.inv.sub x h1 y hy)
    · subst h1; rw [hDn, Finset.mem_insert] at hy
      rcases hy with hy | hy
      · exact Or.inr hy
      · exact Or.inl (hNfin y hy)
  · intro x hx y hy
    rcases (hf x).1 hx with h1 | h1
    · rw [hD x (by rintro rfl; exact hnf h1)] at hy ⊢
      rw [hD y (by rintro rfl; exact hnf (h.inv.sub x h1 y hy))]
      exact h.inv.trans x h1 y hy
    · subst h1; rw [hDn, Finset.mem_insert] at hy
      rcases hy with hy | hy
      · rw [hy]
      · rw [hDn, hD y (by rintro rfl; exact hnN hy)]
        exact (h.sub y hy).1.trans (Finset.subset_insert _ _)
  · intro x hx y hy hne
    rw [hpar]
    rcases (hf x).1 hx with h1 | h1
    · rw [hD x (by rintro rfl; exact hnf h1)] at hy ⊢
      exact h.inv.up x h1 y hy hne
    · subst h1; rw [hDn, Finset.mem_insert] at hy
      rw [hDn, Finset.mem_insert]
      rcases hy with hy | hy
      · exact absurd hy hne
      · exact (h.sub y hy).2
  · intro x hx hs
    rw [hpar]
    rcases (hf x).1 hx with h1 | h1
    · have hxn : x ≠ n := by rintro rfl; exact hnf h1
      rcases h.inv.par x h1 hs with h2 | h2
      · have hpn : s.parent x ≠ n := by intro he; rw [he] at h2; exact hnf h2.1
        left
        rw [hD x hxn, hD _ hpn]
        exact ⟨(hf _).2 (Or.inl h2.1), h2.2⟩
      · rcases List.mem_cons.1 h2 with h3 | h3
        · left
          have hxN := hold x h1 (h3 ▸ h.inv.padj x h1 hs)
          rw [h3, hDn, hD x hxn]
          refine ⟨(hf n).2 (Or.inr rfl), (h.sub x hxN).1.trans (Finset.subset_insert _ _), fun hn => ?_⟩
          exact hnf (h.inv.sub x h1 n hn)
        · exact Or.inr h3
    · subst h1; rw [hparn]; exact Or.inr (hp.par hs).1
  · intro x hx hs
    rw [hpar]
    rcases (hf x).1 hx with h1 | h1
    · exact h.inv.padj x h1 hs
    · subst h1; rw [hparn]; exact (hp.par hs).2
  · intro x y hx hxy
    rw [hf]
    rcases (hf x).1 hx with h1 | h1
    · have hxn : x ≠ n := by rintro rfl; exact hnf h1
      rcases h.inv.edge x y h1 hxy with h2 | ⟨h2, h3⟩
      · rcases List.mem_cons.1 h2 with h4 | h4
        · subst h4
          right
          rw [hDn]
          exact ⟨Or.inr rfl, Or.inr (Finset.mem_insert_of_mem (hold x h1 hxy))⟩
        · exact Or.inl h4
      · right
        rw [hD x hxn, hD y (by rintro rfl; exact hnf h2)]
        exact ⟨Or.inl h2, h3⟩
    · subst h1
      have hy := (hdone y hxy).1
      by_cases hyf : s.status y = .finished
      · right
        rw [hDn]
        exact ⟨Or.inl hyf, Or.inl (Finset.mem_insert_of_mem (hold y hyf (adj_symm hF.cons hnlt hxy)))⟩
      · left
        have : y ∈ x :: π := by
          rw [h.inv.act]
          cases hs : s.status y with
          | undiscovered => exact absurd hs hy
          | active => exact Or.inl rfl
          | cycle => exact Or.inr rfl
          | finished => exact absurd hs hyf
        rcases List.mem_cons.1 this with h2 | h2
        · exact absurd h2.symm (adj_ne hF.cons hnlt hxy)
        · exact h2
  · intro x hx
    rw [hsub]
    rcases (hf x).1 hx with h1 | h1
    · have hxn : x ≠ n := by rintro rfl; exact hnf h1
      rw [upd_ne _ _ hxn, hD x hxn]
      exact h.inv.wt x h1
    · subst h1
      rw [upd_same, hDn, Finset.sum_insert hnN, h.cw]
      omega
  · intro x y hx hy hxy
    rw [hpar, hou]
    rcases (hf x).1 hx with h1 | h1
    · exact h.inv.back x y h1 (List.mem_cons_of_mem _ hy) hxy
    · subst h1; exact (hdone y hxy).2 hy
  · intro a ha t
    rw [hpar, hou]
    rcases (hf a).1 ha with h1 | h1
    · rw [hD a (by rintro rfl; exact hnf h1)]
      exact h.inv.outFin a h1 t
    · subst h1
      rw [hDn]
      constructor
      · intro ht
        obtain ⟨i1, i2, i3⟩ := h.inv.outPi a List.mem_cons_self t ht
        have hne := adj_ne hF.cons (h.inv.lt t i1) i2
        refine ⟨i2, ?_, hne, i3⟩
        rcases h.outs a List.mem_cons_self t ht with h2 | h2 | h2
        · rw [h0.outU a hp.und] at h2; simp at h2
        · exact Finset.mem_insert_of_mem h2
        · exact absurd h2 hne
      · rintro ⟨i1, i2, i3, i4⟩
        rw [Finset.mem_insert] at i2
        rcases i2 with i2 | i2
        · exact absurd i2 i3
        · rcases h.inv.back t a (hNfin t i2) List.mem_cons_self i1 with h2 | h2
          · exact absurd h2 i4
          · exact h2
  · intro y hy t ht
    rw [hpar, Ne, hd]
    exact h.inv.outPi y (List.mem_cons_of_mem _ hy) t ht
  · intro y hy ho
    rw [hst, upd_ne _ _ (by rintro rfl; exact hnπ hy)]
    exact h.inv.outCyc y (List.mem_cons_of_mem _ hy) ho
  · intro v hv
    exact h.inv.outU v ((hd v).1 hv)
  · intro y hy
    rw [hDn, Finset.mem_insert] at hy
    rcases hy with hy | hy
    · rw [hy]; exact hp.und
    · exact (hN y hy).1
  · intro v
    rw [hf, h.fin, hDn, Finset.mem_insert]
    tauto
  · intro v
    rw [hd, h.dis, hDn, Finset.mem_insert]
    tauto
  · exact h.par
  · intro v hv
    have hvn : v ≠ n := by rintro rfl; rw [hp.und] at hv; simp at hv
    rw [hsub, hou, upd_ne _ _ hvn, hD v hvn]
    exact h.old v hv
  · intro a ha t ht
    rw [hDn, Finset.mem_insert]
    rcases h.outs a (List.mem_cons_of_mem _ ha) t ht with h1 | h1 | h1
    · exact Or.inl h1
    · exact Or.inr (Or.inr h1)
    · exact Or.inr (Or.inl h1)
  · exact h.mono

/-- The parent of an undiscovered vertex is set. -/
theorem Inv.setParent {s : St} {π : List Nat} {D : Nat → Finset Nat} {t n : Nat} (h : Inv E s π D) (ht : s.status t = .undiscovered) :
    Inv E { s with parent := update s.parent t n } π D := by
  have hp : ∀ v, s.status v ≠ .undiscovered → update s.parent t n v = s.parent v := fun v hv =>
    upd_ne _ _ (by rintro rfl; exact hv ht)
  have hq : ∀ v, s.status v = .finished → update s.parent t n v = s.parent v := fun v hv => hp v (by rw [hv]; simp)
  refine ⟨h.act, h.lt, h.root, h.closed, h.self, h.sub, h.trans, ?_, ?_, ?_, h.edge, h.wt, ?_, ?_, ?_, h.outCyc, h.outU⟩
  · intro x hx y hy hne
    dsimp only
    rw [hq y (h.sub x hx y hy)]
    exact h.up x hx y hy hne
  · intro x hx hs
    dsimp only
    rw [hq x hx]
    exact h.par x hx hs
  · intro x hx hs
    dsimp only
    rw [hq x hx]
    exact h.padj x hx hs
  · intro x y hx hy hxy
    dsimp only
    rw [hq x hx]
    exact h.back x y hx hy hxy
  · intro a ha u
    dsimp only
    rw [h.outFin a ha u]
    constructor
    · rintro ⟨i1, i2, i3, i4⟩
      exact ⟨i1, i2, i3, by rw [hq u (h.sub a ha u i2)]; exact i4⟩
    · rintro ⟨i1, i2, i3, i4⟩
      exact ⟨i1, i2, i3, by rw [hq u (h.sub a ha u i2)] at i4; exact i4⟩
  · intro y hy u hu
    obtain ⟨i1, i2, i3⟩ := h.outPi y hy u hu
    exact ⟨i1, i2, by dsimp only; rw [hp u i1]; exact i3⟩

/-- A child was searched. -/
theorem Scan.child {s0 s s3 : St} {π : List Nat} {D0 D D3 : Nat → Finset Nat} {n t cw : Nat} {N : Finset Nat} (h : Scan E n π s0 D0 s D N cw)
    (ht : s.status t = .undiscovered) (hP : Post E t (n :: π) { s with parent := update s.parent t n } D s3 D3) :
    Scan E n π s0 D0 s3 D3 (N ∪ D3 t) (cw + s3.sub t) := by
  have htf : s3.status t = .finished := (hP.fin t).2 (Or.inr hP.self)
  have hs : ∀ v, s.status v = .finished → v ≠ t := by rintro v hv rfl; rw [ht] at hv; simp at hv
  have hnu : s.status n ≠ .undiscovered := fun hu => ((h.dis n).1 hu).2.1 rfl
  have hp : ∀ v, s.status v ≠ .undiscovered → s3.parent v = s.parent v := by
    intro v hv
    rw [hP.par v (Or.inl hv)]
    exact upd_ne _ _ (by rintro rfl; exact hv ht)
  have hdisj : Disjoint N (D3 t) := by
    rw [Finset.disjoint_left]
    intro y hy hy'
    have h1 := (h.fin y).2 (Or.inr hy)
    rw [hP.new y hy'] at h1
    simp at h1
  refine ⟨hP.inv, ?_, ?_, ?_, ?_, ?_, ?_, ?_, ?_, ?_⟩
  · intro y hy
    rcases Finset.mem_union.1 hy with h1 | h1
    · exact h.new y h1
    · have := (h.dis y).1 (hP.new y h1)
      exact ⟨this.1, this.2.1⟩
  · intro v
    rw [hP.fin, Finset.mem_union]
    have := h.fin v
    dsimp only
    tauto
  · intro v
    rw [hP.dis, Finset.mem_union]
    have := h.dis v
    dsimp only
    tauto
  · intro v hv
    rw [hp v, h.par v hv]
    intro hu
    have := (h.dis v).1 hu
    rcases hv with h1 | h1
    · exact h1 this.1
    · exact this.2.1 h1
  · intro v hv
    obtain ⟨a1, a2, a3⟩ := hP.old v ((h.fin v).2 (Or.inl hv))
    obtain ⟨b1, b2, b3⟩ := h.old v hv
    exact ⟨a1.trans b1, a2.trans b2, a3.trans b3⟩
  · intro y hy
    rcases Finset.mem_union.1 hy with h1 | h1
    · have hyf := (h.fin y).2 (Or.inr h1)
      rw [(hP.old y hyf).2.2, hp y (by rw [hyf]; simp)]
      obtain ⟨a1, a2⟩ := h.sub y h1
      exact ⟨a1.trans Finset.subset_union_left, a2.imp id (fun hq => Finset.mem_union_left _ hq)⟩
    · refine ⟨(hP.inv.trans t htf y h1).trans Finset.subset_union_right, ?_⟩
      by_cases hyt : y = t
      · left
        rw [hyt, hP.par t (Or.inr rfl)]
        exact upd_same _ _ _
      · exact Or.inr (Finset.mem_union_right _ (hP.inv.up t htf y h1 hyt))
  · intro a ha u hu
    rw [Finset.mem_union]
    rcases hP.outs a ha u hu with h1 | h1
    · rcases h.outs a ha u h1 with h2 | h2 | h2
      · exact Or.inl h2
      · exact Or.inr (Or.inl (Or.inl h2))
      · exact Or.inr (Or.inr h2)
    · exact Or.inr (Or.inl (Or.inr h1))
  · intro a ha u hu
    exact hP.mono a (List.mem_cons_of_mem _ ha) u (h.mono a ha u hu)
  · rw [Finset.sum_union hdisj, h.cw, hP.inv.wt t htf]

/-- A back edge was recorded. -/
theorem Scan.backStep (hF : Facts E.C c) {s0 s : St} {π : List Nat} {D0 D : Nat → Finset Nat} {n t cw : Nat} {N : Finset Nat}
    (h : Scan E n π s0 D0 s D N cw) (hn : n < E.C.n) (hadj : E.C.Adj n t) (ht : s.status t = .active ∨ s.status t = .cycle) :
    Scan E n π s0 D0 (backEdge n t s) D N cw ∧ (t ∈ π → (backEdge n t s).parent n = t ∨ n ∈ (backEdge n t s).out t) ∧
      (∀ v, (backEdge n t s).status v = .undiscovered ↔ s.status v = .undiscovered) ∧
      (∀ v, (backEdge n t s).status v = .finished ↔ s.status v = .finished) ∧ (backEdge n t s).parent = s.parent ∧
      ∀ a u, u ∈ s.out a → u ∈ (backEdge n t s).out a := by
  unfold backEdge
  split
  swap
  · rename_i hpn
    push Not at hpn
    exact ⟨h, fun _ => Or.inl hpn, fun _ => Iff.rfl, fun _ => Iff.rfl, rfl, fun _ _ hu => hu⟩
  rename_i hpn
  have htn : t ≠ n := (adj_ne hF.cons hn hadj).symm
  have htπ : t ∈ n :: π := (h.inv.act t).2 ht
  have htp : t ∈ π := by
    rcases List.mem_cons.1 htπ with h1 | h1
    · exact absurd h1 htn
    · exact h1
  have hf : ∀ v, update s.status t .cycle v = .finished ↔ s.status v = .finished := by
    intro v
    by_cases he : v = t
    · subst he; rw [upd_same]; rcases ht with h1 | h1 <;> rw [h1] <;> simp
    · rw [upd_ne _ _ he]
  have hd : ∀ v, update s.status t .cycle v = .undiscovered ↔ s.status v = .undiscovered := by
    intro v
    by_cases he : v = t
    · subst he; rw [upd_same]; rcases ht with h1 | h1 <;> rw [h1] <;> simp
    · rw [upd_ne _ _ he]
  have hnf : ∀ v, s.status v = .finished → v ≠ t := by
    rintro v hv rfl
    rcases ht with h1 | h1 <;> rw [h1] at hv <;> simp at hv
  have hmono : ∀ a u, u ∈ s.out a → u ∈ update s.out t (s.out t ++ [n]) a := by
    intro a u hu
    by_cases he : a = t
    · subst he; rw [upd_same]; exact List.mem_append_left _ hu
    · rw [upd_ne _ _ he]; exact hu
  refine ⟨⟨⟨?_, ?_, ?_, ?_, ?_, ?_, ?_, ?_, ?_, ?_, ?_, ?_, ?_, ?_, ?_, ?_, ?_⟩, h.new, ?_, ?_, h.par, ?_, h.sub, ?_, ?_, h.cw⟩, ?_, hd, hf,
    rfl, hmono⟩
  · intro v
    dsimp only
    by_cases he : v = t
    · subst he; rw [upd_same]; simp [htπ]
    · rw [upd_ne _ _ he]; exact h.inv.act v
  · intro v hv; exact h.inv.lt v (fun hu => hv ((hd v).2 hu))
  · intro v hv hu; exact h.inv.root v (fun hu => hv ((hd v).2 hu)) ((hd _).1 hu)
  · intro x y hx hxy hu; exact h.inv.closed x y ((hf x).1 hx) hxy ((hd y).1 hu)
  · intro x hx; exact h.inv.self x ((hf x).1 hx)
  · intro x hx y hy; exact (hf y).2 (h.inv.sub x ((hf x).1 hx) y hy)
  · intro x hx; exact h.inv.trans x ((hf x).1 hx)
  · intro x hx; exact h.inv.up x ((hf x).1 hx)
  · intro x hx hs
    rcases h.inv.par x ((hf x).1 hx) hs with h1 | h1
    · exact Or.inl ⟨(hf _).2 h1.1, h1.2⟩
    · exact Or.inr h1
  · intro x hx; exact h.inv.padj x ((hf x).1 hx)
  · intro x y hx hxy
    rcases h.inv.edge x y ((hf x).1 hx) hxy with h1 | h1
    · exact Or.inl h1
    · exact Or.inr ⟨(hf y).2 h1.1, h1.2⟩
  · intro x hx; exact h.inv.wt x ((hf x).1 hx)
  · intro x y hx hy hxy
    rcases h.inv.back x y ((hf x).1 hx) hy hxy with h1 | h1
    · exact Or.inl h1
    · exact Or.inr (hmono _ _ h1)
  · intro a ha u
    dsimp only
    rw [upd_ne _ _ (hnf a ((hf a).1 ha))]
    exact h.inv.outFin a ((hf a).1 ha) u
  · intro y hy u hu
    dsimp only at hu ⊢
    rw [Ne, hd]
    by_cases he : y = t
    · subst he
      rw [upd_same] at hu
      rcases List.mem_append.1 hu with h1 | h1
      · exact h.inv.outPi y hy u h1
      · have : u = n := by simpa using h1
        subst this
        exact ⟨fun hu => ((h.dis u).1 hu).2.1 rfl, hadj, hpn⟩
    · rw [upd_ne _ _ he] at hu
      exact h.inv.outPi y hy u hu
  · intro y hy ho
    dsimp only at ho ⊢
    by_cases he : y = t
    · subst he; rw [upd_same]
    · rw [upd_ne _ _ he] at ho ⊢
      exact h.inv.outCyc y hy ho
  · intro v hv
    have hv' := (hd v).1 hv
    dsimp only
    rw [upd_ne _ _ (by rintro rfl; rcases ht with h1 | h1 <;> rw [h1] at hv' <;> simp at hv')]
    exact h.inv.outU v hv'
  · intro v; exact (hf v).trans (h.fin v)
  · intro v; exact (hd v).trans (h.dis v)
  · intro v hv
    obtain ⟨b1, b2, b3⟩ := h.old v hv
    refine ⟨b1, ?_, b3⟩
    dsimp only
    rw [upd_ne _ _ (hnf v ((h.fin v).2 (Or.inl hv)))]
    exact b2
  · intro a ha u hu
    dsimp only at hu
    by_cases he : a = t
    · subst he
      rw [upd_same] at hu
      rcases List.mem_append.1 hu with h1 | h1
      · exact h.outs a ha u h1
      · exact Or.inr (Or.inr (by simpa using h1))
    · rw [upd_ne _ _ he] at hu
      exact h.outs a ha u hu
  · intro a ha u hu
    exact hmono a u (h.mono a ha u hu)
  · intro _
    right
    dsimp only
    rw [upd_same]
    simp

/-! ## The whole search -/

/-- The state agrees with a tree on the finished vertices. -/
def Agree (s : St) (D : Nat → Finset Nat) (par : Nat → Nat) (D' : Nat → Finset Nat) : Prop :=
  ∀ v, s.status v = .finished → D v = D' v ∧ s.parent v = par v

/-- The tree edge above `v` is accounted for. -/
def Cov1 (E : Env) (par : Nat → Nat) (D : Nat → Finset Nat) (w v : Nat) : Prop :=
  E.C.toGraph.wt v (par v) = E.mincut → lighter E.total (ws E.C E.vw fun x => decide (x ∈ D v)) ≤ w

/-- The cycles with top `a` are accounted for. -/
def Cov2 (E : Env) (par : Nat → Nat) (D : Nat → Finset Nat) (w a : Nat) : Prop :=
  ∀ t k, BackEdge E.C par D t a k → ∀ b f, b < f → f ≤ k + 1 → f < b + (k + 1) →
    lighter E.total (ws E.C E.vw (arcSet par D t k b f)) ≤ w

theorem Cov1.mono {par : Nat → Nat} {D : Nat → Finset Nat} {w w' v : Nat} (h : Cov1 E par D w v) (hw : w ≤ w') : Cov1 E par D w' v :=
  fun hc => Nat.le_trans (h hc) hw

theorem Cov2.mono {par : Nat → Nat} {D : Nat → Finset Nat} {w w' v : Nat} (h : Cov2 E par D w v) (hw : w ≤ w') : Cov2 E par D w' v :=
  fun t k hb b f h1 h2 h3 => Nat.le_trans (h t k hb b f h1 h2 h3) hw

/-- Undiscovered vertices. -/
def und (E : Env) (s : St) : Finset Nat := (range E.C.n).filter fun v => s.status v = .undiscovered

theorem und_mono {s s' : St} (h : ∀ v, s'.status v = .undiscovered → s.status v = .undiscovered) : (und E s').card ≤ (und E s).card := by
  refine Finset.card_le_card fun v hv => ?_
  unfold und at hv ⊢
  rw [Finset.mem_filter] at hv ⊢
  exact ⟨hv.1, h v hv.2⟩

theorem und_lt {s s' : St} {n : Nat} (h : ∀ v, s'.status v = .undiscovered → s.status v = .undiscovered) (hn : n < E.C.n)
    (h1 : s.status n = .undiscovered) (h2 : s'.status n ≠ .undiscovered) : (und E s').card < (und E s).card := by
  refine Finset.card_lt_card (Finset.ssubset_iff_subset_ne.2 ⟨fun v hv => ?_, fun he => ?_⟩)
  · unfold und at hv ⊢
    rw [Finset.mem_filter] at hv ⊢
    exact ⟨hv.1, h v hv.2⟩
  · have : n ∈ und E s := Finset.mem_filter.2 ⟨Finset.mem_range.2 hn, h1⟩
    rw [← he] at this
    exact h2 (Finset.mem_filter.1 this).2

theorem backEdge_unique {C : MGraph} {par : Nat → Nat} {D : Nat → Finset Nat} {t a k k' : Nat} (h : BackEdge C par D t a k)
    (h' : BackEdge C par D t a k') : k = k' := by
  rcases Nat.lt_trichotomy k k' with hh | hh | hh
  · exact absurd h.top (h'.first k hh)
  · exact hh
  · exact absurd h'.top (h.first k' hh)

theorem check_spec (hF : Facts E.C E.mincut) (htot : E.total = ∑ q ∈ range E.C.n, E.vw q) (hpos : 0 < E.total) {par : Nat → Nat}
    {D : Nat → Finset Nat} (T : Tree E.C E.start par D) {n : Nat} (hn : n < E.C.n) : ∀ (l : List Nat) (z : St),
    (∀ t ∈ l, E.C.Adj t n ∧ t ∈ D n ∧ t ≠ n ∧ par t ≠ n) →
    (∀ v ∈ D n, v ≠ n → z.parent v = par v ∧ z.sub v = ∑ q ∈ D v, E.vw q) → Valid E E.mincut z →
    ∃ z', checkForCycles E n l z = some z' ∧ Frame z z' ∧ Valid E E.mincut z' ∧ z.weight ≤ z'.weight ∧
      ∀ t ∈ l, ∀ k, BackEdge E.C par D t n k → ∀ b f, b < f → f ≤ k + 1 → f < b + (k + 1) →
        lighter E.total (ws E.C E.vw (arcSet par D t k b f)) ≤ z'.weight := by
  intro l
  induction l with
  | nil =>
    intro z _ _ hv
    exact ⟨z, rfl, Frame.refl z, hv, le_refl _, by simp⟩
  | cons t l ih =>
    intro z hl hz hv
    obtain ⟨a1, a2, a3, a4⟩ := hl t List.mem_cons_self
    obtain ⟨k, hk, hb⟩ := T.backEdge hn a2 a1 a3 a4
    have hit : ∀ i, i < k → par^[i] t ∈ D n ∧ par^[i] t ≠ n := fun i hi =>
      ⟨(T.iter hn a2 i (fun j hj => hb.first j (by omega))).1, hb.first i hi⟩
    obtain ⟨z1, i1, i2, i3, i4, i5⟩ := investigate_spec hF htot hpos T hk hb (s := z)
      (fun i hi => by rw [Function.iterate_succ_apply']; exact (hz _ (hit i hi).1 (hit i hi).2).1)
      (fun i hi => (hz _ (hit i hi).1 (hit i hi).2).2) hv
    obtain ⟨z', j1, j2, j3, j4, j5⟩ := ih z1 (fun u hu => hl u (List.mem_cons_of_mem _ hu))
      (fun v hv hne => by rw [i2.2.2.1, i2.2.1]; exact hz v hv hne) i3
    refine ⟨z', ?_, i2.trans j2, j3, i4.trans j4, ?_⟩
    · unfold checkForCycles
      rw [i1, Option.bind_some, j1]
    · intro u hu k' hb' b f h1 h2 h3
      rcases List.mem_cons.1 hu with h4 | h4
      · subst h4
        have := backEdge_unique hb hb'
        subst this
        exact (i5 b f h1 h2 h3).trans j4
      · exact j5 u h4 k' hb' b f h1 h2 h3

/-- What one call of `processVertex` does. -/
def VisitSpec (E : Env) (f : Nat) : Prop :=
  ∀ n π s D, Inv E s π D → Pre E n π s → (und E s).card ≤ f → ∃ s' D', Post E n π s D s' D' ∧
    ∀ par DT, Tree E.C E.start par DT → Agree s' D' par DT → ∀ z, Frame s z → Valid E E.mincut z →
      ∃ z', processVertex E f n z = some z' ∧ Frame s' z' ∧ Valid E E.mincut z' ∧ z.weight ≤ z'.weight ∧
        ∀ v ∈ D' n, (v ≠ n → Cov1 E par DT z'.weight v) ∧ Cov2 E par DT z'.weight v

theorem Frame.tryEdge {s z : St} (h : Frame s z) (n e t : Nat) : Frame s (tryEdge E n e t z) := by
  unfold Balanced.tryEdge
  split
  · exact h
  · exact h

theorem Frame.backEdge {s z : St} (h : Frame s z) (n t : Nat) : Frame (backEdge n t s) (backEdge n t z) ∧
    (Balanced.backEdge n t z).weight = z.weight ∧ (Valid E c z → Valid E c (Balanced.backEdge n t z)) := by
  unfold Balanced.backEdge
  obtain ⟨h1, h2, h3, h4⟩ := h
  rw [h3]
  split
  · refine ⟨⟨?_, h2, rfl, ?_⟩, rfl, fun hv => hv⟩
    · dsimp only; rw [h1]
    · dsimp only; rw [h4]
  · exact ⟨⟨h1, h2, h3, h4⟩, rfl, fun hv => hv⟩

theorem scan_spec (hF : Facts E.C E.mincut) (htot : E.total = ∑ q ∈ range E.C.n, E.vw q) {f : Nat} (ih : VisitSpec E f) {n : Nat}
    (hn : n < E.C.n) {π : List Nat} {s0 : St} {D0 : Nat → Finset Nat} : ∀ (l : List Nat), (∀ e ∈ l, e < E.C.len n) →
    ∀ s D N cw, Scan E n π s0 D0 s D N cw → (und E s).card ≤ f → ∃ s' D' N' cw', Scan E n π s0 D0 s' D' N' cw' ∧
      (∀ v, s'.status v = .undiscovered → s.status v = .undiscovered) ∧ (∀ a ∈ π, ∀ u ∈ s.out a, u ∈ s'.out a) ∧
      (∀ v, s.status v = .finished → s'.status v = .finished ∧ D' v = D v ∧ s'.parent v = s.parent v) ∧ N ⊆ N' ∧
      (∀ e ∈ l, s'.status (E.C.edge n e).target ≠ .undiscovered ∧
        ((E.C.edge n e).target ∈ π → s'.parent n = (E.C.edge n e).target ∨ n ∈ s'.out (E.C.edge n e).target)) ∧
      ∀ par DT, Tree E.C E.start par DT → Agree s' D' par DT → ∀ z, Frame s z → Valid E E.mincut z →
        ∃ z', scan E (processVertex E f) n l cw z = some (z', cw') ∧ Frame s' z' ∧ Valid E E.mincut z' ∧ z.weight ≤ z'.weight ∧
          ∀ v ∈ N', v ∉ N → Cov1 E par DT z'.weight v ∧ Cov2 E par DT z'.weight v := by
  intro l
  induction l with
  | nil =>
    intro _ s D N cw h _
    refine ⟨s, D, N, cw, h, fun _ hv => hv, fun _ _ _ hu => hu, fun _ hv => ⟨hv, rfl, rfl⟩, Finset.Subset.refl _, by simp, ?_⟩
    intro par DT _ _ z hz hv
    exact ⟨z, rfl, hz, hv, le_refl _, fun v h1 h2 => absurd h1 h2⟩
  | cons e l ihl =>
    intro hl s D N cw h hf
    have he := hl e List.mem_cons_self
    have hl' : ∀ e ∈ l, e < E.C.len n := fun e he => hl e (List.mem_cons_of_mem _ he)
    generalize ht : (E.C.edge n e).target = t
    have hadj : E.C.Adj n t := ⟨e, he, ht⟩
    have htlt := adj_lt hF.cons hn hadj
    have hparn : ∀ {s' D' N' cw'}, Scan E n π s0 D0 s' D' N' cw' → s'.parent n = s0.parent n := fun h => h.par n (Or.inr rfl)
    by_cases hu : s.status t = .undiscovered
    · -- a tree edge
      have hnu : s.status n ≠ .undiscovered := fun hu => ((h.dis n).1 hu).2.1 rfl
      have hts : t ≠ E.start := by
        rintro hts
        exact h.inv.root n hnu (hts ▸ hu)
      obtain ⟨s3, D3, hP, hreal⟩ := ih t (n :: π) { s with parent := update s.parent t n } D (h.inv.setParent hu)
        ⟨htlt, hu, fun _ => by
          dsimp only
          rw [upd_same]
          exact ⟨List.mem_cons_self, adj_symm hF.cons hn hadj⟩⟩ hf
      have hc := h.child hu hP
      have hf3 : (und E s3).card ≤ f := Nat.le_trans (und_mono (s := s) fun v hv => ((hP.dis v).1 hv).1) hf
      have htf : s3.status t = .finished := (hP.fin t).2 (Or.inr hP.self)
      have hpt : s3.parent t = n := by rw [hP.par t (Or.inr rfl)]; exact upd_same _ _ _
      obtain ⟨s', D', N', cw', k1, k2, k3, k4, k5, k6, k7⟩ := ihl hl' s3 D3 _ _ hc hf3
      refine ⟨s', D', N', cw', k1, fun v hv => ((hP.dis v).1 (k2 v hv)).1, fun a ha u hu =>
        k3 a ha u (hP.mono a (List.mem_cons_of_mem _ ha) u hu), ?_, Finset.subset_union_left.trans k5, ?_, ?_⟩
      · intro v hv
        obtain ⟨a1, a2, a3⟩ := k4 v ((hP.fin v).2 (Or.inl hv))
        refine ⟨a1, a2.trans (hP.old v hv).2.2, a3.trans ?_⟩
        rw [hP.par v (Or.inl (by dsimp only; rw [hv]; simp))]
        exact upd_ne _ _ (by rintro rfl; rw [hu] at hv; simp at hv)
      · intro e' he'
        rcases List.mem_cons.1 he' with h1 | h1
        · subst h1
          rw [ht]
          refine ⟨fun hq => ?_, fun hq => ?_⟩
          · have := k2 t hq
            rw [htf] at this
            simp at this
          · exfalso
            have := (h.inv.act t).1 (List.mem_cons_of_mem _ hq)
            rw [hu] at this
            simp at this
        · exact k6 e' h1
      · intro par DT T hA z hz hv
        have hA3 : Agree s3 D3 par DT := by
          intro v hv
          obtain ⟨a1, a2, a3⟩ := k4 v hv
          obtain ⟨b1, b2⟩ := hA v a1
          exact ⟨a2.symm.trans b1, a3.symm.trans b2⟩
        obtain ⟨z3, i1, i2, i3, i4, i5⟩ := hreal par DT T hA3 { z with parent := update z.parent t n }
          ⟨hz.1, hz.2.1, by dsimp only; rw [hz.2.2.1], hz.2.2.2⟩ hv
        have hsub3 : z3.sub t = s3.sub t := by rw [i2.2.1]
        obtain ⟨j1, j2, j3⟩ := tryEdge_valid hF htot T hn he ht (by rw [← (hA3 t htf).2, hpt]) hts (s := z3)
          (by rw [hsub3, hP.inv.wt t htf, (hA3 t htf).1]) i3
        obtain ⟨z', m1, m2, m3, m4, m5⟩ := k7 par DT T hA (tryEdge E n e t z3) (i2.tryEdge n e t) j1
        refine ⟨z', ?_, m2, m3, ?_, ?_⟩
        · unfold scan
          dsimp only
          rw [ht]
          have hzt : z.status t = .undiscovered := by rw [hz.1]; exact hu
          rw [hzt]
          dsimp only
          rw [i1, Option.bind_some, hsub3]
          exact m1
        · have : z.weight ≤ z3.weight := i4
          omega
        · intro v hv hvN
          by_cases hv3 : v ∈ D3 t
          · obtain ⟨c1, c2⟩ := i5 v hv3
            refine ⟨?_, c2.mono (by omega)⟩
            by_cases hvt : v = t
            · subst hvt
              exact fun hw => (j3 hw).trans m4
            · exact (c1 hvt).mono (by omega)
          · exact m5 v hv (by rw [Finset.mem_union]; tauto)
    · by_cases hfin : s.status t = .finished
      · -- already finished
        obtain ⟨s', D', N', cw', k1, k2, k3, k4, k5, k6, k7⟩ := ihl hl' s D N cw h hf
        refine ⟨s', D', N', cw', k1, k2, k3, k4, k5, ?_, ?_⟩
        · intro e' he'
          rcases List.mem_cons.1 he' with h1 | h1
          · subst h1
            rw [ht]
            refine ⟨fun hq => hu (k2 t hq), fun hq => ?_⟩
            exfalso
            have := (h.inv.act t).1 (List.mem_cons_of_mem _ hq)
            rw [hfin] at this
            simp at this
          · exact k6 e' h1
        · intro par DT T hA z hz hv
          obtain ⟨z', m1, m2, m3, m4, m5⟩ := k7 par DT T hA z hz hv
          refine ⟨z', ?_, m2, m3, m4, m5⟩
          unfold scan
          dsimp only
          rw [ht]
          have hzt : z.status t = .finished := by rw [hz.1]; exact hfin
          rw [hzt]
          exact m1
      · -- on the stack
        have hact : s.status t = .active ∨ s.status t = .cycle := by
          cases hs : s.status t with
          | undiscovered => exact absurd hs hu
          | active => exact Or.inl rfl
          | cycle => exact Or.inr rfl
          | finished => exact absurd hs hfin
        obtain ⟨b1, b2, b3, b4, b5, b6⟩ := h.backStep hF hn hadj hact
        obtain ⟨s', D', N', cw', k1, k2, k3, k4, k5, k6, k7⟩ := ihl hl' _ D N cw b1
          (Nat.le_trans (und_mono (s := s) fun v hv => (b3 v).1 hv) hf)
        refine ⟨s', D', N', cw', k1, fun v hv => (b3 v).1 (k2 v hv), fun a ha u hu => k3 a ha u (b6 a u hu), ?_, k5, ?_, ?_⟩
        · intro v hv
          obtain ⟨a1, a2, a3⟩ := k4 v ((b4 v).2 hv)
          exact ⟨a1, a2, a3.trans (by rw [b5])⟩
        · intro e' he'
          rcases List.mem_cons.1 he' with h1 | h1
          · subst h1
            rw [ht]
            refine ⟨fun hq => hu ((b3 t).1 (k2 t hq)), fun hq => ?_⟩
            rcases b2 hq with h2 | h2
            · left
              rw [hparn k1, ← hparn b1]
              exact h2
            · exact Or.inr (k3 t hq n h2)
          · exact k6 e' h1
        · intro par DT T hA z hz hv
          obtain ⟨f1, f2, f3⟩ := hz.backEdge (E := E) (c := E.mincut) n t
          obtain ⟨z', m1, m2, m3, m4, m5⟩ := k7 par DT T hA _ f1 (f3 hv)
          refine ⟨z', ?_, m2, m3, by omega, m5⟩
          unfold scan
          dsimp only
          rw [ht]
          rcases hact with h1 | h1
          · have hzt : z.status t = .active := by rw [hz.1]; exact h1
            rw [hzt]
            exact m1
          · have hzt : z.status t = .cycle := by rw [hz.1]; exact h1
            rw [hzt]
            exact m1

theorem visit_spec (hF : Facts E.C E.mincut) (htot : E.total = ∑ q ∈ range E.C.n, E.vw q) (hpos : 0 < E.total) : ∀ f, VisitSpec E f := by
  intro f
  induction f with
  | zero =>
    intro n π s D h hp hf
    exfalso
    have : n ∈ und E s := Finset.mem_filter.2 ⟨Finset.mem_range.2 hp.lt, hp.und⟩
    rw [Nat.le_zero, Finset.card_eq_zero] at hf
    rw [hf] at this
    simp at this
  | succ f ih =>
    intro n π s D h hp hf
    have hb := h.begin hp
    have hn := hp.lt
    by_cases hleaf : E.C.len n = 1 ∧ n ≠ E.start
    · -- a leaf
      have hpar := hp.par hleaf.2
      have honly : ∀ y, E.C.Adj n y → y = s.parent n := by
        rintro y ⟨e, he, hy⟩
        obtain ⟨e', he', hy'⟩ := hpar.2
        have : e = e' := by omega
        subst this
        rw [← hy, hy']
      have hdone : ∀ y, E.C.Adj n y → update s.status n .active y ≠ .undiscovered ∧ (y ∈ π → s.parent n = y ∨ n ∈ s.out y) := by
        intro y hy
        have hyp := honly y hy
        refine ⟨fun hu => ?_, fun _ => Or.inl hyp.symm⟩
        have hyn : y ≠ n := (adj_ne hF.cons hn hy).symm
        rw [upd_ne _ _ hyn] at hu
        rw [hyp] at hu
        rcases (h.act _).1 hpar.1 with h1 | h1 <;> rw [hu] at h1 <;> simp at h1
      have hP := hb.done hF h hp hdone
      rw [Nat.zero_add] at hP
      refine ⟨_, _, hP, ?_⟩
      intro par DT T hA z hz hv
      refine ⟨finish n (E.vw n) { z with status := update z.status n .active }, ?_, ?_, hv, le_refl _, ?_⟩
      · unfold processVertex
        dsimp only
        rw [if_pos hleaf]
      · exact ⟨by unfold finish; dsimp only; rw [hz.1], by unfold finish; dsimp only; rw [hz.2.1], hz.2.2.1, hz.2.2.2⟩
      · intro v hv
        rw [upd_same] at hv
        have hvn : v = n := by simpa using hv
        subst hvn
        refine ⟨fun hne => absurd rfl hne, ?_⟩
        intro t k hbk
        exfalso
        have hnfin : (finish v (E.vw v) { s with status := update s.status v .active }).status v = .finished := upd_same _ _ _
        have h1 : t ∈ DT v := hbk.mem
        rw [← (hA v hnfin).1, upd_same] at h1
        have : t = v := by simpa using h1
        exact hbk.first 0 (by have := hbk.two; omega) this
    · obtain ⟨s', D', N', cw', k1, k2, k3, k4, k5, k6, k7⟩ := scan_spec hF htot ih hn (π := π) (s0 := s) (D0 := D) (List.range (E.C.len n))
        (fun e he => List.mem_range.1 he) _ _ _ _ hb (by
          have := und_lt (E := E) (s := s) (s' := { s with status := update s.status n .active }) (n := n) (fun v hv => by
            by_cases hvn : v = n
            · rw [hvn]; exact hp.und
            · dsimp only at hv; rwa [upd_ne _ _ hvn] at hv) hn hp.und (by dsimp only; rw [upd_same]; simp)
          omega)
      have hdone : ∀ y, E.C.Adj n y → s'.status y ≠ .undiscovered ∧ (y ∈ π → s'.parent n = y ∨ n ∈ s'.out y) := by
        rintro y ⟨e, he, rfl⟩
        exact k6 e (List.mem_range.2 he)
      have hP := k1.done hF h hp hdone
      refine ⟨_, _, hP, ?_⟩
      intro par DT T hA z hz hv
      have hnf' : s'.status n ≠ .finished := by
        rcases (k1.inv.act n).1 List.mem_cons_self with h1 | h1 <;> rw [h1] <;> simp
      have hAn : ∀ v, s'.status v = .finished → D' v = DT v ∧ s'.parent v = par v := by
        intro v hv
        have hvn : v ≠ n := by rintro rfl; exact hnf' hv
        have := hA v (by show update s'.status n .finished v = .finished; rw [upd_ne _ _ hvn]; exact hv)
        rw [upd_ne _ _ hvn] at this
        exact this
      have hDTn : DT n = insert n N' := by
        have := (hA n (upd_same _ _ _)).1
        rw [upd_same] at this
        exact this.symm
      obtain ⟨z1, i1, i2, i3, i4, i5⟩ := k7 par DT T hAn { z with status := update z.status n .active }
        ⟨by dsimp only; rw [hz.1], hz.2.1, hz.2.2.1, hz.2.2.2⟩ hv
      have hz1 : ∀ v ∈ DT n, v ≠ n → z1.parent v = par v ∧ z1.sub v = ∑ q ∈ DT v, E.vw q := by
        intro v hv hvn
        rw [hDTn, Finset.mem_insert] at hv
        have hvN : v ∈ N' := by tauto
        have hvf := (k1.fin v).2 (Or.inr hvN)
        obtain ⟨a1, a2⟩ := hAn v hvf
        rw [i2.2.2.1, i2.2.1]
        exact ⟨a2, by rw [k1.inv.wt v hvf, a1]⟩
      have hout : ∀ t, t ∈ s'.out n ↔ E.C.Adj t n ∧ t ∈ DT n ∧ t ≠ n ∧ par t ≠ n := by
        intro t
        have := hP.inv.outFin n (upd_same _ _ _) t
        rw [upd_same, ← hDTn] at this
        refine this.trans ⟨?_, ?_⟩
        · rintro ⟨a1, a2, a3, a4⟩
          refine ⟨a1, a2, a3, ?_⟩
          rw [← (hz1 t a2 a3).1, i2.2.2.1]; exact a4
        · rintro ⟨a1, a2, a3, a4⟩
          refine ⟨a1, a2, a3, ?_⟩
          rw [← (hz1 t a2 a3).1, i2.2.2.1] at a4; exact a4
      obtain ⟨z2, j1, j2, j3, j4, j5⟩ : ∃ z2, (if z1.status n = .cycle then checkForCycles E n (z1.out n) z1 else some z1) = some z2 ∧
          Frame z1 z2 ∧ Valid E E.mincut z2 ∧ z1.weight ≤ z2.weight ∧ ∀ t ∈ s'.out n, ∀ k, BackEdge E.C par DT t n k →
            ∀ b f, b < f → f ≤ k + 1 → f < b + (k + 1) → lighter E.total (ws E.C E.vw (arcSet par DT t k b f)) ≤ z2.weight := by
        by_cases hcy : s'.status n = .cycle
        · rw [if_pos (by rw [i2.1]; exact hcy), i2.2.2.2]
          exact check_spec hF htot hpos T hn (s'.out n) z1 (fun t ht => (hout t).1 ht) hz1 i3
        · rw [if_neg (by rw [i2.1]; exact hcy)]
          refine ⟨z1, rfl, Frame.refl _, i3, le_refl _, fun t ht => ?_⟩
          exact absurd (k1.inv.outCyc n List.mem_cons_self (by intro he; rw [he] at ht; simp at ht)) hcy
      refine ⟨finish n (cw' + E.vw n) z2, ?_, ?_, j3, ?_, ?_⟩
      · unfold processVertex
        dsimp only
        rw [if_neg hleaf, i1, Option.bind_some]
        dsimp only
        rw [j1]
        rfl
      · have hfr := i2.trans j2
        exact ⟨by unfold finish; dsimp only; rw [hfr.1], by unfold finish; dsimp only; rw [hfr.2.1], hfr.2.2.1, hfr.2.2.2⟩
      · show z.weight ≤ z2.weight
        exact Nat.le_trans i4 j4
      · intro v hv
        show (v ≠ n → Cov1 E par DT z2.weight v) ∧ Cov2 E par DT z2.weight v
        rw [upd_same, Finset.mem_insert] at hv
        rcases hv with hv | hv
        · subst hv
          refine ⟨fun hne => absurd rfl hne, ?_⟩
          intro t k hbk
          have hin : t ∈ s'.out v := by
            rw [hout]
            refine ⟨hbk.adj, hbk.mem, ?_, ?_⟩
            · exact hbk.first 0 (by have := hbk.two; omega)
            · exact hbk.first 1 (by have := hbk.two; omega)
          exact j5 t hin k hbk
        · obtain ⟨c1, c2⟩ := i5 v hv (by simp)
          exact ⟨fun _ => c1.mono j4, c2.mono j4⟩

end Balanced
end VieCut
