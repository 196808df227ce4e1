import Verif.Model.UnionFind
import Verif.Spec.Partition
import Mathlib.Logic.Function.Iterate
import Mathlib.Data.Finset.Card

namespace VieCut
namespace UF

/-- Representative reached by following parents `N` times. -/
def rootOf (p : Nat → Nat) (N : Nat) (x : Nat) : Nat := p^[N] x

structure Forest (N : Nat) (p rank : Nat → Nat) : Prop where
  rk : ∀ x, p x ≠ x → rank x < rank (p x)
  bd : ∀ x, rank x ≤ N

section
variable {N : Nat} {p rank : Nat → Nat}

theorem iterate_fixed {x : Nat} (h : p x = x) (k : Nat) : p^[k] x = x :=
  Function.iterate_fixed h k

theorem rootOf_root {x : Nat} (h : p x = x) : rootOf p N x = x := iterate_fixed h N

theorem rank_iterate (F : Forest N p rank) (x k : Nat) :
    p (p^[k] x) = p^[k] x ∨ k + rank x ≤ rank (p^[k] x) := by
  induction k with
  | zero => right; simp
  | succ k ih =>
    rw [Function.iterate_succ_apply']
    rcases ih with h | h
    · left; rw [h, h]
    · by_cases hx : p (p^[k] x) = p^[k] x
      · left; rw [hx, hx]
      · right; have := F.rk _ hx; omega

theorem rootOf_isRoot (F : Forest N p rank) (x : Nat) : p (rootOf p N x) = rootOf p N x := by
  rcases rank_iterate F x N with h | h
  · exact h
  · by_contra hx
    have h1 := F.rk _ hx
    have h2 := F.bd (p (rootOf p N x))
    simp only [rootOf] at *
    omega

theorem rootOf_parent (F : Forest N p rank) (x : Nat) : rootOf p N (p x) = rootOf p N x := by
  have h := rootOf_isRoot F x
  unfold rootOf at *
  rw [← Function.iterate_succ_apply, Function.iterate_succ_apply', h]

theorem rootOf_unique (F : Forest N p rank) (g : Nat → Nat) (h1 : ∀ x, p x = x → g x = x)
    (h2 : ∀ x, g (p x) = g x) (x : Nat) : rootOf p N x = g x := by
  have h3 : ∀ k, g (p^[k] x) = g x := by
    intro k
    induction k with
    | zero => rfl
    | succ k ih => rw [Function.iterate_succ_apply', h2, ih]
  have h4 : g (rootOf p N x) = g x := h3 N
  rw [← h4, h1 _ (rootOf_isRoot F x)]

theorem rank_lt_root (F : Forest N p rank) {x : Nat} (hx : p x ≠ x) :
    rank x < rank (rootOf p N x) := by
  have h3 : ∀ k, rank (p x) ≤ rank (p^[k] (p x)) := by
    intro k
    induction k with
    | zero => simp
    | succ k ih =>
      rw [Function.iterate_succ_apply']
      by_cases h : p (p^[k] (p x)) = p^[k] (p x)
      · rw [h]; exact ih
      · have := F.rk _ h; omega
  have := F.rk _ hx
  have h4 := h3 N
  rw [← rootOf_parent F x]
  exact lt_of_lt_of_le this h4

/-- `p'` is `p` with some entries replaced by their representative. -/
def Compressed (N : Nat) (p p' : Nat → Nat) : Prop :=
  ∀ y, p' y = p y ∨ p' y = rootOf p N y

theorem Compressed.forest (F : Forest N p rank) {p' : Nat → Nat} (h : Compressed N p p') :
    Forest N p' rank := by
  refine ⟨fun x hx => ?_, F.bd⟩
  rcases h x with e | e
  · rw [e] at hx ⊢; exact F.rk _ hx
  · rw [e] at hx ⊢
    by_cases hp : p x = x
    · exact absurd (rootOf_root hp) hx
    · exact rank_lt_root F hp

theorem Compressed.root_iff (F : Forest N p rank) {p' : Nat → Nat} (h : Compressed N p p') (y : Nat) :
    p' y = y ↔ p y = y := by
  rcases h y with e | e
  · rw [e]
  · rw [e]
    constructor
    · intro hy; have := rootOf_isRoot F y; rwa [hy] at this
    · exact fun hy => rootOf_root hy

theorem Compressed.rootOf_eq (F : Forest N p rank) {p' : Nat → Nat} (h : Compressed N p p') :
    rootOf p' N = rootOf p N := by
  funext x
  refine rootOf_unique (h.forest F) (rootOf p N) ?_ ?_ x
  · intro y hy; exact rootOf_root ((h.root_iff F y).1 hy)
  · intro y
    rcases h y with e | e
    · rw [e, rootOf_parent F]
    · rw [e, rootOf_root (rootOf_isRoot F y)]

theorem findAux_spec (F : Forest N p rank) (f x : Nat) (hf : N ≤ f + rank x) :
    (findAux f p x).1 = rootOf p N x ∧ Compressed N p (findAux f p x).2 := by
  induction f generalizing x with
  | zero =>
    have hx : p x = x := by
      by_contra hx
      have := F.rk _ hx
      have := F.bd (p x)
      omega
    exact ⟨(rootOf_root hx).symm, fun y => Or.inl rfl⟩
  | succ f ih =>
    unfold findAux
    by_cases hx : p x = x
    · simp only [ne_eq, hx, not_true_eq_false, if_false]
      exact ⟨(rootOf_root hx).symm, fun y => Or.inl rfl⟩
    · simp only [ne_eq, hx, not_false_eq_true, if_true]
      have hr := F.rk _ hx
      obtain ⟨h1, h2⟩ := ih (p x) (by omega)
      rw [rootOf_parent F] at h1
      refine ⟨h1, fun y => ?_⟩
      by_cases hy : y = x
      · subst hy; right; simp [h1]
      · simpa [Function.update_of_ne hy] using h2 y

/-- Linking a root `a` below another root `b`. -/
theorem rootOf_link {rank' : Nat → Nat} (F : Forest N p rank) {a b : Nat} (ha : p a = a) (hb : p b = b)
    (hab : a ≠ b) (F' : Forest N (Function.update p a b) rank') (x : Nat) :
    rootOf (Function.update p a b) N x = if rootOf p N x = a then b else rootOf p N x := by
  refine rootOf_unique F' (fun x => if rootOf p N x = a then b else rootOf p N x) ?_ ?_ x
  · intro y hy
    by_cases hya : y = a
    · subst hya; simp at hy; exact absurd hy.symm hab
    · rw [Function.update_of_ne hya] at hy
      simp [rootOf_root hy, hya]
  · intro y
    by_cases hya : y = a
    · subst hya
      simp only [Function.update_self, rootOf_root hb, rootOf_root ha, if_true]
      split <;> rfl
    · simp only [Function.update_of_ne hya, rootOf_parent F]

end

/-- Representation invariant. -/
structure Inv (u : UF) : Prop where
  forest : Forest u.size u.parent u.rank
  par_lt : ∀ x, x < u.size → u.parent x < u.size
  out : ∀ x, u.size ≤ x → u.parent x = x
  bd : ∀ x, u.rank x + u.cnt ≤ u.size
  cnt_eq : u.cnt = ((Finset.range u.size).filter (fun x => u.parent x = x)).card

/-- Representative of `x`. -/
def root (u : UF) (x : Nat) : Nat := rootOf u.parent u.size x

/-- `u` represents the partition generated by `ps`. -/
structure Rep (u : UF) (ps : List (Nat × Nat)) : Prop where
  inv : Inv u
  iff : ∀ a b, u.root a = u.root b ↔ Linked ps a b

theorem root_lt {u : UF} (h : Inv u) {x : Nat} (hx : x < u.size) : u.root x < u.size := by
  unfold root rootOf
  generalize hk : u.size = k
  have : ∀ k, u.parent^[k] x < u.size := by
    intro k
    induction k with
    | zero => simpa
    | succ k ih => rw [Function.iterate_succ_apply']; exact h.par_lt _ ih
  rw [← hk]
  exact this _

theorem root_root {u : UF} (h : Inv u) (x : Nat) : u.root (u.root x) = u.root x :=
  rootOf_root (rootOf_isRoot h.forest x)

theorem parent_root {u : UF} (h : Inv u) (x : Nat) : u.parent (u.root x) = u.root x :=
  rootOf_isRoot h.forest x

theorem find_fst {u : UF} (h : Inv u) (x : Nat) : (u.find x).1 = u.root x :=
  (findAux_spec h.forest u.size x (by omega)).1

@[simp] theorem find_size (u : UF) (x : Nat) : (u.find x).2.size = u.size := rfl
@[simp] theorem find_rank (u : UF) (x : Nat) : (u.find x).2.rank = u.rank := rfl
@[simp] theorem find_cnt (u : UF) (x : Nat) : (u.find x).2.cnt = u.cnt := rfl

theorem find_compressed {u : UF} (h : Inv u) (x : Nat) :
    Compressed u.size u.parent (u.find x).2.parent :=
  (findAux_spec h.forest u.size x (by omega)).2

theorem find_inv {u : UF} (h : Inv u) (x : Nat) : Inv (u.find x).2 := by
  have hc := find_compressed h x
  refine ⟨hc.forest h.forest, ?_, ?_, h.bd, ?_⟩
  · intro y hy
    rcases hc y with e | e
    · rw [e]; exact h.par_lt y hy
    · rw [e]; exact root_lt h hy
  · intro y hy
    rcases hc y with e | e
    · rw [e]; exact h.out y hy
    · rw [e]; exact rootOf_root (h.out y hy)
  · simp only [find_cnt, find_size, hc.root_iff h.forest, h.cnt_eq]

theorem find_root {u : UF} (h : Inv u) (x y : Nat) : (u.find x).2.root y = u.root y := by
  have := (find_compressed h x).rootOf_eq h.forest
  unfold root
  exact congrFun this y

theorem find_rep {u : UF} {ps} (h : Rep u ps) (x : Nat) : Rep (u.find x).2 ps :=
  ⟨find_inv h.inv x, fun a b => by rw [find_root h.inv, find_root h.inv, h.iff]⟩

theorem init_inv (n : Nat) : Inv (mk' n) := by
  refine ⟨⟨?_, ?_⟩, ?_, ?_, ?_, ?_⟩ <;> simp [mk']

theorem _root_.VieCut.Linked.mono {ps qs : List (Nat × Nat)} (h : ∀ x ∈ ps, x ∈ qs) {a b : Nat}
    (hl : Linked ps a b) : Linked qs a b :=
  Relation.EqvGen.mono (fun _ _ hab => h _ hab) _ _ hl

theorem _root_.VieCut.Linked.refl (ps : List (Nat × Nat)) (a : Nat) : Linked ps a a := Relation.EqvGen.refl a
theorem _root_.VieCut.Linked.symm {ps : List (Nat × Nat)} {a b : Nat} (h : Linked ps a b) : Linked ps b a :=
  Relation.EqvGen.symm _ _ h
theorem _root_.VieCut.Linked.trans {ps : List (Nat × Nat)} {a b c : Nat} (h : Linked ps a b) (h' : Linked ps b c) :
    Linked ps a c := Relation.EqvGen.trans _ _ _ h h'
theorem _root_.VieCut.Linked.of_mem {ps : List (Nat × Nat)} {a b : Nat} (h : (a, b) ∈ ps) : Linked ps a b :=
  Relation.EqvGen.rel _ _ h

/-- A relation that is an equivalence and contains the pairs contains `Linked`. -/
theorem _root_.VieCut.Linked.least {ps : List (Nat × Nat)} {r : Nat → Nat → Prop} (hr : Equivalence r)
    (h : ∀ a b, (a, b) ∈ ps → r a b) {a b : Nat} (hl : Linked ps a b) : r a b := by
  induction hl with
  | rel a b hab => exact h a b hab
  | refl a => exact hr.refl a
  | symm a b _ ih => exact hr.symm ih
  | trans a b c _ _ ih1 ih2 => exact hr.trans ih1 ih2

theorem _root_.VieCut.Linked.nil_iff {a b : Nat} : Linked [] a b ↔ a = b := by
  constructor
  · intro h; exact Linked.least (r := (· = ·)) ⟨fun _ => rfl, Eq.symm, Eq.trans⟩ (by simp) h
  · rintro rfl; exact Linked.refl _ _

theorem init_rep (n : Nat) : Rep (mk' n) [] := by
  refine ⟨init_inv n, fun a b => ?_⟩
  rw [Linked.nil_iff]
  have : ∀ x, (mk' n).root x = x := fun x => rootOf_root (by simp [mk'])
  rw [this, this]

/-- Adding one pair to a partition: merging the two classes. -/
theorem linked_cons_iff {ps : List (Nat × Nat)} {g : Nat → Nat} (hg : ∀ a b, g a = g b ↔ Linked ps a b)
    (l r x y : Nat) :
    ((if g x = g l then g r else g x) = (if g y = g l then g r else g y)) ↔
      Linked (ps ++ [(l, r)]) x y := by
  have m : ∀ {a b}, g a = g b → Linked (ps ++ [(l, r)]) a b := fun h =>
    ((hg _ _).1 h).mono (fun x hx => List.mem_append_left _ hx)
  have lr : Linked (ps ++ [(l, r)]) l r := Linked.of_mem (by simp)
  constructor
  · intro h
    split at h <;> split at h <;> rename_i h1 h2
    · exact (m h1).trans (m h2).symm
    · exact (m h1).trans (lr.trans (m h))
    · exact (m h).trans (lr.symm.trans (m h2).symm)
    · exact m h
  · intro h
    refine Linked.least
      (r := fun x y => (if g x = g l then g r else g x) = (if g y = g l then g r else g y))
      ⟨fun _ => rfl, Eq.symm, Eq.trans⟩ ?_ h
    intro a b hab
    rcases List.mem_append.1 hab with hab | hab
    · rw [(hg a b).2 (Linked.of_mem hab)]
    · simp only [List.mem_singleton, Prod.mk.injEq] at hab
      obtain ⟨rfl, rfl⟩ := hab
      simp

theorem filter_link_card {n : Nat} {p : Nat → Nat} {a b : Nat} (ha : p a = a) (hab : a ≠ b) (han : a < n) :
    ((Finset.range n).filter (fun x => Function.update p a b x = x)).card
      = ((Finset.range n).filter (fun x => p x = x)).card - 1 := by
  have : (Finset.range n).filter (fun x => Function.update p a b x = x)
      = ((Finset.range n).filter (fun x => p x = x)).erase a := by
    ext x
    simp only [Finset.mem_filter, Finset.mem_range, Finset.mem_erase]
    by_cases hx : x = a
    · subst hx; simp [Ne.symm hab]
    · simp [hx]
  rw [this, Finset.card_erase_of_mem]
  simp [ha, han]

theorem roots_card_pos {u : UF} (h : Inv u) {x : Nat} (hx : x < u.size) : 0 < u.cnt := by
  rw [h.cnt_eq, Finset.card_pos]
  exact ⟨u.root x, by simp [root_lt h hx, parent_root h]⟩

theorem union_spec {u : UF} {ps} (h : Rep u ps) {l r : Nat} (hl : l < u.size) (hr : r < u.size) :
    Rep (u.union l r).2 (ps ++ [(l, r)]) ∧ ((u.union l r).1 = true ↔ ¬ Linked ps l r) ∧
      (u.union l r).2.size = u.size := by
  have e1 := find_fst h.inv l
  have r1 := find_rep h l
  have e2 := find_fst r1.inv r
  have r2 := find_rep r1 r
  rw [find_root h.inv] at e2
  have hroot : ∀ y, ((u.find l).2.find r).2.root y = u.root y := fun y => by
    rw [find_root r1.inv, find_root h.inv]
  generalize hu2 : ((u.find l).2.find r).2 = u2 at *
  have hsz : u2.size = u.size := by rw [← hu2]; rfl
  have pa : u2.parent (u.root l) = u.root l := by rw [← hroot]; exact parent_root r2.inv _
  have pb : u2.parent (u.root r) = u.root r := by rw [← hroot]; exact parent_root r2.inv _
  have la : u.root l < u2.size := by rw [hsz]; exact root_lt h.inv hl
  have lb : u.root r < u2.size := by rw [hsz]; exact root_lt h.inv hr
  have hpos := roots_card_pos r2.inv la
  have hU : u.union l r = if u.root l ≠ u.root r then
      (if u2.rank (u.root l) < u2.rank (u.root r) then
        (true, { u2 with parent := Function.update u2.parent (u.root l) (u.root r), cnt := u2.cnt - 1 })
       else
        (true, { u2 with
          parent := Function.update u2.parent (u.root r) (u.root l)
          rank := if u2.rank (u.root l) = u2.rank (u.root r) then
              Function.update u2.rank (u.root l) (u2.rank (u.root l) + 1) else u2.rank
          cnt := u2.cnt - 1 }))
      else (false, u2) := by
    rw [← hu2, ← e2, ← e1]; rfl
  rw [hU]
  by_cases hne : u.root l = u.root r
  · simp only [hne, ne_eq, not_true_eq_false, if_false]
    refine ⟨⟨r2.inv, fun a b => ?_⟩, ?_, hsz⟩
    · rw [hroot, hroot]
      have := linked_cons_iff h.iff l r a b
      rw [← this]
      constructor
      · intro hab; rw [hab]
      · intro hab
        split at hab <;> split at hab <;> simp_all
    · simp [← h.iff, hne]
  · simp only [hne, ne_eq, not_false_eq_true, if_true]
    by_cases hrk : u2.rank (u.root l) < u2.rank (u.root r)
    · simp only [hrk, if_true]
      have hF : Forest u2.size (Function.update u2.parent (u.root l) (u.root r)) u2.rank := by
        refine ⟨fun x hx => ?_, r2.inv.forest.bd⟩
        by_cases hxa : x = u.root l
        · subst hxa; simpa using hrk
        · rw [Function.update_of_ne hxa] at *; exact r2.inv.forest.rk _ hx
      refine ⟨⟨⟨hF, ?_, ?_, ?_, ?_⟩, ?_⟩, ?_, hsz⟩
      · intro x hx
        by_cases hxa : x = u.root l
        · subst hxa; simpa using lb
        · simpa [Function.update_of_ne hxa] using r2.inv.par_lt x hx
      · intro x hx
        have hxa : x ≠ u.root l := by simp only at hx; omega
        simpa [Function.update_of_ne hxa] using r2.inv.out x hx
      · intro x; have := r2.inv.bd x; simp only; omega
      · simp only
        rw [filter_link_card pa hne la, ← r2.inv.cnt_eq]
      · intro a b
        rw [← linked_cons_iff h.iff l r a b]
        have key := rootOf_link r2.inv.forest pa pb hne hF
        have k2 : ∀ x, rootOf u2.parent u2.size x = u.root x := hroot
        unfold root at *
        simp only [key, k2]
      · simp [← h.iff, hne]
    · simp only [hrk, if_false]
      have hne' : u.root r ≠ u.root l := fun e => hne e.symm
      have hbd : ∀ x, u2.rank x + u2.cnt ≤ u2.size := r2.inv.bd
      have hF : Forest u2.size (Function.update u2.parent (u.root r) (u.root l))
          (if u2.rank (u.root l) = u2.rank (u.root r) then
              Function.update u2.rank (u.root l) (u2.rank (u.root l) + 1) else u2.rank) := by
        split
        · rename_i heq
          refine ⟨fun x hx => ?_, fun x => ?_⟩
          · by_cases hxb : x = u.root r
            · subst hxb
              simp [Function.update_of_ne hne', heq]
            · rw [Function.update_of_ne hxb] at *
              have := r2.inv.forest.rk _ hx
              have hxa : x ≠ u.root l := by rintro rfl; exact hx pa
              rw [Function.update_of_ne hxa]
              by_cases hpx : u2.parent x = u.root l
              · rw [hpx] at this ⊢; simp only [Function.update_self]; omega
              · rw [Function.update_of_ne hpx]; exact this
          · by_cases hxa : x = u.root l
            · subst hxa; have := hbd (u.root l); simp; omega
            · rw [Function.update_of_ne hxa]; exact r2.inv.forest.bd x
        · rename_i hneq
          refine ⟨fun x hx => ?_, r2.inv.forest.bd⟩
          by_cases hxb : x = u.root r
          · subst hxb; simp; omega
          · rw [Function.update_of_ne hxb] at *; exact r2.inv.forest.rk _ hx
      refine ⟨⟨⟨hF, ?_, ?_, ?_, ?_⟩, ?_⟩, ?_, hsz⟩
      · intro x hx
        by_cases hxa : x = u.root r
        · subst hxa; simpa using la
        · simpa [Function.update_of_ne hxa] using r2.inv.par_lt x hx
      · intro x hx
        have hxa : x ≠ u.root r := by simp only at hx; omega
        simpa [Function.update_of_ne hxa] using r2.inv.out x hx
      · intro x
        have hx := hbd x
        have hl := hbd (u.root l)
        simp only
        split
        · by_cases hxa : x = u.root l
          · subst hxa; simp; omega
          · rw [Function.update_of_ne hxa]; omega
        · omega
      · simp only
        rw [filter_link_card pb hne' lb, ← r2.inv.cnt_eq]
      · intro a b
        have hflip : Linked (ps ++ [(l, r)]) a b ↔ Linked (ps ++ [(r, l)]) a b := by
          have aux : ∀ l r a b, Linked (ps ++ [(l, r)]) a b → Linked (ps ++ [(r, l)]) a b := by
            intro l r a b hl
            refine Linked.least (r := Linked (ps ++ [(r, l)]))
              ⟨Linked.refl _, Linked.symm, Linked.trans⟩ ?_ hl
            intro x y hxy
            rcases List.mem_append.1 hxy with hxy | hxy
            · exact Linked.of_mem (List.mem_append_left _ hxy)
            · simp only [List.mem_singleton, Prod.mk.injEq] at hxy
              obtain ⟨rfl, rfl⟩ := hxy
              exact (Linked.of_mem (by simp)).symm
          exact ⟨aux _ _ _ _, aux _ _ _ _⟩
        rw [hflip, ← linked_cons_iff h.iff r l a b]
        have key := rootOf_link r2.inv.forest pb pa hne' hF
        have k2 : ∀ x, rootOf u2.parent u2.size x = u.root x := hroot
        unfold root at *
        simp only [key, k2]
      · simp [← h.iff, hne]

theorem steps_rep (ops : List Op) (u : UF) (ps) (h : Rep u ps) (hok : ∀ o ∈ ops, o.ok u.size) :
    Rep (ops.foldl step u) (ps ++ reqs ops) ∧ (ops.foldl step u).size = u.size := by
  induction ops generalizing u ps with
  | nil => simpa [reqs] using h
  | cons o ops ih =>
    cases o with
    | union a b =>
      have hab : a < u.size ∧ b < u.size := hok (.union a b) (by simp)
      obtain ⟨h1, _, h3⟩ := union_spec h hab.1 hab.2
      have := ih (u.union a b).2 _ h1 (by rw [h3]; exact fun o ho => hok o (by simp [ho]))
      simp only [List.foldl_cons, step, reqs]
      rw [h3] at this
      simpa using this
    | find a =>
      have := ih (u.find a).2 _ (find_rep h a) (fun o ho => hok o (by simp [ho]))
      simpa only [List.foldl_cons, step, reqs, find_size] using this

theorem run_rep (n : Nat) (ops : List Op) (hok : ∀ o ∈ ops, o.ok n) :
    Rep (run n ops) (reqs ops) ∧ (run n ops).size = n := by
  have := steps_rep ops (mk' n) [] (init_rep n) hok
  simpa [run, mk'] using this

theorem image_root_card {u : UF} (h : Inv u) :
    ((Finset.range u.size).image u.root).card = u.cnt := by
  rw [h.cnt_eq]
  congr 1
  ext x
  simp only [Finset.mem_image, Finset.mem_range, Finset.mem_filter]
  constructor
  · rintro ⟨y, hy, rfl⟩
    exact ⟨root_lt h hy, parent_root h y⟩
  · rintro ⟨hx, hp⟩
    exact ⟨x, hx, rootOf_root hp⟩

end UF
end VieCut
