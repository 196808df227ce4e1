import Verif.Proof.GlueCactus
import Verif.Proof.Isolating
import Mathlib.Logic.Relation
import Mathlib.Algebra.Order.BigOperators.Group.Finset

/-!
# Cuts around one vertex of a cactus
-/

namespace VieCut
open Function Finset MGraph

theorem cutValue_submodular {n : Nat} {w : Nat → Nat → Nat} (hw : ∀ u v, w u v = w v u) (S T : Nat → Bool) :
    cutValue n w (fun x => S x && T x) + cutValue n w (fun x => S x || T x) ≤ cutValue n w S + cutValue n w T := by
  have h := cutValue_posimodular (n := n) hw S (fun x => !T x)
  have h1 : cutValue n w (fun x => S x && !!T x) = cutValue n w (fun x => S x && T x) :=
    cutValue_congr fun u _ => by simp
  have h2 : cutValue n w (fun x => !T x && !S x) = cutValue n w (fun x => S x || T x) := by
    rw [← cutValue_compl hw (fun x => S x || T x)]
    exact cutValue_congr fun u _ => by cases S u <;> cases T u <;> rfl
  have h3 : cutValue n w (fun x => !T x) = cutValue n w T := cutValue_compl hw T
  rw [h1, h2, h3] at h
  exact h

/-- Disjoint sets with an edge between them. -/
theorem cutValue_union_edge {n : Nat} {w : Nat → Nat → Nat} (hw : ∀ u v, w u v = w v u) (S T : Nat → Bool)
    (hd : ∀ x, S x = true → T x = false) {a b : Nat} (ha : a < n) (hb : b < n) (hSa : S a = true) (hTb : T b = true) :
    cutValue n w (fun x => S x || T x) + 2 * w a b ≤ cutValue n w S + cutValue n w T := by
  have h1 := two_cutValue (n := n) hw S
  have h2 := two_cutValue (n := n) hw T
  have h3 := two_cutValue (n := n) hw (fun x => S x || T x)
  have hTa := hd a hSa
  have hSb : S b = false := by
    cases h : S b
    · rfl
    · rw [hd b h] at hTb; simp at hTb
  have hp : ∀ a b : Nat, a < n → b < n → wsum n w (fun u v => 2 * ind (u = a ∧ v = b)) = 2 * w a b := by
    intro a b ha hb
    unfold wsum
    rw [Finset.sum_eq_single a, Finset.sum_eq_single b]
    · dsimp only
      rw [ind_pos ⟨rfl, rfl⟩]
    · intro v _ hv
      dsimp only
      rw [ind_neg (fun hh => hv hh.2)]; simp
    · intro hh; exact absurd (mem_range.2 hb) hh
    · intro u _ hu
      refine Finset.sum_eq_zero fun v _ => ?_
      dsimp only
      rw [ind_neg (fun hh => hu hh.1)]; simp
    · intro hh; exact absurd (mem_range.2 ha) hh
  have h5 : wsum n w (fun u v => (ind ((S u || T u) ≠ (S v || T v)) + 2 * ind (u = a ∧ v = b)) + 2 * ind (u = b ∧ v = a)) ≤
      wsum n w (fun u v => ind (S u ≠ S v) + ind (T u ≠ T v)) := by
    refine wsum_mono fun u v _ _ => ?_
    by_cases hab : u = a ∧ v = b
    · obtain ⟨rfl, rfl⟩ := hab
      have hne : ¬ (u = v ∧ v = u) := by
        rintro ⟨rfl, _⟩; rw [hSa] at hSb; simp at hSb
      rw [ind_pos (P := u = u ∧ v = v) ⟨rfl, rfl⟩, ind_neg hne]
      simp [hSa, hSb, hTa, hTb, ind]
    · by_cases hba : u = b ∧ v = a
      · obtain ⟨rfl, rfl⟩ := hba
        rw [ind_neg hab, ind_pos (P := u = u ∧ v = v) ⟨rfl, rfl⟩]
        simp [hSa, hSb, hTa, hTb, ind]
      · rw [ind_neg hab, ind_neg hba]
        have := hd u; have := hd v
        revert this
        cases S u <;> cases S v <;> cases T u <;> cases T v <;> simp [ind]
  rw [wsum_add, wsum_add, wsum_add, hp a b ha hb, hp b a hb ha, hw b a] at h5
  omega

namespace MGraph

/-- Weight from `v` to the vertices that are not on the side `b` of `X`. -/
def star (g : MGraph) (v : Nat) (X : Nat → Bool) (b : Bool) : Nat := rowSum g (fun t w => if X t = b then 0 else w) v

theorem sum_W {g : MGraph} (hg : Valid g) {v : Nat} (hv : v < g.n) (p : Nat → Prop) [DecidablePred p] :
    ∑ t ∈ range g.n, (if p t then g.W v t else 0) = rowSum g (fun t w => if p t then w else 0) v := by
  unfold W rowSum
  have e1 : ∀ t, (if p t then ∑ e ∈ range (g.len v), (if (g.edge v e).target = t then (g.edge v e).weight else 0) else 0)
      = ∑ e ∈ range (g.len v), (if (g.edge v e).target = t then (if p (g.edge v e).target then (g.edge v e).weight else 0) else 0) := by
    intro t
    split
    · rename_i hc
      refine Finset.sum_congr rfl fun e _ => ?_
      by_cases hev : (g.edge v e).target = t
      · rw [if_pos hev, if_pos hev, hev, if_pos hc]
      · rw [if_neg hev, if_neg hev]
    · rename_i hc
      symm
      refine Finset.sum_eq_zero fun e _ => ?_
      by_cases hev : (g.edge v e).target = t
      · rw [if_pos hev, hev, if_neg hc]
      · rw [if_neg hev]
  rw [Finset.sum_congr rfl fun t _ => e1 t, Finset.sum_comm]
  refine Finset.sum_congr rfl fun e he => ?_
  rw [Finset.sum_ite_eq, if_pos (mem_range.2 ((valid_iff.1 hg).1 v e hv (mem_range.1 he)).1)]

theorem star_W {g : MGraph} (hg : Valid g) {v : Nat} (hv : v < g.n) (X : Nat → Bool) (b : Bool) :
    star g v X b = ∑ t ∈ range g.n, if X t ≠ b then g.W v t else 0 := by
  rw [sum_W hg hv (fun t => X t ≠ b)]
  unfold star rowSum
  refine Finset.sum_congr rfl fun e _ => ?_
  dsimp only
  by_cases h : X (g.edge v e).target = b
  · rw [if_pos h, if_neg (fun hh => hh h)]
  · rw [if_neg h, if_pos h]

theorem star_le {g : MGraph} (hg : Valid g) {v : Nat} (hv : v < g.n) (X : Nat → Bool) : star g v X (X v) ≤ g.cv X := by
  have key : ∀ X : Nat → Bool, X v = true → star g v X true ≤ g.cv X := by
    intro X hX
    rw [star_W hg hv, cv_W]
    unfold cutValue
    refine le_trans ?_ (Finset.single_le_sum (f := fun u => ∑ t ∈ range g.n, if X u = true ∧ X t = false then g.W u t else 0)
      (fun _ _ => Nat.zero_le _) (mem_range.2 hv))
    refine Finset.sum_le_sum fun t _ => ?_
    rw [hX]
    cases X t <;> simp
  cases hX : X v
  · have h1 := key (fun x => !X x) (by simp [hX])
    have h2 : g.cv (fun x => !X x) = g.cv X := by
      exact cutValue_compl hg.wf.wt_symm X
    have h3 : star g v (fun x => !X x) true = star g v X false := by
      unfold star rowSum
      refine Finset.sum_congr rfl fun e _ => ?_
      dsimp only
      by_cases hx : X (g.edge v e).target = false
      · simp [hx]
      · rw [Bool.not_eq_false] at hx; simp [hx]
    omega
  · exact key X hX

theorem star_compl {g : MGraph} (v : Nat) (X : Nat → Bool) (b : Bool) :
    star g v X b + star g v X (!b) = rowSum g (fun _ w => w) v := by
  unfold star rowSum
  rw [← Finset.sum_add_distrib]
  refine Finset.sum_congr rfl fun e _ => ?_
  dsimp only
  cases X (g.edge v e).target <;> cases b <;> simp

theorem star_flip {g : MGraph} (hg : Valid g) {v : Nat} (hv : v < g.n) (X : Nat → Bool) :
    g.cv (update X v (!X v)) + star g v X (X v) = g.cv X + star g v X (!X v) := by
  have hf := cut_flip hg.wf X (u := v) (by rw [toGraph_n]; exact hv)
  have hcr : crossing g.toGraph X v = star g v X (X v) := by
    rw [star_W hg hv]
    unfold crossing
    rw [toGraph_n]
    refine Finset.sum_congr rfl fun t _ => ?_
    rw [toGraph_wt g hv]
  have hd : g.toGraph.deg v = star g v X (X v) + star g v X (!X v) := by rw [star_compl, toGraph_deg g hv]
  rw [hcr, hd, toGraph_n] at hf
  unfold cv
  omega

/-- The edges to vertices of a list without repetitions are part of a cut that separates them from `v`. -/
theorem sum_le_cv {g : MGraph} (hg : Valid g) {v : Nat} (hv : v < g.n) (X : Nat → Bool) (L : List Nat) (hL : L.Nodup)
    (hlt : ∀ t ∈ L, t < g.n) (hne : ∀ t ∈ L, X t ≠ X v) : (L.map (g.W v)).sum ≤ g.cv X := by
  refine le_trans ?_ (star_le hg hv X)
  rw [star_W hg hv, ← List.sum_toFinset _ hL]
  refine le_trans (le_of_eq ?_) (Finset.sum_le_sum_of_subset (s := L.toFinset) (t := range g.n) ?_)
  · refine Finset.sum_congr rfl fun t ht => ?_
    rw [if_pos (hne t (List.mem_toFinset.1 ht))]
  · intro t ht
    exact mem_range.2 (hlt t (List.mem_toFinset.1 ht))

/-- One edge that does not lead to `v`. -/
def StepAvoiding (g : MGraph) (v a b : Nat) : Prop := a < g.n ∧ b ∈ GraphModification.targets g a ∧ b ≠ v

/-- A cut of weight `c` has `p` and `q` on the side without `v`. -/
def SameSide (g : MGraph) (v c p q : Nat) : Prop := ∃ X, g.cv X = c ∧ X v = false ∧ X p = true ∧ X q = true

theorem SameSide.symm {g : MGraph} {v c p q : Nat} (h : SameSide g v c p q) : SameSide g v c q p := by
  obtain ⟨X, x1, x2, x3, x4⟩ := h
  exact ⟨X, x1, x2, x4, x3⟩

end MGraph

namespace CactusOf
variable {E : Nat → Prop} {P : (Nat → Bool) → Prop} {C : MGraph} {c : Nat}

theorem wt_symm (h : CactusOf E P C c) : ∀ u v, C.toGraph.wt u v = C.toGraph.wt v u := h.valid.wf.wt_symm

/-- An edge between `a` and `b` has weight at least `c / 2`. -/
theorem half_le (h : CactusOf E P C c) {a b : Nat} (ha : a < C.n) (hab : b ∈ GraphModification.targets C a) : c ≤ 2 * C.W a b ∧ b < C.n := by
  unfold GraphModification.targets at hab
  rw [List.mem_map] at hab
  obtain ⟨e, he, rfl⟩ := hab
  have he := List.mem_range.1 he
  rw [edge_weight_W h.simp0 h.valid ha he]
  refine ⟨?_, ((valid_iff.1 h.valid).1 a e ha he).1⟩
  rcases h.weights a e ha he with h1 | h1 <;> omega

/-- Two cuts of weight `c` that leave `v` out and meet. -/
theorem join (h : CactusOf E P C c) {v : Nat} (hv : v < C.n) {X Z : Nat → Bool} (hX : C.cv X = c) (hZ : C.cv Z = c)
    (hXv : X v = false) (hZv : Z v = false) {a : Nat} (ha : a < C.n) (hXa : X a = true) (hZa : Z a = true) :
    C.cv (fun x => X x || Z x) = c := by
  have hs := cutValue_submodular (n := C.n) h.wt_symm X Z
  have h1 := h.least (fun x => X x && Z x) ⟨⟨a, ha, by simp [hXa, hZa]⟩, ⟨v, hv, by simp [hXv]⟩⟩
  have h2 := h.least (fun x => X x || Z x) ⟨⟨a, ha, by simp [hXa]⟩, ⟨v, hv, by simp [hXv, hZv]⟩⟩
  unfold MGraph.cv at *
  omega

/-- Two cuts of weight `c` that leave `v` out and have an edge between them. -/
theorem join_edge (h : CactusOf E P C c) {v : Nat} (hv : v < C.n) {X Z : Nat → Bool} (hX : C.cv X = c) (hZ : C.cv Z = c)
    (hXv : X v = false) (hZv : Z v = false) {a b : Nat} (ha : a < C.n) (hab : b ∈ GraphModification.targets C a) (hXa : X a = true)
    (hZb : Z b = true) : C.cv (fun x => X x || Z x) = c := by
  obtain ⟨hw, hb⟩ := h.half_le ha hab
  by_cases hd : ∃ x, x < C.n ∧ X x = true ∧ Z x = true
  · obtain ⟨x, hx, h1, h2⟩ := hd
    exact h.join hv hX hZ hXv hZv hx h1 h2
  · push Not at hd
    let Z' : Nat → Bool := fun x => if x < C.n then Z x else false
    have hZ' : C.cv Z' = c := by
      rw [← hZ]; exact cutValue_congr fun u hu => if_pos hu
    have hdis : ∀ x, X x = true → Z' x = false := by
      intro x hx
      show (if x < C.n then Z x else false) = false
      split
      · rename_i hl
        have := hd x hl hx
        simpa using this
      · rfl
    have hU := cutValue_union_edge (n := C.n) h.wt_symm X Z' hdis ha hb hXa (show Z' b = true by rw [← hZb]; exact if_pos hb)
    have hE : C.cv (fun x => X x || Z' x) = C.cv (fun x => X x || Z x) :=
      cutValue_congr fun u hu => by
        show (X u || (if u < C.n then Z u else false)) = (X u || Z u)
        rw [if_pos hu]
    have h2 := h.least (fun x => X x || Z x) ⟨⟨a, ha, by simp [hXa]⟩, ⟨v, hv, by simp [hXv, hZv]⟩⟩
    rw [toGraph_wt C ha] at hU
    unfold MGraph.cv at *
    omega

theorem joined_trans (h : CactusOf E P C c) {v p q r : Nat} (hv : v < C.n) (hq : q < C.n) (h1 : SameSide C v c p q) (h2 : SameSide C v c q r) :
    SameSide C v c p r := by
  obtain ⟨X, x1, x2, x3, x4⟩ := h1
  obtain ⟨Z, z1, z2, z3, z4⟩ := h2
  exact ⟨_, h.join hv x1 z1 x2 z2 hq x4 z3, by simp [x2, z2], by simp [x3], by simp [z4]⟩

theorem joined_of_reach (h : CactusOf E P C c) {v p q : Nat} (hv : v < C.n) (hp : p < C.n) (hpv : p ≠ v)
    (hr : Relation.ReflTransGen (StepAvoiding C v) p q) : q < C.n ∧ q ≠ v ∧ SameSide C v c p q := by
  induction hr with
  | refl =>
    obtain ⟨X, x1, x2, x3⟩ := h.separating p v hp hv hpv
    exact ⟨hp, hpv, X, x3, x2, x1, x1⟩
  | tail _ hs ih =>
    obtain ⟨k1, _, X, x1, x2, x3, x4⟩ := ih
    obtain ⟨s1, s2, s3⟩ := hs
    have hb := (h.half_le k1 s2).2
    obtain ⟨Z, z1, z2, z3⟩ := h.separating _ v hb hv s3
    exact ⟨hb, s3, _, h.join_edge hv x1 z3 x2 z2 k1 s2 x4 z1, by simp [x2, z2], by simp [x3], by simp [z1]⟩

/-- The edges from `v` to vertices on the other side of one cut of weight `c`. -/
theorem joined_le (h : CactusOf E P C c) {v p q : Nat} (hv : v < C.n) (hp : p < C.n) (hq : q < C.n) (hpq : p ≠ q) (hj : SameSide C v c p q) :
    C.W v p + C.W v q ≤ c := by
  obtain ⟨X, x1, x2, x3, x4⟩ := hj
  have := sum_le_cv h.valid hv X [p, q] (by simp [hpq]) (by simp [hp, hq]) (by simp [x2, x3, x4])
  simpa [x1] using this

theorem joined_le3 (h : CactusOf E P C c) {v p q r : Nat} (hv : v < C.n) (hp : p < C.n) (hq : q < C.n) (hr : r < C.n) (hpq : p ≠ q)
    (hpr : p ≠ r) (hqr : q ≠ r) (h1 : SameSide C v c p q) (h2 : SameSide C v c q r) : C.W v p + C.W v q + C.W v r ≤ c := by
  obtain ⟨X, x1, x2, x3, x4⟩ := h1
  obtain ⟨Z, z1, z2, z3, z4⟩ := h2
  have := sum_le_cv h.valid hv (fun x => X x || Z x) [p, q, r] (by simp [hpq, hpr, hqr]) (by simp [hp, hq, hr]) (by simp [x2, z2, x3, x4, z4])
  rw [h.join hv x1 z1 x2 z2 hq x4 z3] at this
  simp at this
  omega

/-- From a vertex next to `v` over an edge of weight below `c` another one can be reached without `v`. -/
theorem partner (h : CactusOf E P C c) {v p : Nat} (hv : v < C.n) (hp : p < C.n) (hpv : p ≠ v) (hw : C.W v p < c) :
    ∃ q, q < C.n ∧ q ≠ p ∧ C.W v q ≠ 0 ∧ Relation.ReflTransGen (StepAvoiding C v) p q := by
  classical
  by_contra hno
  push Not at hno
  let R : Nat → Bool := fun x => decide (Relation.ReflTransGen (StepAvoiding C v) p x)
  have hRp : R p = true := decide_eq_true Relation.ReflTransGen.refl
  have hRv : R v = false := by
    refine decide_eq_false fun hh => ?_
    exact (h.joined_of_reach hv hp hpv hh).2.1 rfl
  have hle := h.least R ⟨⟨p, hp, hRp⟩, ⟨v, hv, hRv⟩⟩
  have hcv : C.cv R = C.W v p := by
    rw [cv_W]
    unfold cutValue
    have hz : ∀ u t, u < C.n → t < C.n → R u = true → R t = false → t ≠ v → C.W u t = 0 := by
      intro u t hu ht h1 h2 h3
      by_contra hW
      have hcn := cnt_pos_of_W hW
      obtain ⟨b, hb, he⟩ := exists_edge_of_cnt hcn
      refine of_decide_eq_false h2 ((of_decide_eq_true h1).tail ⟨hu, ?_, h3⟩)
      unfold GraphModification.targets
      rw [List.mem_map]
      exact ⟨b, List.mem_range.2 hb, he⟩
    rw [Finset.sum_eq_single p, Finset.sum_eq_single v]
    · rw [if_pos ⟨hRp, hRv⟩]
      exact h.valid.W_symm hp (by simp) hv (by simp)
    · intro t ht htv
      refine ite_zero_of fun hh => hz p t hp (mem_range.1 ht) hh.1 hh.2 htv
    · intro hh; exact absurd (mem_range.2 hv) hh
    · intro u hu hup
      refine Finset.sum_eq_zero fun t ht => ?_
      refine ite_zero_of fun hh => ?_
      by_cases htv : t = v
      · rw [htv]
        by_contra hW
        refine hno u (mem_range.1 hu) hup ?_ (of_decide_eq_true hh.1)
        rwa [h.valid.W_symm hv (by simp) (mem_range.1 hu) (by simp)]
      · exact hz u t (mem_range.1 hu) (mem_range.1 ht) hh.1 hh.2 htv
    · intro hh; exact absurd (mem_range.2 hp) hh
  unfold MGraph.cv at hcv
  omega

end CactusOf
end VieCut
