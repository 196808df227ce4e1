import Verif.Spec.Multiterminal
import Verif.Spec.Contraction
import Verif.Proof.Cut

namespace VieCut
open Finset

/-! ### Weighted sums over ordered pairs -/

/-- Sum of `a u v * w u v` over all ordered pairs. -/
def wsum (n : Nat) (w : Nat → Nat → Nat) (a : Nat → Nat → Nat) : Nat :=
  ∑ u ∈ range n, ∑ v ∈ range n, a u v * w u v

/-- Indicator. -/
noncomputable def ind (P : Prop) : Nat := by classical exact if P then 1 else 0

theorem ind_pos {P : Prop} (h : P) : ind P = 1 := by simp [ind, h]
theorem ind_neg {P : Prop} (h : ¬ P) : ind P = 0 := by simp [ind, h]
theorem ind_le_one (P : Prop) : ind P ≤ 1 := by unfold ind; split <;> simp
theorem ind_congr {P Q : Prop} (h : P ↔ Q) : ind P = ind Q := by rw [propext h]
theorem ind_mono {P Q : Prop} (h : P → Q) : ind P ≤ ind Q := by
  by_cases p : P
  · rw [ind_pos p, ind_pos (h p)]
  · rw [ind_neg p]; exact Nat.zero_le _

variable {n : Nat} {w : Nat → Nat → Nat}

theorem wsum_add (a b : Nat → Nat → Nat) : wsum n w (fun u v => a u v + b u v) = wsum n w a + wsum n w b := by
  simp only [wsum, add_mul, Finset.sum_add_distrib]

theorem wsum_mono {a b : Nat → Nat → Nat} (h : ∀ u v, u < n → v < n → a u v ≤ b u v) : wsum n w a ≤ wsum n w b :=
  Finset.sum_le_sum fun u hu => Finset.sum_le_sum fun v hv =>
    Nat.mul_le_mul_right _ (h u v (Finset.mem_range.1 hu) (Finset.mem_range.1 hv))

theorem wsum_congr {a b : Nat → Nat → Nat} (h : ∀ u v, u < n → v < n → a u v = b u v) : wsum n w a = wsum n w b :=
  Finset.sum_congr rfl fun u hu => Finset.sum_congr rfl fun v hv => by
    rw [h u v (Finset.mem_range.1 hu) (Finset.mem_range.1 hv)]

theorem wsum_swap (hw : ∀ u v, w u v = w v u) (a : Nat → Nat → Nat) : wsum n w (fun u v => a v u) = wsum n w a := by
  unfold wsum
  rw [Finset.sum_comm]
  exact Finset.sum_congr rfl fun u _ => Finset.sum_congr rfl fun v _ => by rw [hw v u]

theorem cutValue_eq_wsum (S : Nat → Bool) : cutValue n w S = wsum n w (fun u v => ind (S u = true ∧ S v = false)) := by
  unfold cutValue wsum
  refine Finset.sum_congr rfl fun u _ => Finset.sum_congr rfl fun v _ => ?_
  by_cases h : S u = true ∧ S v = false
  all_goals dsimp only
  · rw [if_pos h, ind_pos h, one_mul]
  · rw [if_neg h, ind_neg h, zero_mul]

/-- Weight of the ordered pairs with different labels: twice the multicut value. -/
theorem two_multicut (hw : ∀ u v, w u v = w v u) (f : Nat → Nat) :
    wsum n w (fun u v => ind (f u ≠ f v)) = 2 * multicutValue n w f := by
  unfold wsum multicutValue
  induction n with
  | zero => simp
  | succ k ih =>
    rw [Finset.sum_range_succ, Finset.sum_range_succ (fun v => ∑ u ∈ range v, _)]
    have h1 : ∀ u ∈ range k, ∑ v ∈ range (k + 1), ind (f u ≠ f v) * w u v =
        (∑ v ∈ range k, ind (f u ≠ f v) * w u v) + ind (f u ≠ f k) * w u k := fun u _ => Finset.sum_range_succ _ _
    rw [Finset.sum_congr rfl h1, Finset.sum_add_distrib, ih, Finset.sum_range_succ]
    have h2 : ∑ u ∈ range k, ind (f u ≠ f k) * w u k = ∑ u ∈ range k, if f u ≠ f k then w u k else 0 := by
      refine Finset.sum_congr rfl fun u _ => ?_
      by_cases h : f u ≠ f k
      · rw [if_pos h, ind_pos h, one_mul]
      · rw [if_neg h, ind_neg h, zero_mul]
    have h3 : ∑ v ∈ range k, ind (f k ≠ f v) * w k v = ∑ u ∈ range k, if f u ≠ f k then w u k else 0 := by
      rw [← h2]
      refine Finset.sum_congr rfl fun u _ => ?_
      rw [hw k u, ind_congr (show f k ≠ f u ↔ f u ≠ f k from ne_comm)]
    have h4 : ind (f k ≠ f k) = 0 := ind_neg (by simp)
    dsimp only
    rw [h2, h3, h4]
    omega

theorem multicut_le_of (hw : ∀ u v, w u v = w v u) {f g : Nat → Nat} {a b : Nat → Nat → Nat}
    (h : ∀ u v, u < n → v < n → ind (f u ≠ f v) + (a u v + a v u) ≤ ind (g u ≠ g v) + (b u v + b v u))
    (hab : wsum n w b ≤ wsum n w a) : multicutValue n w f ≤ multicutValue n w g := by
  have h1 := wsum_mono (w := w) h
  rw [wsum_add, wsum_add, wsum_add, wsum_add, two_multicut hw, two_multicut hw, wsum_swap hw a, wsum_swap hw b] at h1
  omega

theorem multicut_congr {f g : Nat → Nat} (h : ∀ u v, u < n → v < n → (f u = f v ↔ g u = g v)) :
    multicutValue n w f = multicutValue n w g := by
  unfold multicutValue
  refine Finset.sum_congr rfl fun v hv => Finset.sum_congr rfl fun u hu => ?_
  have hv' := Finset.mem_range.1 hv
  have hu' := Finset.mem_range.1 hu
  have := h u v (by omega) hv'
  by_cases c : f u = f v
  · rw [if_neg (by simp [c]), if_neg (by simp [this.1 c])]
  · rw [if_pos c, if_pos (fun e => c (this.2 e))]

/-- Merging two labels never makes a solution heavier. -/
theorem multicut_mono {f g : Nat → Nat} (h : ∀ u v, u < n → v < n → g u = g v → f u = f v) :
    multicutValue n w f ≤ multicutValue n w g := by
  unfold multicutValue
  refine Finset.sum_le_sum fun v hv => Finset.sum_le_sum fun u hu => ?_
  have hv' := Finset.mem_range.1 hv
  have hu' := Finset.mem_range.1 hu
  by_cases c : g u = g v
  · rw [if_neg (fun e => e (h u v (by omega) hv' c)), if_neg (fun e => e c)]
  · rw [if_pos c]; split <;> omega

/-! ### Relabelling a set -/

/-- Give all vertices of `S` the label `l`. -/
noncomputable def relabel (f : Nat → Nat) (S : Nat → Prop) (l : Nat) : Nat → Nat := by
  classical exact fun x => if S x then l else f x

theorem relabel_in {f : Nat → Nat} {S : Nat → Prop} {l x : Nat} (h : S x) : relabel f S l x = l := by simp [relabel, h]
theorem relabel_out {f : Nat → Nat} {S : Nat → Prop} {l x : Nat} (h : ¬ S x) : relabel f S l x = f x := by
  simp [relabel, h]

/-- Weight of the ordered pairs from `A` to `B`. -/
noncomputable def btw (n : Nat) (w : Nat → Nat → Nat) (A B : Nat → Prop) : Nat := wsum n w (fun u v => ind (A u ∧ B v))

theorem btw_mono {A A' B B' : Nat → Prop} (hA : ∀ x, x < n → A x → A' x) (hB : ∀ x, x < n → B x → B' x) :
    btw n w A B ≤ btw n w A' B' := wsum_mono fun u v hu hv => ind_mono fun h => ⟨hA u hu h.1, hB v hv h.2⟩

theorem btw_congr {A A' B B' : Nat → Prop} (hA : ∀ x, x < n → (A x ↔ A' x)) (hB : ∀ x, x < n → (B x ↔ B' x)) :
    btw n w A B = btw n w A' B' := wsum_congr fun u v hu hv => ind_congr (by rw [hA u hu, hB v hv])

theorem btw_swap (hw : ∀ u v, w u v = w v u) (A B : Nat → Prop) : btw n w A B = btw n w B A := by
  unfold btw
  rw [← wsum_swap hw]
  exact wsum_congr fun u v _ _ => ind_congr And.comm

/-- Splitting the second set. -/
theorem btw_split_right (A B P : Nat → Prop) :
    btw n w A B = btw n w A (fun x => B x ∧ P x) + btw n w A (fun x => B x ∧ ¬ P x) := by
  unfold btw
  rw [← wsum_add]
  refine wsum_congr fun u v _ _ => ?_
  by_cases a : A u <;> by_cases b : B v <;> by_cases p : P v <;> simp [ind, a, b, p]

theorem btw_split_left (A B P : Nat → Prop) :
    btw n w A B = btw n w (fun x => A x ∧ P x) B + btw n w (fun x => A x ∧ ¬ P x) B := by
  unfold btw
  rw [← wsum_add]
  refine wsum_congr fun u v _ _ => ?_
  by_cases a : A u <;> by_cases b : B v <;> by_cases p : P u <;> simp [ind, a, b, p]

/-- Moving `S` to label `l` does not increase the value if the edges from `S` to the label weigh at least as much as the
edges from `S` to the vertices outside `S` that share a label with the end point in `S`. -/
theorem relabel_le (hw : ∀ u v, w u v = w v u) {f : Nat → Nat} {S : Nat → Prop} {l : Nat}
    (h : wsum n w (fun u v => ind (S u ∧ ¬ S v ∧ f u ≠ l ∧ f u = f v)) ≤
      wsum n w (fun u v => ind (S u ∧ f u ≠ l ∧ ¬ S v ∧ f v = l)) + wsum n w (fun u v => ind (S u ∧ S v ∧ f u = l ∧ f v ≠ l))) :
    multicutValue n w (relabel f S l) ≤ multicutValue n w f := by
  rw [← wsum_add] at h
  refine multicut_le_of hw (a := fun u v => ind (S u ∧ f u ≠ l ∧ ¬ S v ∧ f v = l) + ind (S u ∧ S v ∧ f u = l ∧ f v ≠ l))
    (b := fun u v => ind (S u ∧ ¬ S v ∧ f u ≠ l ∧ f u = f v)) ?_ h
  intro u v _ _
  by_cases su : S u <;> by_cases sv : S v
  · rw [relabel_in su, relabel_in sv]
    by_cases a : f u = l <;> by_cases b : f v = l <;> by_cases c : f u = f v <;> simp_all [ind, eq_comm]
  · rw [relabel_in su, relabel_out sv]
    by_cases a : f u = l <;> by_cases b : f v = l <;> by_cases c : f u = f v <;> simp_all [ind, eq_comm]
  · rw [relabel_out su, relabel_in sv]
    by_cases a : f u = l <;> by_cases b : f v = l <;> by_cases c : f u = f v <;> simp_all [ind, eq_comm]
  · rw [relabel_out su, relabel_out sv]
    simp [ind, su, sv]

theorem separates_relabel {ts : List Nat} {f : Nat → Nat} (hf : Separates ts f) {S : Nat → Prop} {l : Nat}
    (h : ∀ t ∈ ts, S t → f t = l) : Separates ts (relabel f S l) := by
  have e : ∀ t ∈ ts, relabel f S l t = f t := by
    intro t ht
    by_cases s : S t
    · rw [relabel_in s, h t ht s]
    · rw [relabel_out s]
  intro s hs t ht hst
  rw [e s hs, e t ht]
  exact hf s hs t ht hst

/-! ### Merging classes one by one -/

/-- The classes after joining the classes of `a` and `b`. -/
def Joined (c c' : Nat → Nat) (a b : Nat) : Prop :=
  ∀ x y, c' x = c' y ↔ c x = c y ∨ (c x = c a ∧ c y = c b) ∨ (c x = c b ∧ c y = c a)

theorem MergeSafe.refl {ts : List Nat} {c : Nat → Nat} (h : ∀ u v, u < n → v < n → c u = c v → u = v) :
    MergeSafe n w ts c := fun f hf => ⟨f, hf, le_refl _, fun u v hu hv e => by rw [h u v hu hv e]⟩

theorem MergeSafe.mono {ts : List Nat} {c c' : Nat → Nat} (h : MergeSafe n w ts c)
    (hc : ∀ u v, u < n → v < n → c' u = c' v → c u = c v) : MergeSafe n w ts c' := by
  intro f hf
  obtain ⟨f', h1, h2, h3⟩ := h f hf
  exact ⟨f', h1, h2, fun u v hu hv e => h3 u v hu hv (hc u v hu hv e)⟩

/-- The class of `a`, free of terminals, may join the class of `b` if moving it there never makes a solution heavier. -/
theorem MergeSafe.join {ts : List Nat} {c c' : Nat → Nat} {a b : Nat} (h : MergeSafe n w ts c) (ha : a < n) (hb : b < n)
    (hj : Joined c c' a b) (hT : ∀ t ∈ ts, c t ≠ c a)
    (hmove : ∀ f, Separates ts f → (∀ u v, u < n → v < n → c u = c v → f u = f v) → f a ≠ f b →
      multicutValue n w (relabel f (fun x => c x = c a) (f b)) ≤ multicutValue n w f) :
    MergeSafe n w ts c' := by
  intro f hf
  obtain ⟨f1, h1, h2, h3⟩ := h f hf
  by_cases e : f1 a = f1 b
  · refine ⟨f1, h1, h2, fun u v hu hv he => ?_⟩
    rcases (hj u v).1 he with e1 | ⟨e1, e2⟩ | ⟨e1, e2⟩
    · exact h3 u v hu hv e1
    · rw [h3 u a hu ha e1, h3 v b hv hb e2, e]
    · rw [h3 u b hu hb e1, h3 v a hv ha e2, e]
  · refine ⟨_, separates_relabel h1 (fun t ht s => absurd s (hT t ht)), le_trans (hmove f1 h1 h3 e) h2, ?_⟩
    have hba : c b ≠ c a := fun e' => e (h3 a b ha hb e'.symm)
    have hin : ∀ x, c x = c a → relabel f1 (fun t => c t = c a) (f1 b) x = f1 b :=
      fun x hx => relabel_in (S := fun t => c t = c a) hx
    have hout : ∀ x, ¬ c x = c a → relabel f1 (fun t => c t = c a) (f1 b) x = f1 x :=
      fun x hx => relabel_out (S := fun t => c t = c a) hx
    intro u v hu hv he
    rcases (hj u v).1 he with e1 | ⟨e1, e2⟩ | ⟨e1, e2⟩
    · by_cases s : c u = c a
      · rw [hin u s, hin v (e1 ▸ s)]
      · rw [hout u s, hout v (e1 ▸ s), h3 u v hu hv e1]
    · rw [hin u e1, hout v (by rw [e2]; exact hba), h3 v b hv hb e2]
    · rw [hin v e2, hout u (by rw [e1]; exact hba), h3 u b hu hb e1]

/-- The weight of the edges leaving a class. -/
noncomputable def leave (n : Nat) (w : Nat → Nat → Nat) (C : Nat → Prop) : Nat := btw n w C (fun x => ¬ C x)

/-- Heavy-edge rule: half of the edges leaving the class of `a` lead to the class of `b`. -/
theorem MergeSafe.join_heavy (hw : ∀ u v, w u v = w v u) {ts : List Nat} {c c' : Nat → Nat} {a b : Nat}
    (h : MergeSafe n w ts c) (ha : a < n) (hb : b < n) (hj : Joined c c' a b) (hT : ∀ t ∈ ts, c t ≠ c a)
    (hheavy : leave n w (fun x => c x = c a) ≤ 2 * btw n w (fun x => c x = c a) (fun x => c x = c b)) :
    MergeSafe n w ts c' := by
  refine h.join ha hb hj hT ?_
  intro f hf hc hab
  have hba : c b ≠ c a := fun e' => hab (hc a b ha hb e'.symm)
  refine relabel_le hw ?_
  have e1 : wsum n w (fun u v => ind (c u = c a ∧ ¬ c v = c a ∧ f u ≠ f b ∧ f u = f v)) +
      btw n w (fun x => c x = c a) (fun x => c x = c b) ≤ leave n w (fun x => c x = c a) := by
    unfold leave btw
    rw [← wsum_add]
    refine wsum_mono fun u v hu hv => ?_
    by_cases h1 : c u = c a
    · by_cases h2 : c v = c a
      · have : ¬ c v = c b := by rw [h2]; exact Ne.symm hba
        simp [ind, h2, Ne.symm hba]
      · by_cases h3 : c v = c b
        · have h4 := hc v b hv hb h3
          have h5 := hc u a hu ha h1
          have : ¬ f a = f v := by rw [h4]; exact hab
          simp [ind, h1, h3, h5, this, hba]
        · simp only [ind, h1, h2, h3, true_and, and_false, if_false, not_false_eq_true, Nat.add_zero, and_true]
          split <;> simp
    · simp [ind, h1]
  have e2 : btw n w (fun x => c x = c a) (fun x => c x = c b) ≤
      wsum n w (fun u v => ind (c u = c a ∧ f u ≠ f b ∧ ¬ c v = c a ∧ f v = f b)) := by
    refine wsum_mono fun u v hu hv => ind_mono fun hh => ?_
    refine ⟨hh.1, ?_, ?_, hc v b hv hb hh.2⟩
    · rw [hc u a hu ha hh.1]; exact hab
    · rw [hh.2]; exact hba
  omega

/-! ### Vertices that have not chosen a partner yet -/

/-- Invariant of the passes that let every vertex choose at most one partner: `K` are the vertices that have not chosen.
Each of them is alone in its class, apart from vertices that joined it; the class contains no terminal and the edges
leaving it at the joined vertices weigh at most as much as the edges between the joined vertices and the vertex. -/
structure Sinks (n : Nat) (w : Nat → Nat → Nat) (ts : List Nat) (K : Nat → Prop) (c : Nat → Nat) : Prop where
  safe : MergeSafe n w ts c
  lt : ∀ v, K v → v < n
  lone : ∀ u v, K u → K v → c u = c v → u = v
  free : ∀ v, K v → ∀ t ∈ ts, c t ≠ c v
  bound : ∀ v, K v → btw n w (fun x => c x = c v ∧ x ≠ v) (fun x => c x ≠ c v) ≤
    btw n w (fun x => x = v) (fun x => c x = c v ∧ x ≠ v)

theorem Sinks.init {ts : List Nat} {K : Nat → Prop} {c : Nat → Nat} (hlt : ∀ v, K v → v < n)
    (hc : ∀ u v, c u = c v → u = v) (hT : ∀ v, K v → v ∉ ts) : Sinks n w ts K c := by
  refine ⟨MergeSafe.refl fun u v _ _ e => hc u v e, hlt, fun u v _ _ e => hc u v e, ?_, ?_⟩
  · intro v hv t ht e
    exact hT v hv (hc t v e ▸ ht)
  · intro v _
    refine le_trans (le_of_eq ?_) (Nat.zero_le _)
    unfold btw wsum
    refine Finset.sum_eq_zero fun x _ => Finset.sum_eq_zero fun y _ => ?_
    dsimp only
    rw [ind_neg, Nat.zero_mul]
    rintro ⟨⟨h1, h2⟩, _⟩
    exact h2 (hc _ _ h1)

theorem Sinks.mono {ts : List Nat} {K K' : Nat → Prop} {c : Nat → Nat} (h : Sinks n w ts K c) (hK : ∀ v, K' v → K v) :
    Sinks n w ts K' c :=
  ⟨h.safe, fun v hv => h.lt v (hK v hv), fun u v hu hv => h.lone u v (hK u hu) (hK v hv),
    fun v hv => h.free v (hK v hv), fun v hv => h.bound v (hK v hv)⟩

/-- The edges leaving the class of an open vertex weigh at most its degree. -/
theorem Sinks.leave_le {ts : List Nat} {K : Nat → Prop} {c : Nat → Nat} (h : Sinks n w ts K c) {v : Nat} (hv : K v) :
    leave n w (fun x => c x = c v) ≤ btw n w (fun x => x = v) (fun x => x ≠ v) := by
  have h1 := h.bound v hv
  have h2 := btw_split_left (n := n) (w := w) (fun x => c x = c v) (fun x => ¬ c x = c v) (fun x => x ≠ v)
  have h3 := btw_split_right (n := n) (w := w) (fun x => x = v) (fun x => x ≠ v) (fun x => c x = c v)
  have e1 : btw n w (fun x => c x = c v ∧ ¬ x ≠ v) (fun x => ¬ c x = c v) =
      btw n w (fun x => x = v) (fun x => x ≠ v ∧ ¬ c x = c v) := by
    refine btw_congr (fun x _ => ?_) (fun x _ => ?_)
    · constructor
      · intro hh; exact not_not.1 hh.2
      · intro hh; rw [hh]; simp
    · constructor
      · intro hh; exact ⟨fun e => hh (by rw [e]), hh⟩
      · intro hh; exact hh.2
  have e2 : btw n w (fun x => x = v) (fun x => x ≠ v ∧ c x = c v) =
      btw n w (fun x => x = v) (fun x => c x = c v ∧ x ≠ v) := btw_congr (fun _ _ => Iff.rfl) (fun _ _ => And.comm)
  unfold leave
  rw [h2, h3, e1, e2]
  have h1' : btw n w (fun x => c x = c v ∧ x ≠ v) (fun x => ¬ c x = c v) ≤
    btw n w (fun x => x = v) (fun x => c x = c v ∧ x ≠ v) := h1
  omega

/-- Vertex `a` joins the class of `b`. -/
theorem Sinks.join (hw : ∀ u v, w u v = w v u) {ts : List Nat} {K : Nat → Prop} {c c' : Nat → Nat} {a b : Nat}
    (h : Sinks n w ts K c) (ha : K a) (hj : Joined c c' a b) (hsafe : MergeSafe n w ts c')
    (hh : ∀ v, K v → v ≠ a → c v = c b →
      leave n w (fun x => c x = c a) ≤ 2 * btw n w (fun x => c x = c a) (fun x => c x = c b)) :
    Sinks n w ts (fun v => K v ∧ v ≠ a) c' := by
  have hne : ∀ v, K v ∧ v ≠ a → c v ≠ c a := fun v hv e => hv.2 (h.lone v a hv.1 ha e)
  -- the class of an open vertex, depending on whether `b` belongs to it
  have hcls : ∀ v, K v ∧ v ≠ a → c v ≠ c b → ∀ x, c' x = c' v ↔ c x = c v := by
    intro v hv hvb x
    rw [hj]
    constructor
    · rintro (e | ⟨_, e⟩ | ⟨_, e⟩)
      · exact e
      · exact absurd e hvb
      · exact absurd e (hne v hv)
    · exact Or.inl
  have hclsb : ∀ v, K v ∧ v ≠ a → c v = c b → ∀ x, c' x = c' v ↔ c x = c v ∨ c x = c a := by
    intro v hv hvb x
    rw [hj]
    constructor
    · rintro (e | ⟨e, _⟩ | ⟨e, e'⟩)
      · exact Or.inl e
      · exact Or.inr e
      · exact Or.inl (e.trans hvb.symm)
    · rintro (e | e)
      · exact Or.inl e
      · exact Or.inr (Or.inl ⟨e, hvb⟩)
  refine ⟨hsafe, fun v hv => h.lt v hv.1, ?_, ?_, ?_⟩
  · intro u v hu hv e
    by_cases hvb : c v = c b
    · rcases (hclsb v hv hvb u).1 e with e | e
      · exact h.lone u v hu.1 hv.1 e
      · exact absurd e (hne u hu)
    · exact h.lone u v hu.1 hv.1 ((hcls v hv hvb u).1 e)
  · intro v hv t ht e
    by_cases hvb : c v = c b
    · rcases (hclsb v hv hvb t).1 e with e | e
      · exact h.free v hv.1 t ht e
      · exact h.free a ha t ht e
    · exact h.free v hv.1 t ht ((hcls v hv hvb t).1 e)
  · intro v hv
    have hb0 := h.bound v hv.1
    by_cases hvb : c v = c b
    · have hx := hclsb v hv hvb
      have hA := hh v hv.1 hv.2 hvb
      rw [← hvb] at hA
      have va : c v ≠ c a := hne v hv
      -- abbreviations
      set D : Nat → Prop := fun x => c x = c v with hD
      set A : Nat → Prop := fun x => c x = c a with hAd
      have dis : ∀ x, D x → ¬ A x := fun x h1 h2 => va ((show c x = c v from h1).symm.trans h2)
      have t1 : btw n w (fun x => c' x = c' v ∧ x ≠ v) (fun x => c' x ≠ c' v) =
          btw n w (fun x => D x ∧ x ≠ v) (fun x => ¬ D x ∧ ¬ A x) + btw n w A (fun x => ¬ A x ∧ ¬ D x) := by
        rw [btw_split_left _ _ D]
        congr 1
        · refine btw_congr (fun x _ => ?_) (fun x _ => ?_)
          · rw [hx]; constructor
            · rintro ⟨⟨_, h2⟩, h3⟩; exact ⟨h3, h2⟩
            · rintro ⟨h3, h2⟩; exact ⟨⟨Or.inl h3, h2⟩, h3⟩
          · rw [Ne, hx]; exact not_or
        · refine btw_congr (fun x _ => ?_) (fun x _ => ?_)
          · rw [hx]; constructor
            · rintro ⟨⟨h1 | h1, _⟩, h3⟩
              · exact absurd h1 h3
              · exact h1
            · intro h1
              exact ⟨⟨Or.inr h1, fun e => va (by rw [← e]; exact h1)⟩, fun h3 => dis x h3 h1⟩
          · rw [Ne, hx, not_or]; exact And.comm
      have t2 := btw_split_right (n := n) (w := w) (fun x => D x ∧ x ≠ v) (fun x => ¬ D x) A
      have t2' : btw n w (fun x => D x ∧ x ≠ v) (fun x => ¬ D x ∧ A x) = btw n w A (fun x => D x ∧ x ≠ v) := by
        rw [btw_swap hw]
        refine btw_congr (fun x _ => ?_) (fun x _ => Iff.rfl)
        exact ⟨fun h1 => h1.2, fun h1 => ⟨fun h2 => dis x h2 h1, h1⟩⟩
      have t3 := btw_split_right (n := n) (w := w) A (fun x => ¬ A x) D
      have t3' : btw n w A (fun x => ¬ A x ∧ D x) = btw n w A D :=
        btw_congr (fun _ _ => Iff.rfl) fun x _ => ⟨fun h1 => h1.2, fun h1 => ⟨dis x h1, h1⟩⟩
      have t4 := btw_split_right (n := n) (w := w) A D (fun x => x ≠ v)
      have t4' : btw n w A (fun x => D x ∧ ¬ x ≠ v) = btw n w (fun x => x = v) A := by
        rw [btw_swap hw]
        refine btw_congr (fun x _ => ?_) (fun x _ => Iff.rfl)
        exact ⟨fun h1 => not_not.1 h1.2, fun h1 => ⟨by rw [h1], by simp [h1]⟩⟩
      have t5 : btw n w (fun x => x = v) (fun x => c' x = c' v ∧ x ≠ v) =
          btw n w (fun x => x = v) (fun x => D x ∧ x ≠ v) + btw n w (fun x => x = v) A := by
        rw [btw_split_right _ _ D]
        congr 1
        · refine btw_congr (fun x _ => Iff.rfl) (fun x _ => ?_)
          rw [hx]; constructor
          · rintro ⟨⟨_, h2⟩, h3⟩; exact ⟨h3, h2⟩
          · rintro ⟨h3, h2⟩; exact ⟨⟨Or.inl h3, h2⟩, h3⟩
        · refine btw_congr (fun x _ => Iff.rfl) (fun x _ => ?_)
          rw [hx]; constructor
          · rintro ⟨⟨h1 | h1, _⟩, h3⟩
            · exact absurd h1 h3
            · exact h1
          · intro h1
            exact ⟨⟨Or.inr h1, fun e => va (by rw [← e]; exact h1)⟩, fun h3 => dis x h3 h1⟩
      have hb1 : btw n w (fun x => D x ∧ x ≠ v) (fun x => ¬ D x) ≤ btw n w (fun x => x = v) (fun x => D x ∧ x ≠ v) := hb0
      have hA1 : btw n w A (fun x => ¬ A x) ≤ 2 * btw n w A D := hA
      rw [t1, t5]
      omega
    · have hx := hcls v hv hvb
      have e1 : btw n w (fun x => c' x = c' v ∧ x ≠ v) (fun x => c' x ≠ c' v) =
          btw n w (fun x => c x = c v ∧ x ≠ v) (fun x => c x ≠ c v) :=
        btw_congr (fun x _ => by rw [hx]) (fun x _ => by rw [Ne, hx])
      have e2 : btw n w (fun x => x = v) (fun x => c' x = c' v ∧ x ≠ v) =
          btw n w (fun x => x = v) (fun x => c x = c v ∧ x ≠ v) :=
        btw_congr (fun _ _ => Iff.rfl) (fun x _ => by rw [hx])
      rw [e1, e2]; exact hb0

/-- Pair weights. -/
theorem btw_singletons {a b : Nat} (ha : a < n) (hb : b < n) : btw n w (fun x => x = a) (fun x => x = b) = w a b := by
  unfold btw wsum
  rw [Finset.sum_eq_single a, Finset.sum_eq_single b]
  · dsimp only; rw [ind_pos ⟨rfl, rfl⟩, Nat.one_mul]
  · intro v _ hv; dsimp only; rw [ind_neg (fun h => hv h.2), Nat.zero_mul]
  · intro h; exact absurd (Finset.mem_range.2 hb) h
  · intro u _ hu
    refine Finset.sum_eq_zero fun v _ => ?_
    dsimp only; rw [ind_neg (fun h => hu h.1), Nat.zero_mul]
  · intro h; exact absurd (Finset.mem_range.2 ha) h

/-- Heavy-edge step for an open vertex: `2 * w a b` is at least the degree of `a`. -/
theorem Sinks.join_heavy (hw : ∀ u v, w u v = w v u) {ts : List Nat} {K : Nat → Prop} {c c' : Nat → Nat} {a b : Nat}
    (h : Sinks n w ts K c) (ha : K a) (hb : b < n) (hj : Joined c c' a b)
    (hd : btw n w (fun x => x = a) (fun x => x ≠ a) ≤ 2 * w a b) : Sinks n w ts (fun v => K v ∧ v ≠ a) c' := by
  have han := h.lt a ha
  have h1 := h.leave_le ha
  have h2 : w a b ≤ btw n w (fun x => c x = c a) (fun x => c x = c b) := by
    rw [← btw_singletons (n := n) (w := w) han hb]
    exact btw_mono (fun x _ e => by rw [e]) (fun x _ e => by rw [e])
  have h3 : leave n w (fun x => c x = c a) ≤ 2 * btw n w (fun x => c x = c a) (fun x => c x = c b) := by omega
  exact h.join hw ha hj (h.safe.join_heavy hw han hb hj (h.free a ha) h3) fun _ _ _ _ => h3

end VieCut
