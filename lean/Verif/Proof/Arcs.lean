import Verif.Proof.Multicut
import Verif.Proof.UnionFind

namespace VieCut
open Finset

variable {n : Nat} {w : Nat → Nat → Nat}

/-- Labels after joining two classes. -/
def joinLabels (c : Nat → Nat) (a b : Nat) : Nat → Nat := fun x => if c x = c a then c b else c x

theorem joined_joinLabels (c : Nat → Nat) (a b : Nat) : Joined c (joinLabels c a b) a b := by
  intro x y
  unfold joinLabels
  by_cases h1 : c x = c a <;> by_cases h2 : c y = c a
  · simp [h1, h2]
  · simp only [h1, h2, if_true, if_false]
    constructor
    · intro e; exact Or.inr (Or.inl ⟨trivial, e.symm⟩)
    · rintro (e | ⟨_, e⟩ | ⟨e, e'⟩)
      · exact absurd e.symm h2
      · exact e.symm
      · exact absurd e' (by simp)
  · simp only [h1, h2, if_true, if_false]
    constructor
    · intro e; exact Or.inr (Or.inr ⟨e, trivial⟩)
    · rintro (e | ⟨e, _⟩ | ⟨e, _⟩)
      · exact absurd e (by simp)
      · exact absurd e (by simp)
      · exact e
  · simp only [h1, h2, if_false, false_and, and_false, or_self, or_false]

/-- The edges of `a` to non-terminals. -/
noncomputable def toPlain (n : Nat) (w : Nat → Nat → Nat) (ts : List Nat) (a : Nat) : Nat :=
  btw n w (fun x => x = a) (fun x => x ∉ ts ∧ x ≠ a)

theorem Sinks.join_terminal (hw : ∀ u v, w u v = w v u) {ts : List Nat} {K : Nat → Prop} {c c' : Nat → Nat} {a b : Nat}
    (h : Sinks n w ts K c) (ha : K a) (hb : b < n) (hbt : b ∈ ts) (htn : ∀ t ∈ ts, t < n) (hj : Joined c c' a b)
    (h0 : toPlain n w ts a ≤ w a b) (h1 : ∀ t ∈ ts, t ≠ b → toPlain n w ts a + w a t ≤ w a b) :
    Sinks n w ts (fun v => K v ∧ v ≠ a) c' := by
  have han := h.lt a ha
  refine h.join hw ha hj (h.safe.join han hb hj (h.free a ha) ?_) ?_
  · intro f hf hc hab
    have hba : c b ≠ c a := h.free a ha b hbt
    refine relabel_le hw ?_
    have e1 : w a b ≤ wsum n w (fun u v => ind (c u = c a ∧ f u ≠ f b ∧ ¬ c v = c a ∧ f v = f b)) := by
      rw [← btw_singletons (n := n) (w := w) han hb]
      refine wsum_mono fun u v _ _ => ind_mono fun e => ?_
      rw [e.1, e.2]
      exact ⟨rfl, hab, hba, rfl⟩
    have e2 : wsum n w (fun u v => ind (c u = c a ∧ ¬ c v = c a ∧ f u ≠ f b ∧ f u = f v)) ≤
        btw n w (fun x => c x = c a ∧ x ≠ a) (fun x => c x ≠ c a) +
        (btw n w (fun x => x = a) (fun x => x ∉ ts ∧ ¬ c x = c a) +
          btw n w (fun x => x = a) (fun x => x ∈ ts ∧ f x = f a)) := by
      unfold btw
      rw [← wsum_add, ← wsum_add]
      refine wsum_mono fun u v hu hv => ?_
      by_cases g : c u = c a ∧ ¬ c v = c a ∧ f u ≠ f b ∧ f u = f v
      · obtain ⟨g1, g2, g3, g4⟩ := g
        rw [ind_pos ⟨g1, g2, g3, g4⟩]
        by_cases ua : u = a
        · by_cases vt : v ∈ ts
          · have : f v = f a := by rw [← g4, ua]
            rw [ind_pos (P := u = a ∧ v ∈ ts ∧ f v = f a) ⟨ua, vt, this⟩]; omega
          · rw [ind_pos (P := u = a ∧ v ∉ ts ∧ ¬ c v = c a) ⟨ua, vt, g2⟩]; omega
        · rw [ind_pos (P := (c u = c a ∧ u ≠ a) ∧ c v ≠ c a) ⟨⟨g1, ua⟩, g2⟩]; omega
      · rw [ind_neg g]; exact Nat.zero_le _
    have e3 := h.bound a ha
    have e4 : btw n w (fun x => x = a) (fun x => c x = c a ∧ x ≠ a) ≤
        btw n w (fun x => x = a) (fun x => (x ∉ ts ∧ x ≠ a) ∧ c x = c a) :=
      btw_mono (fun _ _ e => e) fun x _ e => ⟨⟨fun ht => h.free a ha x ht e.1, e.2⟩, e.1⟩
    have e5 : btw n w (fun x => x = a) (fun x => x ∉ ts ∧ ¬ c x = c a) ≤
        btw n w (fun x => x = a) (fun x => (x ∉ ts ∧ x ≠ a) ∧ ¬ c x = c a) :=
      btw_mono (fun _ _ e => e) fun x _ e => ⟨⟨e.1, fun hx => e.2 (by rw [hx])⟩, e.2⟩
    have e6 := btw_split_right (n := n) (w := w) (fun x => x = a) (fun x => x ∉ ts ∧ x ≠ a) (fun x => c x = c a)
    have e7 : toPlain n w ts a + btw n w (fun x => x = a) (fun x => x ∈ ts ∧ f x = f a) ≤ w a b := by
      by_cases g : ∃ t ∈ ts, f t = f a
      · obtain ⟨t, ht, hfa⟩ := g
        have htb : t ≠ b := fun e => hab (by rw [← hfa, e])
        have : btw n w (fun x => x = a) (fun x => x ∈ ts ∧ f x = f a) ≤ w a t := by
          rw [← btw_singletons (n := n) (w := w) han (htn t ht)]
          refine btw_mono (fun _ _ e => e) fun x _ e => ?_
          by_contra hne
          exact hf x e.1 t ht hne (e.2.trans hfa.symm)
        have := h1 t ht htb
        omega
      · have : btw n w (fun x => x = a) (fun x => x ∈ ts ∧ f x = f a) = 0 := by
          unfold btw wsum
          refine Finset.sum_eq_zero fun u _ => Finset.sum_eq_zero fun v _ => ?_
          dsimp only
          rw [ind_neg, Nat.zero_mul]
          rintro ⟨_, h2, h3⟩
          exact g ⟨v, h2, h3⟩
        omega
    unfold toPlain at e7
    omega
  · intro v hv _ e
    exact absurd e.symm (h.free v hv b hbt)

/-- An arc: vertex `a`, not a terminal, may join `b`. -/
def Arc (n : Nat) (w : Nat → Nat → Nat) (ts : List Nat) (a b : Nat) : Prop :=
  a < n ∧ b < n ∧ a ∉ ts ∧
    (btw n w (fun x => x = a) (fun x => x ≠ a) ≤ 2 * w a b ∨
      (b ∈ ts ∧ toPlain n w ts a ≤ w a b ∧ ∀ t ∈ ts, t ≠ b → toPlain n w ts a + w a t ≤ w a b))

/-- Any set of arcs with different sources can be satisfied simultaneously without loss. -/
theorem arcs_sinks (hw : ∀ u v, w u v = w v u) {ts : List Nat} (htn : ∀ t ∈ ts, t < n) (l : List (Nat × Nat)) :
    (l.map Prod.fst).Nodup → (∀ q ∈ l, Arc n w ts q.1 q.2) →
    ∃ c, Sinks n w ts (fun v => v < n ∧ v ∉ ts ∧ v ∉ l.map Prod.fst) c ∧ ∀ q ∈ l, c q.1 = c q.2 := by
  induction l with
  | nil =>
    intro _ _
    exact ⟨fun x => x, Sinks.init (fun v hv => hv.1) (fun _ _ e => e) (fun v hv => hv.2.1), by simp⟩
  | cons q l ih =>
    intro hnd harc
    rw [List.map_cons, List.nodup_cons] at hnd
    obtain ⟨c, hc, hs⟩ := ih hnd.2 (fun q' hq' => harc q' (by simp [hq']))
    obtain ⟨a1, a2, a3, a4⟩ := harc q (by simp)
    have hK : q.1 < n ∧ q.1 ∉ ts ∧ q.1 ∉ l.map Prod.fst := ⟨a1, a3, hnd.1⟩
    have hj := joined_joinLabels c q.1 q.2
    refine ⟨joinLabels c q.1 q.2, ?_, ?_⟩
    · have key : Sinks n w ts (fun v => (v < n ∧ v ∉ ts ∧ v ∉ l.map Prod.fst) ∧ v ≠ q.1) (joinLabels c q.1 q.2) := by
        rcases a4 with a4 | ⟨b1, b2, b3⟩
        · exact hc.join_heavy hw hK a2 hj a4
        · exact hc.join_terminal hw hK a2 b1 htn hj b2 b3
      refine key.mono fun v hv => ?_
      rw [List.map_cons, List.mem_cons, not_or] at hv
      exact ⟨⟨hv.1, hv.2.1, hv.2.2.2⟩, hv.2.2.1⟩
    · intro q' hq'
      rw [List.mem_cons] at hq'
      rcases hq' with e | e
      · rw [e]; exact (hj _ _).2 (Or.inr (Or.inl ⟨rfl, rfl⟩))
      · exact (hj _ _).2 (Or.inl (hs q' e))

theorem arcs_safe (hw : ∀ u v, w u v = w v u) {ts : List Nat} (htn : ∀ t ∈ ts, t < n) (l : List (Nat × Nat))
    (hnd : (l.map Prod.fst).Nodup) (harc : ∀ q ∈ l, Arc n w ts q.1 q.2) (f : Nat → Nat) (hf : Separates ts f) :
    ∃ f', Separates ts f' ∧ multicutValue n w f' ≤ multicutValue n w f ∧ ∀ q ∈ l, f' q.1 = f' q.2 := by
  obtain ⟨c, hc, hs⟩ := arcs_sinks hw htn l hnd harc
  obtain ⟨f', h1, h2, h3⟩ := hc.safe f hf
  exact ⟨f', h1, h2, fun q hq => h3 _ _ (harc q hq).1 (harc q hq).2.1 (hs q hq)⟩

/-- A union-find structure built from requests that can be satisfied simultaneously. -/
theorem mergeSafe_of_rep {ts : List Nat} {uf : UF} {ps : List (Nat × Nat)} (hr : uf.Rep ps)
    (h : ∀ f, Separates ts f → ∃ f', Separates ts f' ∧ multicutValue n w f' ≤ multicutValue n w f ∧
      ∀ q ∈ ps, f' q.1 = f' q.2) : MergeSafe n w ts uf.root := by
  intro f hf
  obtain ⟨f', h1, h2, h3⟩ := h f hf
  refine ⟨f', h1, h2, fun u v _ _ e => ?_⟩
  refine _root_.VieCut.Linked.least (r := fun x y => f' x = f' y) ⟨fun _ => rfl, Eq.symm, Eq.trans⟩ ?_ ((hr.iff u v).1 e)
  intro a b hab
  exact h3 (a, b) hab

end VieCut
