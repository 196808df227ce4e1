import Verif.Proof.CanonizeSpec
import Verif.Proof.RecComponent

/-!
# C57: merging the cactuses of the components
-/

namespace VieCut
namespace GraphModification
open MGraph

theorem search_mono {g : MGraph} {v : Nat} {nb : List Nat} : ∀ {a b : Nat} {q : List Nat} {t : Nat}, a ≤ b → search g v nb a q = some t →
    search g v nb b q = some t
  | 0, _, _, _, _, h => by simp [search] at h
  | _ + 1, _, [], _, _, h => by simp [search] at h
  | a + 1, 0, _ :: _, _, hab, _ => by omega
  | a + 1, b + 1, n :: q, t, hab, h => by
    unfold search at h ⊢
    split
    · rename_i x hx; rw [hx] at h; exact h
    · rename_i hx; rw [hx] at h; exact search_mono (by omega) h

theorem pairUp_mono {g : MGraph} {v : Nat} {a b : Nat} (hab : a ≤ b) : ∀ {r : Nat} {l : List Nat} {ps : List (Nat × Nat)},
    pairUp g v a r l = some ps → pairUp g v b r l = some ps
  | r + 1, p :: q :: x :: l, ps, h => by
    unfold pairUp at h ⊢
    obtain ⟨t, h1, h2⟩ := Option.bind_eq_some_iff.1 h
    obtain ⟨qs, h3, rfl⟩ := Option.map_eq_some_iff.1 h2
    rw [search_mono hab h1, Option.bind_some, pairUp_mono hab h3, Option.map_some]
  | 0, _ :: _ :: _ :: _, _, h => by simp [pairUp] at h
  | 0, [], _, h => by simpa [pairUp] using h
  | 0, [_], _, h => by simpa [pairUp] using h
  | 0, [_, _], _, h => by simpa [pairUp] using h
  | _ + 1, [], _, h => by simpa [pairUp] using h
  | _ + 1, [_], _, h => by simpa [pairUp] using h
  | _ + 1, [_, _], _, h => by simpa [pairUp] using h

theorem canonizeCactus_mono {g M : MGraph} {v c a b : Nat} (hab : a ≤ b) (h : canonizeCactus a g v c = some M) :
    canonizeCactus b g v c = some M := by
  unfold canonizeCactus at h ⊢
  dsimp only at h ⊢
  split at h
  · simp at h
  · rename_i h1
    rw [if_neg h1]
    split at h
    · rename_i h2; rw [if_pos h2]; exact h
    · rename_i h2
      rw [if_neg h2]
      split at h
      · rename_i h3
        rw [if_pos h3]
        obtain ⟨ps, h4, h5⟩ := Option.map_eq_some_iff.1 h
        rw [pairUp_mono hab h4, Option.map_some, h5]
      · rename_i h3; rw [if_neg h3]; exact h

theorem not_one {E : Nat → Prop} {P : (Nat → Bool) → Prop} {G : MGraph} {c : Nat} (h : CactusOf E P G c) {f : Nat → Bool} (hf : P f) :
    G.n ≠ 1 := by
  intro hn
  obtain ⟨X, ⟨⟨a, ha, h3⟩, ⟨b, hb, h4⟩⟩, _⟩ := (h.splits f).2 hf
  rw [show a = b by omega, h4] at h3
  simp at h3

/-- What `mergeGraphs` gives if it ends. -/
theorem merge_tidy {E : Nat → Prop} {P1 P2 : (Nat → Bool) → Prop} {G1 G2 g M : MGraph} {v1 v2 c fuel : Nat} (hc : 0 < c)
    (h1 : CactusOf E P1 G1 c) (h2 : CactusOf E P2 G2 c) (hg : Piece E g c) (hP1 : ∀ f, P1 f → Split g E c f)
    (hP2 : ∀ f, P2 f → Split g E c f) (hv1 : v1 < G1.n) (hv2 : v2 < G2.n) (hout : ∀ e, E e → G1.pos e ≠ v1 → G2.pos e = v2)
    (ht : Tidy G1) (hn1 : G1.n ≠ 1) (hM : mergeGraphs fuel G1 v1 G2 v2 c = some M) :
    CactusOf E (fun f => P1 f ∨ P2 f) M c ∧ Tidy M := by
  unfold mergeGraphs at hM
  by_cases hn2 : G2.n = 1
  · rw [if_pos hn2] at hM
    cases hM
    refine ⟨h1.congr fun f => ?_, ht⟩
    have : ¬ P2 f := fun hf => not_one h2 hf hn2
    tauto
  · rw [if_neg hn2, if_neg hn1] at hM
    dsimp only at hM
    obtain ⟨k1, k2, k3, _⟩ := glue_spec hc h1 h2 ht hv1 hv2 (by omega) hout
    by_cases he : ((glue G1 v1 G2 v2).cont v1).isEmpty = true
    · rw [if_pos he] at hM
      obtain ⟨C, F, m1, m2, m3⟩ := canonize_tidy k1 hc k3 (List.isEmpty_iff.1 he) k2 hg (fun f hf => hf.elim (hP1 f) (hP2 f))
      have := canonizeCactus_mono (le_max_left fuel F) hM
      rw [m3 _ (le_max_right fuel F)] at this
      cases this
      exact ⟨m1, m2⟩
    · rw [if_neg he] at hM
      cases hM
      exact ⟨k1, k2.tidy⟩

end GraphModification

namespace RecCactus
open MGraph GraphModification

theorem base_spec {E : Nat → Prop} {G : MGraph} {c : Nat} (hp : Piece E G c) {p : Nat → Bool} {e : Nat} (h : base G p = some e) :
    E e ∧ p (G.pos e) = true := by
  unfold base at h
  obtain ⟨n, h1, h2⟩ := Option.map_eq_some_iff.1 h
  have hm := List.mem_of_mem_head? h1
  obtain ⟨m1, m2⟩ := List.mem_filter.1 hm
  have hn := List.mem_range.1 m1
  simp only [Bool.and_eq_true, Bool.not_eq_true'] at m2
  have hmem : e ∈ G.cont n := by
    rw [← h2]
    cases hl : G.cont n with
    | nil => rw [hl] at m2; simp at m2
    | cons a l => simp
  obtain ⟨e1, e2⟩ := (hp.held.mem n e hn).1 hmem
  exact ⟨e1, by rw [e2]; exact m2.1⟩

/-- Elements at different vertices of a cactus are on different sides of one of its splits. -/
theorem differ {E : Nat → Prop} {P : (Nat → Bool) → Prop} {C : MGraph} {c : Nat} (h : CactusOf E P C c) {a b : Nat} (ha : E a) (hb : E b)
    (hab : C.pos a ≠ C.pos b) : ∃ f, P f ∧ f a ≠ f b := by
  obtain ⟨X, h1, h2, h3⟩ := h.separating _ _ (h.held.lt a ha) (h.held.lt b hb) hab
  refine ⟨fun e => X (C.pos e), (h.splits _).1 ⟨X, ⟨⟨_, h.held.lt a ha, h1⟩, ⟨_, h.held.lt b hb, h2⟩⟩, h3, fun _ _ => rfl⟩, ?_⟩
  dsimp only
  rw [h1, h2]
  simp

/-- The recursive call gives cactuses of all minimum cuts. -/
def Sound (c : Nat) (rc : MGraph → Option MGraph) : Prop :=
  ∀ (E : Nat → Prop) (H R : MGraph), Piece E H c → rc H = some R → CactusOf E (Split H E c) R c

theorem mergeComponent_spec {E : Nat → Prop} {P : (Nat → Bool) → Prop} {G ST M : MGraph} {c i : Nat} {lab : Nat → Nat} {sizes : List Nat}
    {V : Env} {rc : MGraph → Option MGraph} (hc : 0 < c) (hp : Piece E G c) (hV : ∀ l, (V.ordC l).Perm l) (hrc : Sound c rc)
    (hsize : sizes.getD i 0 = ((Finset.range G.n).filter fun v => lab v = i).card) (hST : CactusOf E P ST c) (ht : Tidy ST)
    (hPs : ∀ f, P f → Split G E c f) (hone : ST.n ≠ 1)
    (hin : ∀ f, P f → ∀ a b, E a → E b → lab (G.pos a) = i → lab (G.pos b) = i → f a = f b)
    (hM : mergeComponent V c rc G lab sizes ST i = some M) :
    CactusOf E (fun f => P f ∨ SplitR G E c (fun u v => lab u ≠ i ∧ lab v ≠ i) f) M c ∧ Tidy M := by
  unfold mergeComponent at hM
  obtain ⟨ni, h1, hM⟩ := Option.bind_eq_some_iff.1 hM
  obtain ⟨a, h2, hM⟩ := Option.bind_eq_some_iff.1 hM
  obtain ⟨b, h3, hM⟩ := Option.bind_eq_some_iff.1 hM
  obtain ⟨a1, a2⟩ := base_spec hp h2
  obtain ⟨b1, b2⟩ := base_spec hp h3
  simp only [decide_eq_true_eq] at a2 b2
  obtain ⟨q1, q2⟩ := componentGraph_spec (lab := lab) (i := i) hp hV hsize ⟨G.pos b, hp.held.lt b b1, by simpa using b2⟩
  have hni := (hrc E _ _ q1 h1).congr q2
  refine merge_tidy hc hST hni hp hPs (fun f hf => hf.split) (hST.held.lt a a1) (hni.held.lt b b1) (fun e he hne => ?_) ht hone hM
  by_contra hne2
  have hlab : lab (G.pos e) ≠ i := by
    intro hl
    obtain ⟨f, f1, f2⟩ := differ hST he a1 hne
    exact f2 (hin f f1 e a he a1 hl a2)
  obtain ⟨f, f1, f2⟩ := differ hni he b1 hne2
  exact f2 (f1.eq hp.held he b1 ⟨hlab, by simpa using b2⟩)

/-- The loop over the components. -/
theorem mergeComponents_spec {E : Nat → Prop} {G : MGraph} {c k s t : Nat} {lab : Nat → Nat} {sizes : List Nat}
    {V : Env} {rc : MGraph → Option MGraph} (hc : 0 < c) (hp : Piece E G c) (hV : ∀ l, (V.ordC l).Perm l) (hrc : Sound c rc)
    (H : STClasses G lab k s t c)
    (hsize : ∀ i, i < k → sizes.getD i 0 = ((Finset.range G.n).filter fun v => lab v = i).card) :
    ∀ (todo done : List Nat) (ST M : MGraph), (∀ i ∈ todo, i < k) → todo.Nodup → (∀ i ∈ todo, i ∉ done) →
      CactusOf E (fun f => SplitR G E c (fun u v => lab u = lab v) f ∨
        ∃ i, i ∈ done ∧ SplitR G E c (fun u v => lab u ≠ i ∧ lab v ≠ i) f) ST c → Tidy ST →
      todo.foldlM (mergeComponent V c rc G lab sizes) ST = some M →
      CactusOf E (fun f => SplitR G E c (fun u v => lab u = lab v) f ∨
        ∃ i, (i ∈ done ∨ i ∈ todo) ∧ SplitR G E c (fun u v => lab u ≠ i ∧ lab v ≠ i) f) M c ∧ Tidy M := by
  intro todo
  induction todo with
  | nil =>
    intro done ST M _ _ _ h1 h2 h3
    simp only [List.foldlM_nil, Option.pure_def, Option.some.injEq] at h3
    subst h3
    refine ⟨h1.congr fun f => ?_, h2⟩
    simp
  | cons i todo ih =>
    intro done ST M hk hnd hdis h1 h2 h3
    rw [List.foldlM_cons] at h3
    obtain ⟨ST', h4, h5⟩ := Option.bind_eq_some_iff.1 h3
    obtain ⟨hni, hnd⟩ := List.nodup_cons.1 hnd
    have hone : ST.n ≠ 1 := by
      have hcut := H.pre 1 (by omega) (by have := H.two; omega)
      refine not_one h1 (f := fun e => decide (lab (G.pos e) < 1)) (.inl ⟨_, ⟨⟨s, H.src, ?_⟩, ⟨t, H.sink, ?_⟩⟩, hcut, ?_, fun _ _ => rfl⟩)
      · have := H.first; simp; omega
      · have := H.last; have := H.two; simp; omega
      · intro u v _ _ huv; simp only [huv]
    obtain ⟨m1, m2⟩ := mergeComponent_spec hc hp hV hrc (hsize i (hk i (by simp))) h1 h2
      (fun f hf => hf.elim (fun h => h.split) fun ⟨_, _, h⟩ => h.split) hone (fun f hf a b ha hb la lb => by
        rcases hf with h | ⟨j, hj, h⟩
        · exact h.eq hp.held ha hb (la.trans lb.symm)
        · have : i ≠ j := fun hij => hdis i (by simp) (hij ▸ hj)
          exact h.eq hp.held ha hb ⟨by omega, by omega⟩) h4
    obtain ⟨r1, r2⟩ := ih (i :: done) ST' M (fun j hj => hk j (by simp [hj])) hnd (fun j hj => by
      simp only [List.mem_cons, not_or]
      exact ⟨fun h => hni (h ▸ hj), hdis j (by simp [hj])⟩) (m1.congr fun f => by
        simp only [List.mem_cons]
        constructor
        · rintro ((h | ⟨j, h, h'⟩) | h)
          · exact .inl h
          · exact .inr ⟨j, .inr h, h'⟩
          · exact .inr ⟨i, .inl rfl, h⟩
        · rintro (h | ⟨j, rfl | h, h'⟩)
          · exact .inl (.inl h)
          · exact .inr h'
          · exact .inl (.inr ⟨j, h, h'⟩)) m2 h5
    refine ⟨r1.congr fun f => ?_, r2⟩
    simp only [List.mem_cons]
    constructor
    · rintro (h | ⟨j, h, h'⟩)
      · exact .inl h
      · exact .inr ⟨j, by tauto, h'⟩
    · rintro (h | ⟨j, h, h'⟩)
      · exact .inl h
      · exact .inr ⟨j, by tauto, h'⟩

end RecCactus
end VieCut
