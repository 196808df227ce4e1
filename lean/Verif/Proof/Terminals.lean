import Verif.Model.Terminals
import Verif.Spec.Terminals
import Verif.Proof.Cut
import Verif.Proof.Multicut
import Verif.Spec.MulticutDriver
import Mathlib.Data.Finset.Card

/-!
# Areas around terminals
-/

namespace VieCut
namespace Terminals
open Function

/-- Vertices without a terminal. -/
def freeOf (n : Nat) (m : Nat → Option Nat) : Nat := ((Finset.range n).filter fun v => m v = none).card

/-- Vertices of area `i`. -/
def sizeOf (n : Nat) (m : Nat → Option Nat) (i : Nat) : Nat := ((Finset.range n).filter fun v => m v = some i).card

theorem freeOf_update {n : Nat} {m : Nat → Option Nat} {v i : Nat} (hv : v < n) (h : m v = none) :
    freeOf n (update m v (some i)) + 1 = freeOf n m := by
  unfold freeOf
  rw [← Finset.card_insert_of_notMem (a := v) (by simp)]
  congr 1
  ext x
  by_cases hx : x = v
  · subst hx; simp [hv, h]
  · simp [hx, update_of_ne hx]

theorem sizeOf_update {n : Nat} {m : Nat → Option Nat} {v i : Nat} (hv : v < n) (h : m v = none) :
    sizeOf n (update m v (some i)) i = sizeOf n m i + 1 := by
  unfold sizeOf
  rw [← Finset.card_insert_of_notMem (a := v) (by simp [h])]
  congr 1
  ext x
  by_cases hx : x = v
  · subst hx; simp [hv]
  · simp [hx, update_of_ne hx]

theorem Inside.mono {G : Graph} {m m' : Nat → Option Nat} {i t v : Nat} (hm : ∀ x, m x ≠ none → m' x = m x)
    (h : Relation.ReflTransGen (Inside G m i) t v) : Relation.ReflTransGen (Inside G m' i) t v := by
  induction h with
  | refl => exact .refl
  | tail _ h2 ih =>
    refine ih.tail ⟨h2.1, ?_, ?_⟩
    · rw [hm _ (by rw [h2.2.1]; simp), h2.2.1]
    · rw [hm _ (by rw [h2.2.2]; simp), h2.2.2]

/-- The state around terminal `i` at vertex `t`, started with the mapping `m0`. -/
structure AInv (G : Graph) (bfs i t : Nat) (m0 : Nat → Option Nat) (s : Area) : Prop where
  keep : ∀ v, m0 v ≠ none → s.map v = m0 v
  new : ∀ v, m0 v = none → s.map v = none ∨ (s.map v = some i ∧ v < G.n)
  size : s.size = sizeOf G.n s.map i
  cap : s.size ≤ bfs
  queue : ∀ v ∈ s.queue, s.map v = some i
  conn : ∀ v, s.map v = some i → Relation.ReflTransGen (Inside G s.map i) t v

theorem areaFold {G : Graph} {bfs i t x : Nat} {m0 : Nat → Option Nat} (l : List Nat)
    (hl : ∀ v ∈ l, v < G.n ∧ v ∈ (G.edges x).map (·.1)) {s : Area} (h : AInv G bfs i t m0 s) (hx : s.map x = some i) :
    let s' := l.foldl (areaEdge bfs i) s
    AInv G bfs i t m0 s' ∧ (∀ v, s.map v ≠ none → s'.map v = s.map v) ∧ (∀ v ∈ s.queue, v ∈ s'.queue) ∧
      (bfs ≤ s'.size ∨ ∀ v ∈ l, s'.map v ≠ none) ∧
      (∀ v, s'.map v = some i → s.map v = some i ∨ v ∈ s'.queue) ∧
      s'.queue.length + freeOf G.n s'.map = s.queue.length + freeOf G.n s.map := by
  induction l generalizing s with
  | nil => exact ⟨h, fun _ _ => rfl, fun _ h => h, Or.inr (by simp), fun _ h => Or.inl h, rfl⟩
  | cons v l ih =>
    rw [List.foldl_cons]
    have hl' : ∀ v ∈ l, v < G.n ∧ v ∈ (G.edges x).map (·.1) := fun y hy => hl y (List.mem_cons_of_mem _ hy)
    obtain ⟨hvn, hve⟩ := hl v List.mem_cons_self
    by_cases hb : bfs ≤ s.size
    · have e : areaEdge bfs i s v = s := by unfold areaEdge; rw [if_pos hb]
      rw [e]
      obtain ⟨a1, a2, a3, a4, a5, a6⟩ := ih hl' h hx
      refine ⟨a1, a2, a3, ?_, a5, a6⟩
      left
      have : ∀ (l : List Nat), l.foldl (areaEdge bfs i) s = s := by
        intro l
        induction l with
        | nil => rfl
        | cons y l ih => rw [List.foldl_cons]; unfold areaEdge; rw [if_pos hb]; exact ih
      rw [this]; exact hb
    · by_cases hm : s.map v = none
      · have e : areaEdge bfs i s v = ⟨s.queue ++ [v], update s.map v (some i), s.size + 1⟩ := by
          unfold areaEdge; rw [if_neg hb, if_pos hm]
        have hext : ∀ y, s.map y ≠ none → update s.map v (some i) y = s.map y := by
          intro y hy
          refine update_of_ne ?_ _ _
          rintro rfl
          exact hy hm
        have hm0 : m0 v = none := by
          by_contra hc
          rw [h.keep v hc] at hm
          exact hc hm
        have h' : AInv G bfs i t m0 ⟨s.queue ++ [v], update s.map v (some i), s.size + 1⟩ := by
          refine ⟨fun y hy => ?_, fun y hy => ?_, ?_, ?_, fun y hy => ?_, fun y hy => ?_⟩
          · show update s.map v (some i) y = _
            rw [hext y (by rw [h.keep y hy]; exact hy)]
            exact h.keep y hy
          · show update s.map v (some i) y = none ∨ _
            by_cases hyv : y = v
            · subst hyv; right; exact ⟨update_self _ _ _, hvn⟩
            · dsimp only
              rw [update_of_ne hyv]; exact h.new y hy
          · show s.size + 1 = sizeOf G.n (update s.map v (some i)) i
            rw [sizeOf_update hvn hm, h.size]
          · show s.size + 1 ≤ bfs
            omega
          · show update s.map v (some i) y = some i
            rcases List.mem_append.1 hy with hy | hy
            · rw [hext y (by rw [h.queue y hy]; simp)]; exact h.queue y hy
            · rw [List.mem_singleton] at hy; subst hy; exact update_self _ _ _
          · show Relation.ReflTransGen (Inside G (update s.map v (some i)) i) t y
            by_cases hyv : y = v
            · subst hyv
              refine (Inside.mono hext (h.conn x hx)).tail ⟨hve, ?_, update_self _ _ _⟩
              rw [hext x (by rw [hx]; simp)]; exact hx
            · have hy' : update s.map v (some i) y = some i := hy
              rw [update_of_ne hyv] at hy'
              exact Inside.mono hext (h.conn y hy')
        rw [e]
        obtain ⟨a1, a2, a3, a4, a5, a6⟩ := ih hl' h' (by show update s.map v (some i) x = _; rw [hext x (by rw [hx]; simp)]; exact hx)
        refine ⟨a1, fun y hy => ?_, fun y hy => a3 y (List.mem_append_left _ hy), ?_, fun y hy => ?_, ?_⟩
        · rw [a2 y (by show update s.map v (some i) y ≠ none; rw [hext y hy]; exact hy)]
          exact hext y hy
        · rcases a4 with a4 | a4
          · exact Or.inl a4
          · right
            intro y hy
            rcases List.mem_cons.1 hy with rfl | hy
            · have : update s.map y (some i) y ≠ none := by rw [update_self]; simp
              rw [a2 y this]; exact this
            · exact a4 y hy
        · rcases a5 y hy with h5 | h5
          · have h5' : update s.map v (some i) y = some i := h5
            by_cases hyv : y = v
            · subst hyv
              exact Or.inr (a3 y (by simp))
            · rw [update_of_ne hyv] at h5'; exact Or.inl h5'
          · exact Or.inr h5
        · rw [a6]
          have := freeOf_update (i := i) hvn hm
          simp only [List.length_append, List.length_singleton]
          omega
      · have e : areaEdge bfs i s v = s := by unfold areaEdge; rw [if_neg hb, if_neg hm]
        rw [e]
        obtain ⟨a1, a2, a3, a4, a5, a6⟩ := ih hl' h hx
        refine ⟨a1, a2, a3, ?_, a5, a6⟩
        rcases a4 with a4 | a4
        · exact Or.inl a4
        · right
          intro y hy
          rcases List.mem_cons.1 hy with rfl | hy
          · rw [a2 y hm]; exact hm
          · exact a4 y hy

/-- Vertices of the area that have been taken from the queue have no free neighbours. -/
def Closed (G : Graph) (bfs i : Nat) (s : Area) : Prop :=
  bfs ≤ s.size ∨ ∀ v, s.map v = some i → v ∈ s.queue ∨ ∀ e ∈ G.edges v, s.map e.1 ≠ none

theorem areaStep_inv {G : Graph} (hG : G.WF) {bfs i t : Nat} {m0 : Nat → Option Nat} {s : Area} (h : AInv G bfs i t m0 s)
    (hc : Closed G bfs i s) : AInv G bfs i t m0 (areaStep G bfs i s) ∧ Closed G bfs i (areaStep G bfs i s) ∧
    ((s.queue = [] ∨ bfs ≤ s.size) ∧ areaStep G bfs i s = s ∨
      (areaStep G bfs i s).queue.length + freeOf G.n (areaStep G bfs i s).map + 1 = s.queue.length + freeOf G.n s.map) := by
  unfold areaStep
  cases hq : s.queue with
  | nil => exact ⟨h, hc, Or.inl ⟨Or.inl rfl, rfl⟩⟩
  | cons v q =>
    dsimp only
    by_cases hb : bfs ≤ s.size
    · rw [if_pos hb]; exact ⟨h, hc, Or.inl ⟨Or.inr hb, rfl⟩⟩
    · rw [if_neg hb]
      have hv : s.map v = some i := h.queue v (by rw [hq]; simp)
      have h' : AInv G bfs i t m0 { s with queue := q } :=
        ⟨h.keep, h.new, h.size, h.cap, fun y hy => h.queue y (by rw [hq]; exact List.mem_cons_of_mem _ hy), h.conn⟩
      have hl : ∀ y ∈ (G.edges v).map (·.1), y < G.n ∧ y ∈ (G.edges v).map (·.1) := by
        intro y hy
        refine ⟨?_, hy⟩
        obtain ⟨e, he, rfl⟩ := List.mem_map.1 hy
        exact hG.tgt_lt v e he
      obtain ⟨a1, a2, a3, a4, a5, a6⟩ := areaFold ((G.edges v).map (·.1)) hl h' hv
      refine ⟨a1, ?_, Or.inr ?_⟩
      · rcases a4 with a4 | a4
        · exact Or.inl a4
        · right
          intro y hy
          rcases a5 y hy with h5 | h5
          · have h5' : s.map y = some i := h5
            by_cases hyv : y = v
            · subst hyv
              right
              intro e he
              exact a4 e.1 (List.mem_map_of_mem he)
            · rcases hc with hc | hc
              · exact absurd hc hb
              · rcases hc y h5' with h6 | h6
                · rw [hq] at h6
                  rcases List.mem_cons.1 h6 with h7 | h7
                  · exact absurd h7 hyv
                  · exact Or.inl (a3 y h7)
                · right
                  intro e he
                  rw [a2 e.1 (h6 e he)]
                  exact h6 e he
          · exact Or.inl h5
      · rw [a6, List.length_cons]
        show q.length + freeOf G.n s.map + 1 = _
        omega

/-- The loop ends within as many iterations as there are queue entries and free vertices. -/
theorem areaIter {G : Graph} (hG : G.WF) {bfs i t : Nat} {m0 : Nat → Option Nat} (N : Nat) {s : Area} (h : AInv G bfs i t m0 s)
    (hc : Closed G bfs i s) (hN : s.queue.length + freeOf G.n s.map ≤ N) :
    AInv G bfs i t m0 ((areaStep G bfs i)^[N] s) ∧ Closed G bfs i ((areaStep G bfs i)^[N] s) ∧
      (((areaStep G bfs i)^[N] s).queue = [] ∨ bfs ≤ ((areaStep G bfs i)^[N] s).size) := by
  induction N generalizing s with
  | zero =>
    refine ⟨h, hc, Or.inl ?_⟩
    show s.queue = []
    exact List.eq_nil_of_length_eq_zero (by omega)
  | succ N ih =>
    rw [iterate_succ_apply]
    obtain ⟨a1, a2, a3⟩ := areaStep_inv hG h hc
    rcases a3 with ⟨h1, h2⟩ | h1
    · rw [h2]
      have hfix : ∀ M, (areaStep G bfs i)^[M] s = s := iterate_fixed h2
      rw [hfix]
      exact ⟨h, hc, h1⟩
    · exact ih a1 a2 (by omega)

/-- What is known about the mapping after some terminals. -/
structure MInv (G : Graph) (bfs : Nat) (terminals : List Nat) (j : Nat) (m : Nat → Option Nat) : Prop where
  own : ∀ i t, terminals[i]? = some t → m t = some i
  area : ∀ v i, m v = some i → v < G.n ∧ ∃ t, terminals[i]? = some t ∧ Relation.ReflTransGen (Inside G m i) t v
  size : ∀ i, i < terminals.length → sizeOf G.n m i ≤ max 1 bfs
  full : ∀ i, i < j → sizeOf G.n m i < bfs → ∀ v, m v = some i → ∀ e ∈ G.edges v, m e.1 ≠ none
  single : ∀ i t, j ≤ i → terminals[i]? = some t → ∀ v, m v = some i → v = t

theorem area_inv {G : Graph} (hG : G.WF) {bfs : Nat} (hb : 1 < bfs) {terminals : List Nat} (hn : terminals.Nodup) {j t : Nat}
    (hj : terminals[j]? = some t) {m : Nat → Option Nat} (h : MInv G bfs terminals j m) :
    MInv G bfs terminals (j + 1) (area G bfs m (t, j)) := by
  have htm := h.own j t hj
  have htn := (h.area t j htm).1
  have hup : update m t (some j) = m := by rw [← htm]; exact update_eq_self _ _
  have hs1 : sizeOf G.n m j = 1 := by
    unfold sizeOf
    rw [Finset.card_eq_one]
    refine ⟨t, ?_⟩
    ext x
    simp only [Finset.mem_filter, Finset.mem_range, Finset.mem_singleton]
    constructor
    · rintro ⟨_, hx⟩
      exact h.single j t (Nat.le_refl _) hj x hx
    · rintro rfl
      exact ⟨htn, htm⟩
  have h0 : AInv G bfs j t m ⟨[t], m, 1⟩ := by
    refine ⟨fun _ _ => rfl, fun v hv => Or.inl hv, hs1.symm, by show 1 ≤ bfs; omega, ?_, fun v hv => ?_⟩
    · intro v hv
      rw [List.mem_singleton] at hv
      rw [hv]; exact htm
    · rw [h.single j t (Nat.le_refl _) hj v hv]
  have hc0 : Closed G bfs j ⟨[t], m, 1⟩ := by
    right
    intro v hv
    left
    rw [h.single j t (Nat.le_refl _) hj v hv]
    exact List.mem_singleton_self _
  have hfree : ([t] : List Nat).length + freeOf G.n m ≤ G.n := by
    have : freeOf G.n m < G.n := by
      unfold freeOf
      calc _ < (Finset.range G.n).card := Finset.card_lt_card (Finset.filter_ssubset.2 ⟨t, Finset.mem_range.2 htn, by rw [htm]; simp⟩)
        _ = G.n := Finset.card_range _
    simp only [List.length_singleton]
    omega
  obtain ⟨a1, a2, a3⟩ := areaIter hG G.n h0 hc0 hfree
  have harea : area G bfs m (t, j) = ((areaStep G bfs j)^[G.n] ⟨[t], m, 1⟩).map := by unfold area; dsimp only; rw [hup]
  rw [harea]
  generalize (areaStep G bfs j)^[G.n] ⟨[t], m, 1⟩ = s at a1 a2 a3
  have hback : ∀ v i, s.map v = some i → m v = some i ∨ (m v = none ∧ i = j ∧ v < G.n) := by
    intro v i hv
    by_cases hm : m v = none
    · rcases a1.new v hm with h1 | ⟨h1, h2⟩
      · rw [h1] at hv; cases hv
      · rw [h1] at hv; exact Or.inr ⟨hm, (Option.some.inj hv).symm, h2⟩
    · left; rw [← a1.keep v hm]; exact hv
  have hsame : ∀ i, i ≠ j → ∀ v, s.map v = some i ↔ m v = some i := by
    intro i hij v
    constructor
    · intro hv
      rcases hback v i hv with h1 | h1
      · exact h1
      · exact absurd h1.2.1 hij
    · intro hv; rw [a1.keep v (by rw [hv]; simp)]; exact hv
  have hsize : ∀ i, i ≠ j → sizeOf G.n s.map i = sizeOf G.n m i := by
    intro i hij
    unfold sizeOf
    congr 1
    ext x
    simp only [Finset.mem_filter, hsame i hij x]
  have hmono : ∀ x, m x ≠ none → s.map x = m x := a1.keep
  refine ⟨fun i t' hit => ?_, fun v i hv => ?_, fun i hi => ?_, fun i hi hlt v hv e he => ?_, fun i t' hi hit v hv => ?_⟩
  · have := h.own i t' hit
    rw [a1.keep t' (by rw [this]; simp)]; exact this
  · by_cases hij : i = j
    · subst hij
      refine ⟨?_, t, hj, a1.conn v hv⟩
      rcases hback v i hv with h1 | h1
      · exact (h.area v i h1).1
      · exact h1.2.2
    · have hv' := (hsame i hij v).1 hv
      obtain ⟨h1, t', h2, h3⟩ := h.area v i hv'
      exact ⟨h1, t', h2, Inside.mono hmono h3⟩
  · by_cases hij : i = j
    · subst hij
      rw [← a1.size]
      exact Nat.le_trans a1.cap (Nat.le_max_right _ _)
    · rw [hsize i hij]; exact h.size i hi
  · by_cases hij : i = j
    · subst hij
      rw [← a1.size] at hlt
      rcases a3 with a3 | a3
      · rcases a2 with a2 | a2
        · omega
        · rcases a2 v hv with h1 | h1
          · rw [a3] at h1; cases h1
          · exact h1 e he
      · omega
    · rw [hsize i hij] at hlt
      have := h.full i (by omega) hlt v ((hsame i hij v).1 hv) e he
      rw [a1.keep e.1 this]; exact this
  · exact h.single i t' (by omega) hit v ((hsame i (by omega) v).1 hv)

theorem start_map (terminals : List Nat) (hn : terminals.Nodup) :
    (∀ i t, terminals[i]? = some t →
      terminals.zipIdx.foldl (fun (m : Nat → Option Nat) ti => update m ti.1 (some ti.2)) noTerminal t = some i) ∧
    ∀ v i, terminals.zipIdx.foldl (fun (m : Nat → Option Nat) ti => update m ti.1 (some ti.2)) noTerminal v = some i →
      terminals[i]? = some v := by
  induction terminals using List.reverseRecOn with
  | nil => simp [noTerminal]
  | append_singleton l x ih =>
    have hn' := List.nodup_append.1 hn
    obtain ⟨h1, h2⟩ := ih hn'.1
    rw [List.zipIdx_append, List.foldl_append]
    simp only [List.zipIdx_cons, List.zipIdx_nil, List.foldl_cons, List.foldl_nil, Nat.zero_add]
    refine ⟨fun i t hit => ?_, fun v i hv => ?_⟩
    · by_cases hi : i < l.length
      · rw [List.getElem?_append_left hi] at hit
        have hne : t ≠ x := fun e => hn'.2.2 t (List.mem_of_getElem? hit) x (by simp) e
        rw [update_of_ne hne]
        exact h1 i t hit
      · rw [List.getElem?_append_right (by omega)] at hit
        have hi0 : i - l.length = 0 := by
          have := (List.getElem?_eq_some_iff.1 hit).1
          simp at this; omega
        rw [hi0] at hit
        have : x = t := by simpa using hit
        subst this
        rw [update_self]
        congr 1
        omega
    · by_cases hvx : v = x
      · subst hvx
        rw [update_self] at hv
        have : l.length = i := Option.some.inj hv
        subst this
        rw [List.getElem?_append_right (Nat.le_refl _)]
        simp
      · rw [update_of_ne hvx] at hv
        have := h2 v i hv
        rw [List.getElem?_append_left (List.getElem?_eq_some_iff.1 this).1]
        exact this

theorem surround_inv {G : Graph} (hG : G.WF) (bfs : Nat) {terminals : List Nat} (hn : terminals.Nodup)
    (hlt : ∀ t ∈ terminals, t < G.n) : MInv G bfs terminals (if 1 < bfs then terminals.length else 0) (surround G bfs terminals) := by
  obtain ⟨h1, h2⟩ := start_map terminals hn
  have h0 : MInv G bfs terminals 0 (terminals.zipIdx.foldl (fun (m : Nat → Option Nat) ti => update m ti.1 (some ti.2)) noTerminal) := by
    generalize terminals.zipIdx.foldl (fun (m : Nat → Option Nat) ti => update m ti.1 (some ti.2)) noTerminal = m at h1 h2
    refine ⟨h1, fun v i hv => ?_, fun i hi => ?_, fun i hi => absurd hi (by omega), fun i t _ hit v hv => ?_⟩
    · have := h2 v i hv
      exact ⟨hlt v (List.mem_of_getElem? this), v, this, .refl⟩
    · refine Nat.le_trans ?_ (Nat.le_max_left _ _)
      unfold sizeOf
      rw [Finset.card_le_one]
      intro a ha b hb
      simp only [Finset.mem_filter] at ha hb
      have ea := h2 a i ha.2
      have eb := h2 b i hb.2
      rw [ea] at eb
      exact Option.some.inj eb
    · have := h2 v i hv
      rw [hit] at this
      exact (Option.some.inj this).symm
  unfold surround
  dsimp only
  by_cases hb : 1 < bfs
  · rw [if_pos hb, if_pos hb]
    generalize terminals.zipIdx.foldl (fun (m : Nat → Option Nat) ti => update m ti.1 (some ti.2)) noTerminal = m at h0
    have key : ∀ (l1 l2 : List Nat), terminals = l1 ++ l2 → ∀ m, MInv G bfs terminals l1.length m →
        MInv G bfs terminals terminals.length ((l2.zipIdx l1.length).foldl (area G bfs) m) := by
      intro l1 l2
      induction l2 generalizing l1 with
      | nil => intro e m hm; rw [e] at hm ⊢; simpa using hm
      | cons x l2 ih =>
        intro e m hm
        rw [List.zipIdx_cons, List.foldl_cons]
        have hx : terminals[l1.length]? = some x := by
          rw [e, List.getElem?_append_right (Nat.le_refl _)]; simp
        have := ih (l1 ++ [x]) (by rw [e]; simp) (area G bfs m (x, l1.length)) (by
          rw [List.length_append, List.length_singleton]
          exact area_inv hG hb hn hx hm)
        rw [List.length_append, List.length_singleton] at this
        exact this
    exact key [] terminals rfl m h0
  · rw [if_neg hb, if_neg hb]; exact h0

/-! ### The loop ends for every mapping -/

theorem areaFold_measure {n bfs i : Nat} (l : List Nat) (hl : ∀ v ∈ l, v < n) (s : Area) :
    (l.foldl (areaEdge bfs i) s).queue.length + freeOf n (l.foldl (areaEdge bfs i) s).map = s.queue.length + freeOf n s.map := by
  induction l generalizing s with
  | nil => rfl
  | cons v l ih =>
    rw [List.foldl_cons, ih (fun y hy => hl y (List.mem_cons_of_mem _ hy))]
    unfold areaEdge
    by_cases hb : bfs ≤ s.size
    · rw [if_pos hb]
    · rw [if_neg hb]
      by_cases hm : s.map v = none
      · rw [if_pos hm]
        have := freeOf_update (i := i) (hl v List.mem_cons_self) hm
        simp only [List.length_append, List.length_singleton]
        omega
      · rw [if_neg hm]

theorem area_ends {G : Graph} (hG : G.WF) {bfs i : Nat} (N : Nat) (s : Area) (hN : s.queue.length + freeOf G.n s.map ≤ N) :
    ((areaStep G bfs i)^[N] s).queue = [] ∨ bfs ≤ ((areaStep G bfs i)^[N] s).size := by
  induction N generalizing s with
  | zero => exact Or.inl (List.eq_nil_of_length_eq_zero (by show s.queue.length = 0; omega))
  | succ N ih =>
    by_cases hs : areaStep G bfs i s = s
    · rw [iterate_fixed hs]
      unfold areaStep at hs
      cases hq : s.queue with
      | nil => exact Or.inl rfl
      | cons v q =>
        right
        by_contra hb
        rw [hq] at hs
        dsimp only at hs
        rw [if_neg hb] at hs
        have hl : ∀ y ∈ (G.edges v).map (·.1), y < G.n := by
          intro y hy
          obtain ⟨e, he, rfl⟩ := List.mem_map.1 hy
          exact hG.tgt_lt v e he
        have := areaFold_measure (bfs := bfs) (i := i) _ hl { s with queue := q }
        rw [hs, hq, List.length_cons] at this
        dsimp only at this
        omega
    · rw [iterate_succ_apply]
      refine ih _ ?_
      unfold areaStep at hs ⊢
      cases hq : s.queue with
      | nil => rw [hq] at hs; exact absurd rfl hs
      | cons v q =>
        rw [hq] at hs hN
        dsimp only at hs ⊢
        by_cases hb : bfs ≤ s.size
        · rw [if_pos hb] at hs; exact absurd rfl hs
        · rw [if_neg hb]
          have hl : ∀ y ∈ (G.edges v).map (·.1), y < G.n := by
            intro y hy
            obtain ⟨e, he, rfl⟩ := List.mem_map.1 hy
            exact hG.tgt_lt v e he
          rw [areaFold_measure _ hl]
          rw [List.length_cons] at hN
          dsimp only
          omega

theorem freeOf_lt {n : Nat} {m : Nat → Option Nat} {t : Nat} (ht : t < n) (h : m t ≠ none) : freeOf n m < n := by
  unfold freeOf
  calc _ < (Finset.range n).card := Finset.card_lt_card (Finset.filter_ssubset.2 ⟨t, Finset.mem_range.2 ht, h⟩)
    _ = n := Finset.card_range _

/-! ### Repeated terminals -/

theorem start_last (terminals : List Nat) (v i : Nat)
    (h : terminals.zipIdx.foldl (fun (m : Nat → Option Nat) ti => update m ti.1 (some ti.2)) noTerminal v = some i) :
    terminals[i]? = some v ∧ ∀ j, i < j → terminals[j]? ≠ some v := by
  induction terminals using List.reverseRecOn with
  | nil => cases h
  | append_singleton l x ih =>
    rw [List.zipIdx_append, List.foldl_append] at h
    simp only [List.zipIdx_cons, List.zipIdx_nil, List.foldl_cons, List.foldl_nil, Nat.zero_add] at h
    by_cases hvx : v = x
    · subst hvx
      rw [update_self] at h
      have : l.length = i := Option.some.inj h
      subst this
      refine ⟨by simp, fun j hj => ?_⟩
      rw [List.getElem?_eq_none (by simp; omega)]
      simp
    · rw [update_of_ne hvx] at h
      obtain ⟨h1, h2⟩ := ih h
      have hlt := (List.getElem?_eq_some_iff.1 h1).1
      refine ⟨by rw [List.getElem?_append_left hlt]; exact h1, fun j hj => ?_⟩
      by_cases hjl : j < l.length
      · rw [List.getElem?_append_left hjl]; exact h2 j hj
      · rw [List.getElem?_append_right (by omega)]
        intro hc
        have := List.mem_of_getElem? hc
        exact hvx (List.mem_singleton.1 this)

/-! ### Terminals without areas -/

theorem keeping_iff {n : Nat} {w : Nat → Nat → Nat} {G : Graph} {bfs : Nat} (hb : bfs ≤ 1) {ts : List Nat} (hn : ts.Nodup)
    (hlt : ∀ t ∈ ts, t < n) (c : Nat) : IsMinKeeping n w (surround G bfs ts) c ↔ IsMinMulticut n w ts c := by
  obtain ⟨h1, h2⟩ := start_map ts hn
  have hs : surround G bfs ts = ts.zipIdx.foldl (fun (m : Nat → Option Nat) ti => update m ti.1 (some ti.2)) noTerminal := by
    unfold surround; dsimp only; rw [if_neg (by omega)]
  rw [← hs] at h1 h2
  have hkeep : ∀ f, Keeps n (surround G bfs ts) f → Separates ts f := by
    intro f hf s hs t ht hne
    obtain ⟨i, hi⟩ := List.mem_iff_getElem?.1 hs
    obtain ⟨j, hj⟩ := List.mem_iff_getElem?.1 ht
    rw [hf s (hlt s hs) i (h1 i s hi), hf t (hlt t ht) j (h1 j t hj)]
    rintro rfl
    rw [hi] at hj
    exact hne (Option.some.inj hj)
  have hsep : ∀ f, Separates ts f → ∃ f', Keeps n (surround G bfs ts) f' ∧ multicutValue n w f' ≤ multicutValue n w f := by
    intro f hf
    refine ⟨fun v => (ts.findIdx? fun t => f t == f v).getD 0, fun v _ t ht => ?_, ?_⟩
    · have hv := h2 v t ht
      have hlt' := (List.getElem?_eq_some_iff.1 hv).1
      have hveq := (List.getElem?_eq_some_iff.1 hv).2
      have : (ts.findIdx? fun t => f t == f v) = some t := by
        rw [List.findIdx?_eq_some_iff_getElem]
        refine ⟨hlt', by rw [hveq]; simp, fun j hj => ?_⟩
        simp only [Bool.not_eq_true, beq_eq_false_iff_ne, ne_eq]
        have hvm : v ∈ ts := List.mem_of_getElem? hv
        refine hf _ (List.getElem_mem _) v hvm ?_
        intro hc
        have : j = t := (List.Nodup.getElem_inj_iff hn).1 (hc.trans hveq.symm)
        omega
      show (ts.findIdx? fun t => f t == f v).getD 0 = t
      rw [this]; rfl
    · refine multicut_mono ?_
      intro u v _ _ huv
      rw [huv]
  constructor
  · rintro ⟨⟨f, hf, hfc⟩, hmin⟩
    refine ⟨⟨f, hkeep f hf, hfc⟩, fun f' hf' => ?_⟩
    obtain ⟨f'', h3, h4⟩ := hsep f' hf'
    exact Nat.le_trans (hmin f'' h3) h4
  · rintro ⟨⟨f, hf, hfc⟩, hmin⟩
    obtain ⟨f', h3, h4⟩ := hsep f hf
    refine ⟨⟨f', h3, ?_⟩, fun f'' hf'' => hmin f'' (hkeep f'' hf'')⟩
    have := hmin f' (hkeep f' h3)
    omega

end Terminals
end VieCut
