import Verif.Model.GraphAccess
import Verif.Proof.Cut
import Mathlib.Data.List.Basic
import Mathlib.Data.List.Count
import Mathlib.Tactic.Ring

namespace VieCut
namespace CSR
open Function

/-- Inserted edges `(source, target, weight)` of a construction, without self loops. -/
def inserted : List Op → List (Nat × Nat × Nat)
  | [] => []
  | .newNode :: l => inserted l
  | .newEdge s t w :: l => if s = t then inserted l else (s, t, w) :: inserted l

theorem filter_split (v : Nat) (L : List (Nat × Nat × Nat)) (h : L.Pairwise (fun a b => a.1 ≤ b.1)) :
    L.filter (fun x => decide (x.1 < v)) ++ L.filter (fun x => decide (v ≤ x.1)) = L := by
  induction L with
  | nil => rfl
  | cons a l ih =>
    rw [List.pairwise_cons] at h
    by_cases ha : a.1 < v
    · rw [List.filter_cons_of_pos (by simpa using ha), List.filter_cons_of_neg (by simpa using ha),
        List.cons_append, ih h.2]
    · have hl : l.filter (fun x => decide (x.1 < v)) = [] := by
        rw [List.filter_eq_nil_iff]
        intro x hx
        have := h.1 x hx
        simp; omega
      have hl2 : l.filter (fun x => decide (v ≤ x.1)) = l := by
        rw [List.filter_eq_self]
        intro x hx
        have := h.1 x hx
        simp; omega
      rw [List.filter_cons_of_neg (by simpa using ha), List.filter_cons_of_pos (by simp; omega), hl, hl2]
      rfl

theorem filter_split3 (v : Nat) (L : List (Nat × Nat × Nat)) (h : L.Pairwise (fun a b => a.1 ≤ b.1)) :
    L = L.filter (fun x => decide (x.1 < v)) ++ (L.filter (fun x => x.1 == v) ++
      L.filter (fun x => decide (v + 1 ≤ x.1))) := by
  have h1 := filter_split v L h
  have h2 := filter_split (v + 1) (L.filter (fun x => decide (v ≤ x.1))) (h.sublist List.filter_sublist)
  rw [List.filter_filter, List.filter_filter] at h2
  have e1 : L.filter (fun x => decide (x.1 < v + 1) && decide (v ≤ x.1)) = L.filter (fun x => x.1 == v) := by
    refine List.filter_congr fun x _ => ?_
    by_cases hx : x.1 = v
    · simp [hx]
    · have : ¬ (x.1 < v + 1 ∧ v ≤ x.1) := by omega
      simp only [beq_eq_false_iff_ne.2 hx]
      rw [← Bool.decide_and]
      exact decide_eq_false this
  have e2 : L.filter (fun x => decide (v + 1 ≤ x.1) && decide (v ≤ x.1)) = L.filter (fun x => decide (v + 1 ≤ x.1)) := by
    refine List.filter_congr fun x _ => ?_
    rw [← Bool.decide_and]
    congr 1
    exact propext ⟨fun h => h.1, fun h => ⟨h, by omega⟩⟩
  rw [e1, e2] at h2
  rw [h2]; exact h1.symm

/-- Number of inserted edges with source below `i`. -/
def below (L : List (Nat × Nat × Nat)) (i : Nat) : Nat := (L.filter (fun x => decide (x.1 < i))).length

theorem below_succ (L : List (Nat × Nat × Nat)) (v : Nat) :
    below L (v + 1) = below L v + (L.filter (fun x => x.1 == v)).length := by
  induction L with
  | nil => rfl
  | cons a l ih =>
    unfold below at *
    simp only [List.filter_cons]
    by_cases h1 : a.1 < v
    · have h2 : a.1 < v + 1 := by omega
      have h3 : (a.1 == v) = false := by rw [beq_eq_false_iff_ne]; omega
      simp only [h1, h2, h3, decide_true, if_true, List.length_cons, Bool.false_eq_true, if_false]
      omega
    · by_cases h2 : a.1 = v
      · simp only [h2, Nat.lt_irrefl, Nat.lt_succ_self, decide_true, decide_false, beq_self_eq_true, if_true,
          List.length_cons, Bool.false_eq_true, if_false]
        omega
      · have h3 : ¬ a.1 < v + 1 := by omega
        have h4 : (a.1 == v) = false := by rw [beq_eq_false_iff_ne]; exact h2
        simp only [h1, h3, h4, decide_false, Bool.false_eq_true, if_false]
        exact ih

theorem below_all {L : List (Nat × Nat × Nat)} {k : Nat} (h : ∀ x ∈ L, x.1 < k) {i : Nat} (hi : k ≤ i) :
    below L i = L.length := by
  unfold below
  rw [List.filter_eq_self.2]
  intro x hx
  have := h x hx
  simp; omega

theorem below_append (L L' : List (Nat × Nat × Nat)) (i : Nat) : below (L ++ L') i = below L i + below L' i := by
  simp [below]

theorem below_mono (L : List (Nat × Nat × Nat)) {i j : Nat} (h : i ≤ j) : below L i ≤ below L j := by
  induction h with
  | refl => exact le_refl _
  | step h ih => rw [below_succ]; omega

/-- State during construction. -/
structure Inv (g : CSR) (L : List (Nat × Nat × Nat)) : Prop where
  edges : g.edges = L.map (·.2)
  lt : ∀ x ∈ L, x.1 < g.srcs
  le : ∀ s, (∀ x ∈ L, x.1 ≤ s) → g.srcs ≤ s + 1
  first : ∀ i, i ≤ g.srcs → g.first i = below L i

theorem Inv.start (n : Nat) : Inv (start n) [] :=
  ⟨rfl, by simp, fun s _ => Nat.zero_le _, by intro i hi; rfl⟩

theorem Inv.newEdge {g : CSR} {L : List (Nat × Nat × Nat)} (h : Inv g L) {s t w : Nat} (hst : s ≠ t)
    (hs : ∀ x ∈ L, x.1 ≤ s) : Inv (g.newEdge s t w).2 (L ++ [(s, t, w)]) := by
  unfold CSR.newEdge
  rw [if_neg hst]
  have hk := h.le s hs
  have hlen : g.edges.length = L.length := by rw [h.edges]; simp
  have hsame : ∀ i, i ≤ s → below (L ++ [(s, t, w)]) i = below L i := by
    intro i hi
    rw [below_append]
    have : below [(s, t, w)] i = 0 := by
      unfold below
      rw [List.filter_cons_of_neg (by simp; omega)]; rfl
    omega
  refine ⟨by simp [h.edges], ?_, ?_, ?_⟩
  · intro x hx
    rcases List.mem_append.1 hx with hx | hx
    · have := hs x hx; simp only; omega
    · rw [List.mem_singleton.1 hx]; simp
  · intro s' hs'
    have := hs' (s, t, w) (by simp)
    simp only at this ⊢; omega
  · intro i hi
    simp only at hi ⊢
    have hfin : ∀ j, j ≤ s + 1 → j ≠ s + 1 → j ≤ g.srcs →
        update g.first (s + 1) (g.edges.length + 1) j = below (L ++ [(s, t, w)]) j := by
      intro j hj hne hjs
      rw [update_of_ne hne, h.first j hjs, hsame j (by omega)]
    have hlast : update g.first (s + 1) (g.edges.length + 1) (s + 1) = below (L ++ [(s, t, w)]) (s + 1) := by
      rw [update_self, below_append, below_all (k := s + 1) (fun x hx => by have := hs x hx; omega) (le_refl _), hlen]
      have : below [(s, t, w)] (s + 1) = 1 := by
        unfold below
        rw [List.filter_cons_of_pos (by simp)]; rfl
      omega
    by_cases hc : g.srcs < s
    · rw [if_pos hc]
      by_cases hci : g.srcs < i ∧ i ≤ s
      · rw [if_pos hci, hfin g.srcs (by omega) (by omega) (le_refl _), hsame _ (by omega), hsame _ hci.2,
          below_all h.lt (le_refl _), below_all h.lt (by omega)]
      · rw [if_neg hci]
        by_cases hi1 : i = s + 1
        · rw [hi1]; exact hlast
        · exact hfin i hi hi1 (by omega)
    · rw [if_neg hc]
      by_cases hi1 : i = s + 1
      · rw [hi1]; exact hlast
      · exact hfin i hi hi1 (by omega)

/-- Sources of the inserted edges do not decrease and are vertices. -/
def Sorted (n : Nat) (ops : List Op) : Prop :=
  (inserted ops).Pairwise (fun a b => a.1 ≤ b.1) ∧ ∀ x ∈ inserted ops, x.1 < n

/-- Number of `new_node` calls. -/
def nodeCalls : List Op → Nat
  | [] => 0
  | .newNode :: l => nodeCalls l + 1
  | .newEdge _ _ _ :: l => nodeCalls l

theorem Inv.run (ops : List Op) : ∀ {g : CSR} {L : List (Nat × Nat × Nat)}, Inv g L →
    (L ++ inserted ops).Pairwise (fun a b => a.1 ≤ b.1) →
    Inv (ops.foldl Op.apply g) (L ++ inserted ops) ∧ (ops.foldl Op.apply g).node = g.node + nodeCalls ops ∧
    (ops.foldl Op.apply g).n = g.n := by
  induction ops with
  | nil => intro g L h _; simpa [inserted, nodeCalls] using h
  | cons o ops ih =>
    intro g L h hp
    rw [List.foldl_cons]
    cases o with
    | newNode =>
      have h' : Inv (Op.apply g .newNode) L := ⟨h.edges, h.lt, h.le, h.first⟩
      obtain ⟨a, b, c⟩ := ih h' hp
      refine ⟨a, ?_, c⟩
      rw [b]; simp only [Op.apply, CSR.newNode, nodeCalls]; omega
    | newEdge s t w =>
      by_cases hst : s = t
      · simp only [inserted, if_pos hst] at hp ⊢
        have e : Op.apply g (.newEdge s t w) = g := by simp [Op.apply, CSR.newEdge, hst]
        rw [e]
        exact ih h hp
      · simp only [inserted, if_neg hst] at hp ⊢
        have hle : ∀ x ∈ L, x.1 ≤ s := by
          intro x hx
          exact (List.pairwise_append.1 hp).2.2 x hx (s, t, w) (by simp)
        have h' := h.newEdge (w := w) hst hle
        have := ih h' (by rw [List.append_assoc]; exact hp)
        rw [List.append_assoc] at this
        obtain ⟨a, b, c⟩ := this
        refine ⟨a, ?_, ?_⟩
        · show (ops.foldl Op.apply (g.newEdge s t w).2).node = _
          rw [b]; simp only [nodeCalls, CSR.newEdge, if_neg hst]
        · show (ops.foldl Op.apply (g.newEdge s t w).2).n = _
          rw [c]; simp only [CSR.newEdge, if_neg hst]

/-- A finished graph holding the edges `L`. -/
structure Holds (g : CSR) (n : Nat) (L : List (Nat × Nat × Nat)) : Prop where
  n_eq : g.n = n
  edges : g.edges = L.map (·.2)
  first : ∀ i, i ≤ n → g.first i = below L i
  sorted : L.Pairwise (fun a b => a.1 ≤ b.1)
  lt : ∀ x ∈ L, x.1 < n

theorem Inv.finish {g : CSR} {L : List (Nat × Nat × Nat)} (h : Inv g L) {n : Nat} (hn : g.n = n) (hnode : g.node = n)
    (hp : L.Pairwise (fun a b => a.1 ≤ b.1)) (hlt : ∀ x ∈ L, x.1 < n) : Holds g.finish n L := by
  refine ⟨hn, h.edges, ?_, hp, hlt⟩
  have hk : g.srcs ≤ n ∨ (n = 0) := by
    rcases Nat.eq_zero_or_pos n with h0 | h0
    · exact Or.inr h0
    · left
      have := h.le (n - 1) (fun x hx => by have := hlt x hx; omega)
      omega
  intro i hi
  unfold CSR.finish
  simp only
  by_cases hc : g.srcs ≠ g.node
  · rw [if_pos hc]
    by_cases hci : g.srcs < i ∧ i ≤ g.node
    · rw [if_pos hci, h.first _ (le_refl _), below_all h.lt (le_refl _), below_all h.lt (by omega)]
    · rw [if_neg hci]
      exact h.first i (by omega)
  · rw [if_neg hc]; exact h.first i (by omega)

theorem range_getD (l : List (Nat × Nat)) (k c : Nat) (h : k + c ≤ l.length) :
    (List.range c).map (fun i => l.getD (k + i) (0, 0)) = (l.drop k).take c := by
  apply List.ext_getElem?
  intro i
  rw [List.getElem?_map, List.getElem?_take, List.getElem?_drop]
  by_cases hi : i < c
  · rw [List.getElem?_range hi, if_pos hi, Option.map_some, List.getD_eq_getElem?_getD,
      List.getElem?_eq_getElem (by omega)]
    rfl
  · rw [if_neg hi, List.getElem?_eq_none (by simpa using hi)]; rfl

theorem Holds.adj {g : CSR} {n : Nat} {L : List (Nat × Nat × Nat)} (h : Holds g n L) {v : Nat} (hv : v < n) :
    g.adj v = (L.filter (fun x => x.1 == v)).map (·.2) := by
  have h1 := h.first v (by omega)
  have h2 := h.first (v + 1) (by omega)
  have h3 := below_succ L v
  have hsp := filter_split3 v L h.sorted
  unfold CSR.adj edgeIds
  rw [List.map_map, h2, h1, h3, Nat.add_sub_cancel_left]
  have e : (g.getEdge ∘ fun i => below L v + i) = fun i => g.edges.getD (below L v + i) (0, 0) := rfl
  have hlen : L.length = below L v + ((L.filter (fun x => x.1 == v)).length +
      (L.filter (fun x => decide (v + 1 ≤ x.1))).length) := by
    have := congrArg List.length hsp
    rwa [List.length_append, List.length_append] at this
  rw [e, range_getD _ _ _ (by rw [h.edges, List.length_map]; omega), h.edges, ← List.map_drop, ← List.map_take]
  have hgen : ∀ (A B C M : List (Nat × Nat × Nat)), M = A ++ (B ++ C) → (M.drop A.length).take B.length = B := by
    intro A B C M hM
    rw [hM, List.drop_left' (by rfl), List.take_left' (by rfl)]
  exact congrArg _ (hgen _ _ _ _ hsp)

theorem Holds.edgeSource {g : CSR} {n : Nat} {L : List (Nat × Nat × Nat)} (h : Holds g n L) {v e : Nat} (hv : v < n)
    (h1 : g.first v ≤ e) (h2 : e < g.first (v + 1)) : g.getEdgeSource e = v := by
  unfold getEdgeSource
  have hmono : ∀ i j, i ≤ j → j ≤ n → g.first i ≤ g.first j := by
    intro i j hij hj
    rw [h.first i (by omega), h.first j hj]; exact below_mono L hij
  have hsplit : List.range (g.n + 1) = List.range (v + 1) ++ (List.range (n - v)).map (fun i => v + 1 + i) := by
    rw [h.n_eq]
    have : n + 1 = (v + 1) + (n - v) := by omega
    rw [this, List.range_add]
  rw [hsplit, List.takeWhile_append_of_pos]
  · have : n - v = (n - v - 1) + 1 := by omega
    have e2 : (List.range (n - v)).map (fun i => v + 1 + i) =
        (v + 1) :: ((List.range (n - v - 1)).map Nat.succ).map (fun i => v + 1 + i) := by
      rw [this, List.range_succ_eq_map, List.map_cons]; rfl
    rw [e2, List.takeWhile_cons_of_neg (by simp; omega)]
    simp
  · intro i hi
    have := hmono i v (by simp at hi; omega) (by omega)
    simp; omega

theorem build_holds {n : Nat} {ops : List Op} (hs : Sorted n ops) (hn : nodeCalls ops = n) :
    Holds (build n ops) n (inserted ops) := by
  obtain ⟨a, b, c⟩ := Inv.run ops (Inv.start n) (by simpa using hs.1)
  rw [List.nil_append] at a
  exact a.finish c (by rw [b, hn]; simp [CSR.start]) hs.1 hs.2

theorem mem_edgeIds {g : CSR} {v e : Nat} : e ∈ g.edgeIds v ↔ g.first v ≤ e ∧ e < g.first (v + 1) := by
  unfold edgeIds
  rw [List.mem_map]
  constructor
  · rintro ⟨i, hi, rfl⟩
    rw [List.mem_range] at hi
    omega
  · intro h
    exact ⟨e - g.first v, by rw [List.mem_range]; omega, by omega⟩

/-! ### `copy` -/

theorem copyEdge_spec {h : CSR} {L : List (Nat × Nat × Nat)} (hi : Inv h L) {v : Nat} {e : Nat × Nat} (he : v ≠ e.1) :
    (hs : ∀ x ∈ L, x.1 ≤ v) →
    ∃ h', copyEdge v (some h) e = some h' ∧ Inv h' (L ++ [(v, e.1, e.2)]) ∧ h'.node = h.node ∧ h'.n = h.n := by
  intro hs
  have h1 := hi.newEdge (w := 1) he hs
  have hlen : h.edges.length = L.length := by rw [hi.edges]; simp
  have hE : (h.newEdge v e.1 1).2.edges = h.edges ++ [(e.1, 1)] := by
    unfold CSR.newEdge; rw [if_neg he]
  have hid : (h.newEdge v e.1 1).1 = h.edges.length := by
    unfold CSR.newEdge; rw [if_neg he]
  have hlt : h.edges.length < (h.newEdge v e.1 1).2.edges.length := by rw [hE]; simp
  unfold copyEdge CSR.setEdgeWeight
  simp only [Option.bind_some]
  rw [hid, dif_pos hlt]
  have hbelow : ∀ i, below (L ++ [(v, e.1, e.2)]) i = below (L ++ [(v, e.1, 1)]) i := by
    intro i
    rw [below_append, below_append]
    congr 1
    unfold below
    by_cases hv : v < i
    · simp [hv]
    · simp [hv]
  refine ⟨_, rfl, ⟨?_, ?_, ?_, ?_⟩, ?_, ?_⟩
  · have h2 : (h.newEdge v e.1 1).2.edges[h.edges.length].1 = e.1 := by
      simp [hE]
    rw [h2]
    simp only [hE]
    rw [List.set_append_right _ _ (le_refl _), Nat.sub_self, hi.edges]
    simp
  · intro x hx
    rcases List.mem_append.1 hx with hx | hx
    · exact h1.lt x (by simp [hx])
    · have := h1.lt (v, e.1, 1) (by simp)
      rw [List.mem_singleton.1 hx]; exact this
  · intro s hs'
    refine h1.le s ?_
    intro x hx
    rcases List.mem_append.1 hx with hx | hx
    · exact hs' x (by simp [hx])
    · have := hs' (v, e.1, e.2) (by simp)
      rw [List.mem_singleton.1 hx]; exact this
  · intro i hi'
    rw [hbelow]; exact h1.first i hi'
  · simp only [CSR.newEdge, if_neg he]
  · simp only [CSR.newEdge, if_neg he]

theorem copyRow_spec (v : Nat) (row : List (Nat × Nat)) : ∀ {h : CSR} {L : List (Nat × Nat × Nat)}, Inv h L →
    (∀ e ∈ row, v ≠ e.1) → (∀ x ∈ L, x.1 ≤ v) →
    ∃ h', row.foldl (copyEdge v) (some h) = some h' ∧ Inv h' (L ++ row.map (fun e => (v, e.1, e.2))) ∧
      h'.node = h.node ∧ h'.n = h.n := by
  induction row with
  | nil => intro h L hi _ _; exact ⟨h, rfl, by simpa using hi, rfl, rfl⟩
  | cons e row ih =>
    intro h L hi hne hs
    obtain ⟨h1, a, b, c, d⟩ := copyEdge_spec hi (hne e (by simp)) hs
    rw [List.foldl_cons, a]
    obtain ⟨h2, a2, b2, c2, d2⟩ := ih b (fun e' he' => hne e' (by simp [he'])) (by
      intro x hx
      rcases List.mem_append.1 hx with hx | hx
      · exact hs x hx
      · rw [List.mem_singleton.1 hx])
    refine ⟨h2, a2, ?_, by omega, by omega⟩
    simpa using b2

/-- The rows of a graph as a list of inserted edges. -/
def rowsFlat (f : Nat → List (Nat × Nat)) (k : Nat) : List (Nat × Nat × Nat) :=
  (List.range k).flatMap (fun v => (f v).map (fun e => (v, e.1, e.2)))

theorem rowsFlat_lt {f : Nat → List (Nat × Nat)} {k : Nat} : ∀ x ∈ rowsFlat f k, x.1 < k := by
  intro x hx
  obtain ⟨v, hv, hx⟩ := List.mem_flatMap.1 hx
  obtain ⟨e, _, rfl⟩ := List.mem_map.1 hx
  simpa using hv

theorem rowsFlat_succ (f : Nat → List (Nat × Nat)) (k : Nat) :
    rowsFlat f (k + 1) = rowsFlat f k ++ (f k).map (fun e => (k, e.1, e.2)) := by
  unfold rowsFlat
  rw [List.range_succ, List.flatMap_append]; simp

theorem rowsFlat_sorted (f : Nat → List (Nat × Nat)) (k : Nat) :
    (rowsFlat f k).Pairwise (fun a b => a.1 ≤ b.1) := by
  induction k with
  | zero => simp [rowsFlat]
  | succ k ih =>
    rw [rowsFlat_succ, List.pairwise_append]
    refine ⟨ih, ?_, ?_⟩
    · rw [List.pairwise_map]
      exact List.pairwise_of_forall (fun _ _ => le_refl k)
    · intro a ha b hb
      have := rowsFlat_lt a ha
      obtain ⟨e, _, rfl⟩ := List.mem_map.1 hb
      simp only; omega

theorem rowsFlat_filter (f : Nat → List (Nat × Nat)) (k v : Nat) :
    ((rowsFlat f k).filter (fun x => x.1 == v)).map (·.2) = if v < k then f v else [] := by
  induction k with
  | zero => simp [rowsFlat]
  | succ k ih =>
    rw [rowsFlat_succ, List.filter_append, List.map_append, ih]
    by_cases hv : v = k
    · subst hv
      have : ((f v).map (fun e => (v, e.1, e.2))).filter (fun x => x.1 == v) = (f v).map (fun e => (v, e.1, e.2)) := by
        rw [List.filter_eq_self]
        intro x hx
        obtain ⟨e, _, rfl⟩ := List.mem_map.1 hx
        simp
      rw [this, if_neg (by omega), if_pos (by omega), List.map_map]
      simp [Function.comp_def]
    · have : ((f k).map (fun e => (k, e.1, e.2))).filter (fun x => x.1 == v) = [] := by
        rw [List.filter_eq_nil_iff]
        intro x hx
        obtain ⟨e, _, rfl⟩ := List.mem_map.1 hx
        simp; omega
      rw [this]
      by_cases h2 : v < k
      · rw [if_pos h2, if_pos (by omega)]; simp
      · rw [if_neg h2, if_neg (by omega)]; simp

/-- Rebuilding rows `f 0, f 1, …` (without self loops) vertex by vertex. -/
theorem rebuild_spec (n : Nat) (f : Nat → List (Nat × Nat)) (hf : ∀ v, v < n → ∀ e ∈ f v, e.1 ≠ v) (k : Nat) (hk : k ≤ n) :
    ∃ h, (List.range k).foldl (fun h v => (f v).foldl (copyEdge v) (h.map newNode)) (some (start n)) = some h ∧
      Inv h (rowsFlat f k) ∧ h.node = k ∧ h.n = n := by
  induction k with
  | zero => exact ⟨start n, rfl, Inv.start n, rfl, rfl⟩
  | succ k ih =>
    obtain ⟨h, a, b, c, d⟩ := ih (by omega)
    rw [List.range_succ, List.foldl_append, a]
    simp only [List.foldl_cons, List.foldl_nil, Option.map_some]
    have b' : Inv h.newNode (rowsFlat f k) := ⟨b.edges, b.lt, b.le, b.first⟩
    obtain ⟨h2, a2, b2, c2, d2⟩ := copyRow_spec k (f k) b' (fun e he => (hf k (by omega) e he).symm)
      (fun x hx => le_of_lt (rowsFlat_lt x hx))
    refine ⟨h2, a2, ?_, ?_, ?_⟩
    · rw [rowsFlat_succ]; exact b2
    · rw [c2]; simp only [newNode]; omega
    · rw [d2]; exact d

theorem rebuild_holds (n : Nat) (f : Nat → List (Nat × Nat)) (hf : ∀ v, v < n → ∀ e ∈ f v, e.1 ≠ v) :
    ∃ h, ((List.range n).foldl (fun h v => (f v).foldl (copyEdge v) (h.map newNode)) (some (start n))).map finish
      = some h ∧ Holds h n (rowsFlat f n) ∧ ∀ v, v < n → h.adj v = f v := by
  obtain ⟨h, a, b, c, d⟩ := rebuild_spec n f hf n (le_refl _)
  rw [a]
  have hh := b.finish d c (rowsFlat_sorted f n) rowsFlat_lt
  refine ⟨h.finish, rfl, hh, ?_⟩
  intro v hv
  rw [hh.adj hv, rowsFlat_filter, if_pos hv]

end CSR
end VieCut
