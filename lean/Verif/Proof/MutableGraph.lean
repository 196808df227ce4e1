import Verif.Model.MutableGraph
import Verif.Proof.Cut
import Mathlib.Algebra.BigOperators.Group.Finset.Piecewise
import Mathlib.Algebra.BigOperators.Intervals

/-! Half-edge invariants of `mutable_graph`. -/

namespace VieCut.MGraph
open Function Finset

/-- Partial validity: `L` is a set of live half edges closed under the partner relation. -/
def PV (g : MGraph) (L : Nat → Nat → Prop) : Prop :=
  ∀ u e, L u e → e < g.len u ∧ L (g.edge u e).target (g.edge u e).rev ∧
    (g.edge (g.edge u e).target (g.edge u e).rev).target = u ∧
    (g.edge (g.edge u e).target (g.edge u e).rev).rev = e ∧
    (g.edge (g.edge u e).target (g.edge u e).rev).weight = (g.edge u e).weight ∧
    (g.edge u e).target ≠ u

/-- Sum of `f target weight` over the edges of `u`. -/
def rowSum (g : MGraph) (f : Nat → Nat → Nat) (u : Nat) : Nat :=
  ∑ e ∈ range (g.len u), f (g.edge u e).target (g.edge u e).weight

@[simp] theorem setEdge_edge (g : MGraph) (u e : Nat) (r : RevEdge) (a b : Nat) :
    (g.setEdge u e r).edge a b = if a = u ∧ b = e then r else g.edge a b := by
  simp only [setEdge, update_apply]
  by_cases h1 : a = u
  · subst h1; by_cases h2 : b = e <;> simp [h2]
  · simp [h1]

@[simp] theorem setEdge_len (g : MGraph) (u e : Nat) (r : RevEdge) : (g.setEdge u e r).len = g.len := rfl
@[simp] theorem setEdge_n (g : MGraph) (u e : Nat) (r : RevEdge) : (g.setEdge u e r).n = g.n := rfl
@[simp] theorem setEdge_wdeg (g : MGraph) (u e : Nat) (r : RevEdge) : (g.setEdge u e r).wdeg = g.wdeg := rfl
@[simp] theorem setEdge_numEdges (g : MGraph) (u e : Nat) (r : RevEdge) :
    (g.setEdge u e r).numEdges = g.numEdges := rfl
@[simp] theorem setEdge_pos (g : MGraph) (u e : Nat) (r : RevEdge) : (g.setEdge u e r).pos = g.pos := rfl
@[simp] theorem setEdge_cont (g : MGraph) (u e : Nat) (r : RevEdge) : (g.setEdge u e r).cont = g.cont := rfl
@[simp] theorem pushEdge_edge (g : MGraph) (u : Nat) (r : RevEdge) (a b : Nat) :
    (g.pushEdge u r).edge a b = if a = u ∧ b = g.len u then r else g.edge a b := by
  simp only [pushEdge, setEdge_edge]
@[simp] theorem pushEdge_len (g : MGraph) (u : Nat) (r : RevEdge) :
    (g.pushEdge u r).len = update g.len u (g.len u + 1) := rfl

/-- `internalDelete` only touches the edge structure. -/
theorem internalDelete_frame (g : MGraph) (u e : Nat) :
    (g.internalDelete u e).n = g.n ∧ (g.internalDelete u e).wdeg = g.wdeg ∧
    (g.internalDelete u e).numEdges = g.numEdges ∧ (g.internalDelete u e).pos = g.pos ∧
    (g.internalDelete u e).cont = g.cont ∧ (g.internalDelete u e).len = update g.len u (g.len u - 1) := by
  unfold internalDelete
  split <;> simp [setEdge]

/-- Live half edges after deleting slot `e` of `u` (the last slot moves to `e`). -/
def Lren (L : Nat → Nat → Prop) (u e last : Nat) : Nat → Nat → Prop :=
  fun a b => if a = u then b < last ∧ (if b = e then L u last else L u b) else L a b

theorem internalDelete_edge_target {g : MGraph} {L} (h : PV g L) {u e : Nat} (he : e < g.len u)
    (hl : g.len u > e + 1 → L u (g.len u - 1)) (a b : Nat) :
    ((g.internalDelete u e).edge a b).target =
      (if a = u ∧ b = e ∧ g.len u > e + 1 then g.edge u (g.len u - 1) else g.edge a b).target ∧
    ((g.internalDelete u e).edge a b).weight =
      (if a = u ∧ b = e ∧ g.len u > e + 1 then g.edge u (g.len u - 1) else g.edge a b).weight := by
  unfold internalDelete
  by_cases hc : g.len u > e + 1
  · rw [if_pos hc]
    obtain ⟨h1, h2, h3, h4, h5, h6⟩ := h u _ (hl hc)
    simp only [setEdge_edge, and_self, if_true, hc, and_true]
    by_cases hab : a = (g.edge u (g.len u - 1)).target ∧ b = (g.edge u (g.len u - 1)).rev
    · rw [if_pos hab]
      obtain ⟨rfl, rfl⟩ := hab
      rw [if_neg (by intro hh; exact h6 hh.1)]
      exact ⟨rfl, rfl⟩
    · rw [if_neg hab]
      exact ⟨rfl, rfl⟩
  · rw [if_neg hc]; simp [hc]

theorem rowSum_internalDelete {g : MGraph} {L} (h : PV g L) {u e : Nat} (he : e < g.len u)
    (hl : g.len u > e + 1 → L u (g.len u - 1)) (f : Nat → Nat → Nat) :
    rowSum (g.internalDelete u e) f u + f (g.edge u e).target (g.edge u e).weight = rowSum g f u ∧
    ∀ a, a ≠ u → rowSum (g.internalDelete u e) f a = rowSum g f a := by
  have hlen := (internalDelete_frame g u e).2.2.2.2.2
  constructor
  · unfold rowSum
    rw [hlen, update_self]
    obtain ⟨m, hm⟩ : ∃ m, g.len u = m + 1 := ⟨g.len u - 1, by omega⟩
    rw [hm, Nat.add_sub_cancel]
    rw [Finset.sum_range_succ]
    have hval : ∀ b, f ((g.internalDelete u e).edge u b).target ((g.internalDelete u e).edge u b).weight =
        f (if b = e ∧ m > e then g.edge u m else g.edge u b).target
          (if b = e ∧ m > e then g.edge u m else g.edge u b).weight := by
      intro b
      obtain ⟨h1, h2⟩ := internalDelete_edge_target h he hl u b
      rw [h1, h2, hm]
      by_cases hb : b = e <;> by_cases hme : m > e <;> simp [hb, hme]
    simp only [hval]
    by_cases hme : m > e
    · have : ∑ b ∈ range m, f (if b = e ∧ m > e then g.edge u m else g.edge u b).target
          (if b = e ∧ m > e then g.edge u m else g.edge u b).weight + f (g.edge u e).target (g.edge u e).weight
          = ∑ b ∈ range m, f (g.edge u b).target (g.edge u b).weight + f (g.edge u m).target (g.edge u m).weight := by
        rw [← Finset.add_sum_erase (range m) _ (mem_range.2 hme),
            ← Finset.add_sum_erase (range m) (fun b => f (g.edge u b).target (g.edge u b).weight) (mem_range.2 hme)]
        have : ∑ b ∈ (range m).erase e, f (if b = e ∧ m > e then g.edge u m else g.edge u b).target
          (if b = e ∧ m > e then g.edge u m else g.edge u b).weight =
          ∑ b ∈ (range m).erase e, f (g.edge u b).target (g.edge u b).weight := by
          refine Finset.sum_congr rfl fun b hb => ?_
          rw [if_neg (by intro hh; exact (Finset.mem_erase.1 hb).1 hh.1)]
        rw [this, if_pos ⟨rfl, hme⟩]
        omega
      exact this
    · have hem : e = m := by omega
      subst hem
      congr 1
      refine Finset.sum_congr rfl fun b hb => ?_
      rw [if_neg (by intro hh; exact hme hh.2)]
  · intro a ha
    unfold rowSum
    rw [hlen, update_of_ne ha]
    refine Finset.sum_congr rfl fun b _ => ?_
    obtain ⟨h1, h2⟩ := internalDelete_edge_target h he hl a b
    rw [h1, h2, if_neg (by intro hh; exact ha hh.1)]

theorem PV.internalDelete {g : MGraph} {L} (h : PV g L) {u e : Nat} (he : e < g.len u) (hd : ¬ L u e)
    (hl : g.len u > e + 1 → L u (g.len u - 1)) :
    PV (g.internalDelete u e) (Lren L u e (g.len u - 1)) := by
  have hlen := (internalDelete_frame g u e).2.2.2.2.2
  obtain ⟨m, hm⟩ : ∃ m, g.len u = m + 1 := ⟨g.len u - 1, by omega⟩
  have hm' : g.len u - 1 = m := by omega
  rw [hm'] at hl hlen ⊢
  by_cases hc : m > e
  · have hl' := hl (by omega)
    obtain ⟨k1, k2, k3, k4, k5, k6⟩ := h u m hl'
    -- edge values after the deletion
    have hE : ∀ a b, (g.internalDelete u e).edge a b =
        if a = (g.edge u m).target ∧ b = (g.edge u m).rev then { g.edge a b with rev := e }
        else if a = u ∧ b = e then g.edge u m else g.edge a b := by
      intro a b
      unfold MGraph.internalDelete
      rw [if_pos (by omega)]
      simp only [setEdge_edge, and_self, if_true, hm']
      by_cases hab : a = (g.edge u m).target ∧ b = (g.edge u m).rev
      · rw [if_pos hab, if_pos hab]
        obtain ⟨rfl, rfl⟩ := hab
        rw [if_neg (by intro hh; exact k6 hh.1)]
      · rw [if_neg hab, if_neg hab]
    intro a b hab
    -- old position of this half edge
    obtain ⟨b0, hb0L, hb0⟩ : ∃ b0, L a b0 ∧ ((a = u ∧ b = e ∧ b0 = m) ∨ (¬ (a = u ∧ b = e) ∧ b0 = b ∧ ¬ (a = u ∧ b0 = m))) := by
      unfold Lren at hab
      by_cases hau : a = u
      · subst hau
        rw [if_pos rfl] at hab
        by_cases hbe : b = e
        · rw [if_pos hbe] at hab; exact ⟨m, hab.2, Or.inl ⟨rfl, hbe, rfl⟩⟩
        · rw [if_neg hbe] at hab
          exact ⟨b, hab.2, Or.inr ⟨fun hh => hbe hh.2, rfl, fun hh => by omega⟩⟩
      · rw [if_neg hau] at hab
        exact ⟨b, hab, Or.inr ⟨fun hh => hau hh.1, rfl, fun hh => hau hh.1⟩⟩
    have hblt : b < (g.internalDelete u e).len a := by
      rw [hlen]
      rcases hb0 with ⟨rfl, rfl, _⟩ | ⟨h1, rfl, h2⟩
      · simp; omega
      · by_cases hau : a = u
        · subst hau; rw [update_self]
          unfold Lren at hab; rw [if_pos rfl] at hab; exact hab.1
        · rw [update_of_ne hau]; exact (h a b0 hb0L).1
    obtain ⟨j1, j2, j3, j4, j5, j6⟩ := h a b0 hb0L
    have hnepart : ∀ x y, L x y → ¬ (x = u ∧ y = e) := by
      rintro x y hxy ⟨rfl, rfl⟩; exact hd hxy
    rcases hb0 with ⟨rfl, rfl, rfl⟩ | ⟨h1, rfl, h2⟩
    · -- the moved half edge
      have e1 : (g.internalDelete a b).edge a b = g.edge a b0 := by
        rw [hE, if_neg (by intro hh; exact k6 hh.1.symm), if_pos ⟨rfl, rfl⟩]
      have e2 : (g.internalDelete a b).edge (g.edge a b0).target (g.edge a b0).rev =
          { g.edge (g.edge a b0).target (g.edge a b0).rev with rev := b } := by
        rw [hE, if_pos ⟨rfl, rfl⟩]
      rw [e1, e2]
      refine ⟨hblt, ?_, j3, rfl, j5, j6⟩
      unfold Lren; rw [if_neg k6]; exact k2
    · by_cases hp : a = (g.edge u m).target ∧ b0 = (g.edge u m).rev
      · -- partner of the moved half edge
        have e1 : (g.internalDelete u e).edge a b0 = { g.edge a b0 with rev := e } := by rw [hE, if_pos hp]
        obtain ⟨rfl, rfl⟩ := hp
        have e2 : (g.internalDelete u e).edge u e = g.edge u m := by
          rw [hE, if_neg (by intro hh; exact k6 hh.1.symm), if_pos ⟨rfl, rfl⟩]
        rw [e1]
        simp only [k3, e2]
        refine ⟨hblt, ?_, trivial, trivial, k5.symm, Ne.symm k6⟩
        unfold Lren; rw [if_pos rfl, if_pos rfl]; exact ⟨hc, hl'⟩
      · have e1 : (g.internalDelete u e).edge a b0 = g.edge a b0 := by
          rw [hE, if_neg hp, if_neg h1]
        have hp2 : ¬ ((g.edge a b0).target = (g.edge u m).target ∧ (g.edge a b0).rev = (g.edge u m).rev) := by
          rintro ⟨q1, q2⟩
          rw [q1, q2, k3] at j3
          rw [q1, q2, k4] at j4
          exact h2 ⟨j3.symm, j4.symm⟩
        have e2 : (g.internalDelete u e).edge (g.edge a b0).target (g.edge a b0).rev =
            g.edge (g.edge a b0).target (g.edge a b0).rev := by
          rw [hE, if_neg hp2, if_neg (hnepart _ _ j2)]
        rw [e1, e2]
        refine ⟨hblt, ?_, j3, j4, j5, j6⟩
        unfold Lren
        split
        · rename_i hq
          have hne : (g.edge a b0).rev ≠ e := fun hh => hnepart _ _ j2 ⟨hq, hh⟩
          rw [if_neg hne]
          rw [hq] at j2
          have := (h u _ j2).1
          rw [hm] at this
          refine ⟨?_, j2⟩
          by_contra hcon
          have hmm : (g.edge a b0).rev = m := by omega
          rw [hq, hmm] at j3 j4
          exact hp ⟨j3.symm, j4.symm⟩
        · exact j2
  · have hem : e = m := by omega
    subst hem
    have hE : (g.internalDelete u e).edge = g.edge := by
      unfold MGraph.internalDelete; rw [if_neg (by omega)]
    intro a b hab
    have hL : L a b := by
      unfold Lren at hab
      by_cases hau : a = u
      · subst hau; rw [if_pos rfl] at hab
        rw [if_neg (by omega)] at hab; exact hab.2
      · rwa [if_neg hau] at hab
    obtain ⟨j1, j2, j3, j4, j5, j6⟩ := h a b hL
    rw [hE]
    refine ⟨?_, ?_, j3, j4, j5, j6⟩
    · rw [hlen]
      by_cases hau : a = u
      · subst hau; rw [update_self]; unfold Lren at hab; rw [if_pos rfl] at hab; exact hab.1
      · rw [update_of_ne hau]; exact j1
    · unfold Lren
      split
      · rename_i hq
        rw [hq] at j2
        have h1 := (h u _ j2).1
        have hne : (g.edge a b).rev ≠ e := by intro hh; rw [hh] at j2; exact hd j2
        rw [if_neg hne]
        exact ⟨by omega, j2⟩
      · exact j2


/-- The `rev` field of a live half edge at another vertex after a deletion at `u`. -/
theorem internalDelete_rev {g : MGraph} {L} (h : PV g L) {u e : Nat} (he : e < g.len u) (hd : ¬ L u e)
    (hl : g.len u > e + 1 → L u (g.len u - 1)) {a b : Nat} (hab : L a b) (hau : a ≠ u) :
    ((g.internalDelete u e).edge a b).rev =
      if (g.edge a b).target = u ∧ (g.edge a b).rev = g.len u - 1 then e else (g.edge a b).rev := by
  obtain ⟨j1, j2, j3, j4, j5, j6⟩ := h a b hab
  unfold internalDelete
  by_cases hc : g.len u > e + 1
  · rw [if_pos hc]
    obtain ⟨k1, k2, k3, k4, k5, k6⟩ := h u _ (hl hc)
    simp only [setEdge_edge, and_self, if_true]
    by_cases hp : a = (g.edge u (g.len u - 1)).target ∧ b = (g.edge u (g.len u - 1)).rev
    · rw [if_pos hp]
      obtain ⟨rfl, rfl⟩ := hp
      simp only [k3, k4, and_self, if_true]
    · rw [if_neg hp, if_neg (by intro hh; exact hau hh.1), if_neg]
      rintro ⟨q1, q2⟩
      rw [q1, q2] at j3 j4
      exact hp ⟨j3.symm, j4.symm⟩
  · rw [if_neg hc]
    rw [if_neg]
    rintro ⟨q1, q2⟩
    rw [q1, q2] at j2
    have : g.len u - 1 = e := by omega
    rw [this] at j2
    exact hd j2

/-- Removing both halves of an edge from the live set. -/
theorem PV.kill {g : MGraph} {L} (h : PV g L) {u e : Nat} (he : L u e) :
    PV g (fun a b => L a b ∧ ¬ (a = u ∧ b = e) ∧ ¬ (a = (g.edge u e).target ∧ b = (g.edge u e).rev)) := by
  intro a b ⟨hab, h1, h2⟩
  obtain ⟨j1, j2, j3, j4, j5, j6⟩ := h a b hab
  obtain ⟨k1, k2, k3, k4, k5, k6⟩ := h u e he
  refine ⟨j1, ⟨j2, ?_, ?_⟩, j3, j4, j5, j6⟩
  · rintro ⟨q1, q2⟩
    rw [q1, q2] at j3 j4
    exact h2 ⟨j3.symm, j4.symm⟩
  · rintro ⟨q1, q2⟩
    rw [q1, q2, k3] at j3
    rw [q1, q2, k4] at j4
    exact h1 ⟨j3.symm, j4.symm⟩

/-- Weight of both halves of an edge is replaced. -/
theorem PV.setWeights {g : MGraph} {L} (h : PV g L) {u e : Nat} (he : L u e) (w : Nat) :
    PV ((g.setEdge u e { g.edge u e with weight := w }).setEdge (g.edge u e).target (g.edge u e).rev
      { (g.setEdge u e { g.edge u e with weight := w }).edge (g.edge u e).target (g.edge u e).rev with weight := w })
      L := by
  obtain ⟨k1, k2, k3, k4, k5, k6⟩ := h u e he
  set t := (g.edge u e).target with ht
  set r := (g.edge u e).rev with hr
  have hE : ∀ a b, ((g.setEdge u e { g.edge u e with weight := w }).setEdge t r
      { (g.setEdge u e { g.edge u e with weight := w }).edge t r with weight := w }).edge a b =
      { g.edge a b with weight := if (a = t ∧ b = r) ∨ (a = u ∧ b = e) then w else (g.edge a b).weight } := by
    intro a b
    simp only [setEdge_edge]
    have htu : ¬ (t = u ∧ r = e) := fun hh => k6 hh.1
    by_cases h1 : a = t ∧ b = r
    · rw [if_pos h1, if_neg htu, if_pos (Or.inl h1)]
      obtain ⟨rfl, rfl⟩ := h1; rfl
    · rw [if_neg h1]
      by_cases h2 : a = u ∧ b = e
      · rw [if_pos h2, if_pos (Or.inr h2)]
        obtain ⟨rfl, rfl⟩ := h2; rfl
      · rw [if_neg h2, if_neg (by rintro (h | h); exact h1 h; exact h2 h)]
  intro a b hab
  obtain ⟨j1, j2, j3, j4, j5, j6⟩ := h a b hab
  simp only [hE]
  refine ⟨j1, j2, j3, j4, ?_, j6⟩
  have : (((g.edge a b).target = t ∧ (g.edge a b).rev = r) ∨ ((g.edge a b).target = u ∧ (g.edge a b).rev = e)) ↔
      ((a = t ∧ b = r) ∨ (a = u ∧ b = e)) := by
    constructor
    · rintro (⟨q1, q2⟩ | ⟨q1, q2⟩)
      · right
        rw [q1, q2, k3] at j3
        rw [q1, q2, k4] at j4
        exact ⟨j3.symm, j4.symm⟩
      · left
        rw [q1, q2] at j3 j4
        exact ⟨j3.symm, j4.symm⟩
    · rintro (⟨rfl, rfl⟩ | ⟨rfl, rfl⟩)
      · right; exact ⟨k3, k4⟩
      · left; exact ⟨rfl, rfl⟩
  simp only [this]
  split
  · rfl
  · exact j5

theorem rowSum_congr {g g' : MGraph} {u : Nat} (hl : g'.len u = g.len u)
    (he : ∀ e, e < g.len u → (g'.edge u e).target = (g.edge u e).target ∧ (g'.edge u e).weight = (g.edge u e).weight)
    (f : Nat → Nat → Nat) : rowSum g' f u = rowSum g f u := by
  unfold rowSum
  rw [hl]
  refine Finset.sum_congr rfl fun e h => ?_
  rw [(he e (mem_range.1 h)).1, (he e (mem_range.1 h)).2]

/-- One entry of a row is replaced. -/
theorem rowSum_setEdge (g : MGraph) {u e : Nat} (he : e < g.len u) (r : RevEdge) (f : Nat → Nat → Nat) :
    rowSum (g.setEdge u e r) f u + f (g.edge u e).target (g.edge u e).weight =
      rowSum g f u + f r.target r.weight := by
  unfold rowSum
  rw [setEdge_len, ← Finset.add_sum_erase _ _ (mem_range.2 he),
    ← Finset.add_sum_erase _ (fun b => f (g.edge u b).target (g.edge u b).weight) (mem_range.2 he)]
  have : ∑ b ∈ (range (g.len u)).erase e, f ((g.setEdge u e r).edge u b).target ((g.setEdge u e r).edge u b).weight =
      ∑ b ∈ (range (g.len u)).erase e, f (g.edge u b).target (g.edge u b).weight := by
    refine Finset.sum_congr rfl fun b hb => ?_
    rw [setEdge_edge, if_neg (by intro hh; exact (Finset.mem_erase.1 hb).1 hh.2)]
  rw [this, setEdge_edge, if_pos ⟨rfl, rfl⟩]
  omega

theorem rowSum_setEdge_ne (g : MGraph) {u e a : Nat} (ha : a ≠ u) (r : RevEdge) (f : Nat → Nat → Nat) :
    rowSum (g.setEdge u e r) f a = rowSum g f a := by
  unfold rowSum
  refine Finset.sum_congr rfl fun b _ => ?_
  rw [setEdge_edge, if_neg (by intro hh; exact ha hh.1)]

theorem rowSum_pushEdge (g : MGraph) (u : Nat) (r : RevEdge) (f : Nat → Nat → Nat) :
    rowSum (g.pushEdge u r) f u = rowSum g f u + f r.target r.weight ∧
    ∀ a, a ≠ u → rowSum (g.pushEdge u r) f a = rowSum g f a := by
  constructor
  · unfold rowSum
    rw [pushEdge_len, update_self, Finset.sum_range_succ, pushEdge_edge, if_pos ⟨rfl, rfl⟩]
    congr 1
    refine Finset.sum_congr rfl fun b hb => ?_
    rw [pushEdge_edge, if_neg (by intro hh; have := mem_range.1 hb; omega)]
  · intro a ha
    unfold rowSum
    rw [pushEdge_len, update_of_ne ha]
    refine Finset.sum_congr rfl fun b _ => ?_
    rw [pushEdge_edge, if_neg (by intro hh; exact ha hh.1)]

/-- Data common to the two ways of folding edge `(n, e)` into `keep`. -/
structure Fold (g : MGraph) (L : Nat → Nat → Prop) (keep n e : Nat) : Prop where
  pv : PV g L
  live : L n e
  nk : n ≠ keep
  tk : (g.edge n e).target ≠ keep
  full : ∀ f, f < g.len (g.edge n e).target → L (g.edge n e).target f

/-- Live set after `mergePair`. -/
def Lmerge (L : Nat → Nat → Prop) (n e t lt : Nat) : Nat → Nat → Prop :=
  fun a b => if a = t then b < lt else L a b ∧ ¬ (a = n ∧ b = e)

theorem mergePair_spec {g : MGraph} {L} {keep n e ed2 : Nat} (F : Fold g L keep n e) (hk : L keep ed2)
    (hkt : (g.edge keep ed2).target = (g.edge n e).target) :
    let d := g.edge n e
    let g' := g.mergePair keep ed2 d.target (g.edge keep ed2).rev d
    PV g' (Lmerge L n e d.target (g.len d.target - 1)) ∧
    g'.len = update g.len d.target (g.len d.target - 1) ∧ g'.n = g.n ∧
    g'.wdeg = update g.wdeg keep (g.wdeg keep + d.weight) ∧ g'.numEdges = g.numEdges - 2 ∧
    g'.pos = g.pos ∧ g'.cont = g.cont ∧
    (∀ a b, a ≠ d.target → (g'.edge a b).target = (g.edge a b).target) ∧
    (∀ a b, a ≠ d.target → ¬ (a = keep ∧ b = ed2) → (g'.edge a b).weight = (g.edge a b).weight) ∧
    (∀ a b, a ≠ d.target → L a b → ¬ (a = n ∧ b = e) → (g'.edge a b).rev =
      if (g.edge a b).target = d.target ∧ (g.edge a b).rev = g.len d.target - 1 then d.rev else (g.edge a b).rev) ∧
    (∀ f : Nat → Nat → Nat,
      rowSum g' f keep + f d.target (g.edge keep ed2).weight =
        rowSum g f keep + f d.target ((g.edge keep ed2).weight + d.weight) ∧
      rowSum g' f d.target + f keep (g.edge keep ed2).weight + f n d.weight =
        rowSum g f d.target + f keep ((g.edge keep ed2).weight + d.weight) ∧
      ∀ a, a ≠ keep → a ≠ d.target → rowSum g' f a = rowSum g f a) := by
  intro d g'
  obtain ⟨pv, live, nk, tk, full⟩ := F
  obtain ⟨j1, j2, j3, j4, j5, j6⟩ := pv n e live
  obtain ⟨k1, k2, k3, k4, k5, k6⟩ := pv keep ed2 hk
  -- names
  set t := d.target with ht
  have hkt' : (g.edge keep ed2).target = t := hkt
  rw [hkt'] at k2 k3 k4 k5 k6
  set rv := (g.edge keep ed2).rev with hrv
  have hrne : rv ≠ d.rev := by
    intro hh
    rw [hh] at k3
    exact nk (by rw [← k3]; exact j3.symm)
  -- after the weight updates
  set g1 := g.setEdge keep ed2 { g.edge keep ed2 with weight := (g.edge keep ed2).weight + d.weight } with hg1
  set g2 := g1.setEdge t rv { g1.edge t rv with weight := (g1.edge t rv).weight + d.weight } with hg2
  have hg1t : g1.edge t rv = g.edge t rv := by
    rw [hg1, setEdge_edge, if_neg (by intro hh; exact tk hh.1)]
  have pv2 : PV g2 L := by
    have := pv.setWeights hk ((g.edge keep ed2).weight + d.weight)
    rw [hkt', ← hrv, ← hg1] at this
    have he : ({ g1.edge t rv with weight := (g.edge keep ed2).weight + d.weight } : RevEdge) =
        { g1.edge t rv with weight := (g1.edge t rv).weight + d.weight } := by
      rw [hg1t, k5]
    rw [he] at this
    exact this
  set g3 : MGraph := { g2 with wdeg := update g2.wdeg keep (g2.wdeg keep + d.weight), numEdges := g2.numEdges - 2 }
    with hg3
  have hg' : g' = g3.internalDelete t d.rev := rfl
  have hE2 : ∀ a b, (g3.edge a b).target = (g.edge a b).target ∧ (g3.edge a b).rev = (g.edge a b).rev ∧
      (g3.edge a b).weight = if (a = keep ∧ b = ed2) ∨ (a = t ∧ b = rv) then (g.edge a b).weight + d.weight
        else (g.edge a b).weight := by
    intro a b
    change (g2.edge a b).target = _ ∧ (g2.edge a b).rev = _ ∧ (g2.edge a b).weight = _
    rw [hg2, setEdge_edge]
    by_cases h1 : a = t ∧ b = rv
    · rw [if_pos h1, hg1t, if_pos (Or.inr h1)]
      obtain ⟨rfl, rfl⟩ := h1
      exact ⟨rfl, rfl, rfl⟩
    · rw [if_neg h1, hg1, setEdge_edge]
      by_cases h2 : a = keep ∧ b = ed2
      · rw [if_pos h2, if_pos (Or.inl h2)]
        obtain ⟨rfl, rfl⟩ := h2
        exact ⟨rfl, rfl, rfl⟩
      · rw [if_neg h2, if_neg (by rintro (h | h); exact h2 h; exact h1 h)]
        exact ⟨rfl, rfl, rfl⟩
  have pv3 : PV g3 L := pv2
  have hd3 : (g3.edge n e).target = t ∧ (g3.edge n e).rev = d.rev := ⟨(hE2 n e).1, (hE2 n e).2.1⟩
  have pvk := pv3.kill live
  rw [hd3.1, hd3.2] at pvk
  have hlen3 : g3.len = g.len := rfl
  have hdr : d.rev < g3.len t := (pv _ _ j2).1
  have hdead : ¬ (L t d.rev ∧ ¬ (t = n ∧ d.rev = e) ∧ ¬ (t = t ∧ d.rev = d.rev)) := by
    intro hh; exact hh.2.2 ⟨rfl, rfl⟩
  have htn : t ≠ n := j6
  have hlast : g3.len t > d.rev + 1 →
      (L t (g3.len t - 1) ∧ ¬ (t = n ∧ g3.len t - 1 = e) ∧ ¬ (t = t ∧ g3.len t - 1 = d.rev)) := by
    intro hh
    refine ⟨full _ (by rw [hlen3]; change g.len t - 1 < g.len t; rw [hlen3] at hh; omega), fun h => htn h.1, fun h => by omega⟩
  have pv4 := pvk.internalDelete hdr hdead hlast
  obtain ⟨f1, f2, f3, f4, f5, f6⟩ := internalDelete_frame g3 t d.rev
  have hEt := fun a b => internalDelete_edge_target pvk hdr hlast a b
  refine ⟨?_, ?_, ?_, ?_, ?_, ?_, ?_, ?_, ?_, ?_, ?_⟩
  · rw [hg']
    intro a b hab
    have hlive : ∀ x y, Lmerge L n e t (g.len t - 1) x y ↔ Lren (fun a b => L a b ∧ ¬ (a = n ∧ b = e) ∧
        ¬ (a = t ∧ b = d.rev)) t d.rev (g3.len t - 1) x y := by
      intro x y
      unfold Lmerge Lren
      rw [hlen3]
      by_cases hx : x = t
      · rw [if_pos hx, if_pos hx]
        constructor
        · intro hy
          refine ⟨hy, ?_⟩
          split
          · rename_i hye
            exact ⟨full _ (by change g.len t - 1 < g.len t; omega), fun h => htn h.1, fun h => by omega⟩
          · rename_i hye
            exact ⟨full _ (by change y < g.len t; omega), fun h => htn h.1, fun h => hye h.2⟩
        · exact fun hy => hy.1
      · rw [if_neg hx, if_neg hx]
        constructor
        · exact fun hh => ⟨hh.1, hh.2, fun h => hx h.1⟩
        · exact fun hh => ⟨hh.1, hh.2.1⟩
    have := pv4 a b ((hlive a b).1 hab)
    rw [← hlive] at this
    exact this
  · rw [hg', f6]; rfl
  · rw [hg', f1]; rfl
  · rw [hg', f2]; rfl
  · rw [hg', f3]; rfl
  · rw [hg', f4]; rfl
  · rw [hg', f5]; rfl
  · intro a b ha
    rw [hg', (hEt a b).1, if_neg (by intro hh; exact ha hh.1)]
    exact (hE2 a b).1
  · intro a b ha hak
    rw [hg', (hEt a b).2, if_neg (by intro hh; exact ha hh.1), (hE2 a b).2.2, if_neg]
    rintro (h | h)
    · exact hak h
    · exact ha h.1
  · intro a b ha hab hne
    rw [hg', internalDelete_rev pvk hdr hdead hlast ⟨hab, hne, fun h => ha h.1⟩ ha, (hE2 a b).1, (hE2 a b).2.1, hlen3]
  · intro f
    have hrs := rowSum_internalDelete pvk hdr hlast f
    have e1 : ∀ a, rowSum g3 f a = rowSum g2 f a := fun a => rfl
    have htne : keep ≠ t := fun hh => tk hh.symm
    have r2t := rowSum_setEdge g1 (u := t) (e := rv) (by change rv < g.len t; exact (pv _ _ k2).1)
      { g1.edge t rv with weight := (g1.edge t rv).weight + d.weight } f
    have r2k := rowSum_setEdge_ne g1 (u := t) (e := rv) htne
      { g1.edge t rv with weight := (g1.edge t rv).weight + d.weight } f
    rw [← hg2] at r2t r2k
    have r1k := rowSum_setEdge g (u := keep) (e := ed2) k1
      { g.edge keep ed2 with weight := (g.edge keep ed2).weight + d.weight } f
    have r1t := rowSum_setEdge_ne g (u := keep) (e := ed2) htne.symm
      { g.edge keep ed2 with weight := (g.edge keep ed2).weight + d.weight } f
    rw [← hg1] at r1k r1t
    simp only [hg1t, k3, k5, hkt'] at r2t r1k
    refine ⟨?_, ?_, ?_⟩
    · rw [hg', hrs.2 keep htne, e1, r2k]
      exact r1k
    · have h1 := hrs.1
      rw [← hg', e1] at h1
      have h2 : f (g3.edge t d.rev).target (g3.edge t d.rev).weight = f n d.weight := by
        rw [(hE2 t d.rev).1, (hE2 t d.rev).2.2, if_neg]
        · rw [j3, j5]
        · rintro (h | h)
          · exact tk h.1
          · exact hrne h.2.symm
      rw [h2] at h1
      omega
    · intro a hak hat
      rw [hg', hrs.2 a hat, e1, hg2, rowSum_setEdge_ne _ hat, hg1, rowSum_setEdge_ne _ hak]

/-- Live set after `redirect`. -/
def Lredir (L : Nat → Nat → Prop) (keep n e lk : Nat) : Nat → Nat → Prop :=
  fun a b => (L a b ∧ ¬ (a = n ∧ b = e)) ∨ (a = keep ∧ b = lk)

theorem redirect_spec {g : MGraph} {L} {keep n e : Nat} (F : Fold g L keep n e) :
    let d := g.edge n e
    let g' := g.redirect keep d
    PV g' (Lredir L keep n e (g.len keep)) ∧
    g'.len = update g.len keep (g.len keep + 1) ∧ g'.n = g.n ∧
    g'.wdeg = update g.wdeg keep (g.wdeg keep + d.weight) ∧ g'.numEdges = g.numEdges ∧
    g'.pos = g.pos ∧ g'.cont = g.cont ∧
    (g'.edge keep (g.len keep)).target = d.target ∧ (g'.edge keep (g.len keep)).rev = d.rev ∧
    (∀ a b, a ≠ d.target → ¬ (a = keep ∧ b = g.len keep) → g'.edge a b = g.edge a b) ∧
    (∀ f : Nat → Nat → Nat,
      rowSum g' f keep = rowSum g f keep + f d.target d.weight ∧
      rowSum g' f d.target + f n d.weight = rowSum g f d.target + f keep d.weight ∧
      ∀ a, a ≠ keep → a ≠ d.target → rowSum g' f a = rowSum g f a) := by
  intro d g'
  obtain ⟨pv, live, nk, tk, full⟩ := F
  obtain ⟨j1, j2, j3, j4, j5, j6⟩ := pv n e live
  set t := d.target with ht
  change t ≠ keep at tk
  change t ≠ n at j6
  have hE : ∀ a b, g'.edge a b = if a = keep ∧ b = g.len keep then ⟨t, d.weight, d.rev, 0, 0⟩
      else if a = t ∧ b = d.rev then { g.edge t d.rev with rev := g.len keep, target := keep } else g.edge a b := by
    intro a b
    change ((g.setEdge d.target d.rev _).pushEdge keep _).edge a b = _
    rw [pushEdge_edge, setEdge_edge, setEdge_len]
  have hlen : g'.len = update g.len keep (g.len keep + 1) := rfl
  have hkL : ∀ b, L keep b → b ≠ g.len keep := by
    intro b hb hh
    have := (pv keep b hb).1; omega
  refine ⟨?_, rfl, rfl, rfl, rfl, rfl, rfl, ?_, ?_, ?_, ?_⟩
  · intro a b hab
    rcases hab with ⟨hab, hne⟩ | ⟨rfl, rfl⟩
    · obtain ⟨i1, i2, i3, i4, i5, i6⟩ := pv a b hab
      have hlt : b < g'.len a := by
        rw [hlen]
        by_cases hak : a = keep
        · subst hak; rw [update_self]; omega
        · rw [update_of_ne hak]; exact i1
      have hnk : ¬ (a = keep ∧ b = g.len keep) := by
        rintro ⟨rfl, rfl⟩; exact hkL _ hab rfl
      by_cases hp : a = t ∧ b = d.rev
      · have e1 : g'.edge a b = { g.edge t d.rev with rev := g.len keep, target := keep } := by
          rw [hE, if_neg hnk, if_pos hp]
        obtain ⟨rfl, rfl⟩ := hp
        rw [e1]
        have e2 : g'.edge keep (g.len keep) = ⟨t, d.weight, d.rev, 0, 0⟩ := by rw [hE, if_pos ⟨rfl, rfl⟩]
        simp only [e2]
        exact ⟨hlt, Or.inr ⟨rfl, rfl⟩, trivial, trivial, j5.symm, fun hh => tk hh.symm⟩
      · have e1 : g'.edge a b = g.edge a b := by rw [hE, if_neg hnk, if_neg hp]
        have hp2 : ¬ ((g.edge a b).target = n ∧ (g.edge a b).rev = e) := by
          rintro ⟨q1, q2⟩
          rw [q1, q2] at i3 i4
          exact hp ⟨i3.symm, i4.symm⟩
        have hp3 : ¬ ((g.edge a b).target = t ∧ (g.edge a b).rev = d.rev) := by
          rintro ⟨q1, q2⟩
          rw [q1, q2] at i3 i4
          exact hne ⟨i3.symm.trans j3, i4.symm.trans j4⟩
        have e2 : g'.edge (g.edge a b).target (g.edge a b).rev = g.edge (g.edge a b).target (g.edge a b).rev := by
          rw [hE, if_neg (by rintro ⟨q1, q2⟩; rw [q1] at i2; exact hkL _ i2 q2), if_neg hp3]
        rw [e1, e2]
        exact ⟨hlt, Or.inl ⟨i2, hp2⟩, i3, i4, i5, i6⟩
    · have e1 : g'.edge a (g.len a) = ⟨t, d.weight, d.rev, 0, 0⟩ := by rw [hE, if_pos ⟨rfl, rfl⟩]
      have e2 : g'.edge t d.rev = { g.edge t d.rev with rev := g.len a, target := a } := by
        rw [hE, if_neg (by intro hh; exact tk hh.1), if_pos ⟨rfl, rfl⟩]
      rw [e1]
      simp only [e2]
      refine ⟨by rw [hlen, update_self]; omega, Or.inl ⟨j2, fun hh => j6 hh.1⟩, trivial, trivial, j5, tk⟩
  · rw [hE, if_pos ⟨rfl, rfl⟩]
  · rw [hE, if_pos ⟨rfl, rfl⟩]
  · intro a b ha hne
    rw [hE, if_neg hne, if_neg (by intro hh; exact ha hh.1)]
  · intro f
    set g1 := g.setEdge t d.rev { g.edge t d.rev with rev := g.len keep, target := keep } with hg1
    have r1 := rowSum_setEdge g (u := t) (e := d.rev) (pv _ _ j2).1
      { g.edge t d.rev with rev := g.len keep, target := keep } f
    rw [← hg1] at r1
    have r2 := rowSum_pushEdge g1 keep { target := t, weight := d.weight, rev := d.rev } f
    have e1 : ∀ a, rowSum g' f a = rowSum (g1.pushEdge keep { target := t, weight := d.weight, rev := d.rev }) f a :=
      fun a => rfl
    have j3' : (g.edge t d.rev).target = n := j3
    have j5' : (g.edge t d.rev).weight = d.weight := j5
    rw [j3', j5'] at r1
    refine ⟨?_, ?_, ?_⟩
    · rw [e1, r2.1, hg1, rowSum_setEdge_ne _ (fun hh => tk hh.symm)]
    · rw [e1, r2.2 t tk]; exact r1
    · intro a ha hat
      rw [e1, r2.2 a ha, hg1, rowSum_setEdge_ne _ hat]

end VieCut.MGraph
