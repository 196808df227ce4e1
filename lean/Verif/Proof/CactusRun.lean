import Verif.Model.CactusRun
import Verif.Proof.RecSize
import Verif.Proof.Simplify
import Verif.Proof.Inexact
import Verif.Spec.Cactus

/-!
# C37 with C57: the recursion computes what is assumed of the cactus of the kernel
-/

namespace VieCut
namespace Cactus
open Function Finset MGraph RecCactus

/-- No edge of weight zero. -/
def PosEdges (G : Graph) : Prop := ∀ u e, e ∈ G.edges u → 0 < e.2

theorem cut_wt_congr {n : Nat} {w w' : Nat → Nat → Nat} (h : ∀ u v, u < n → v < n → w u v = w' u v) {X : Nat → Bool} :
    cutValue n w X = cutValue n w' X := by
  unfold cutValue
  refine Finset.sum_congr rfl fun u hu => Finset.sum_congr rfl fun v hv => ?_
  rw [h u v (Finset.mem_range.1 hu) (Finset.mem_range.1 hv)]

theorem collect_pos (φ : Nat → Nat) (p : Nat) (w0 : Nat → Nat) (l : List (Nat × Nat)) :
    ∀ q ∈ (l.foldl (collectEdge φ p) ([], w0)).1, 0 < (l.foldl (collectEdge φ p) ([], w0)).2 q := by
  induction l using List.reverseRecOn with
  | nil => simp
  | append_singleton l e ih =>
    rw [List.foldl_append, List.foldl_cons, List.foldl_nil]
    generalize l.foldl (collectEdge φ p) ([], w0) = st at *
    unfold collectEdge
    dsimp only
    split
    · exact ih
    next hz =>
      split
      · exact ih
      · split
        · intro q hq
          dsimp only at hq ⊢
          by_cases h : q = φ e.1
          · subst h; rw [update_self]; omega
          · rw [update_of_ne h]; exact ih q hq
        · intro q hq
          dsimp only at hq ⊢
          by_cases h : q = φ e.1
          · subst h; rw [update_self]; omega
          · rw [update_of_ne h]
            rcases List.mem_append.1 hq with hq | hq
            · exact ih q hq
            · exact absurd (by simpa using hq) h

theorem sparseLoop_pos (G : Graph) (φ : Nat → Nat) (order : Nat → List Nat → List Nat) (ho : IsOrder order) (rev : List (List Nat)) :
    ∀ (p0 : Nat) (w0 : Nat → Nat), ∀ l ∈ sparseLoop G φ order p0 rev w0, ∀ e ∈ l, 0 < e.2 := by
  induction rev with
  | nil => intro p0 w0 l hl; simp [sparseLoop] at hl
  | cons m rest ih =>
    intro p0 w0 l hl
    simp only [sparseLoop, List.mem_cons] at hl
    rcases hl with rfl | hl
    · intro e he
      obtain ⟨t, ht, rfl⟩ := List.mem_map.1 (List.mem_filter.1 he).1
      exact collect_pos φ p0 w0 (m.flatMap G.edges) t (((ho p0 _).mem_iff).1 ht)
    · exact ih _ _ l hl

theorem fromUnionFind_pos (G : Graph) (uf : UF) {order : Nat → List Nat → List Nat} (ho : IsOrder order) :
    PosEdges (fromUnionFind G uf order).1 := by
  intro u e he
  unfold fromUnionFind contractSparse Graph.edges at he
  simp only at he
  by_cases h : u < (sparseLoop G (fuLoop G.n uf).map order 0 (fuLoop G.n uf).rev (fun _ => 0)).length
  · rw [List.getD_eq_getElem?_getD, List.getElem?_eq_getElem h] at he
    exact sparseLoop_pos _ _ _ ho _ _ _ _ (List.getElem_mem h) e he
  · rw [List.getD_eq_getElem?_getD, List.getElem?_eq_none (by omega)] at he
    simp at he

/-- Well-formed, without parallel edges, and without edges of weight zero. -/
def GoodG (G : Graph) : Prop := SimpleWF G ∧ PosEdges G

theorem fromUnionFind_ok_good {ord : Nat → List Nat → List Nat} (ho : IsOrder ord) : ContractOK GoodG (fun H uf => fromUnionFind H uf ord) :=
  fun G uf hG hu hs => by
    obtain ⟨h1, h2⟩ := fromUnionFind_ok_simple ho G uf hG.1 hu hs
    exact ⟨⟨h1, fromUnionFind_pos G uf ho⟩, h2⟩

theorem fromGraphAccess_frame {G : Graph} (hG : SimpleWF G) :
    (fromGraphAccess G).lastNode = G.n ∧ (fromGraphAccess G).contSize = G.n ∧ (fromGraphAccess G).origNodes = G.n ∧
    (PosEdges G → ∀ u b, b < (fromGraphAccess G).len u → 0 < ((fromGraphAccess G).edge u b).weight) := by
  obtain ⟨a, -⟩ := fga_rows hG.2 G.n (le_refl _)
  have e : fromGraphAccess G = { (flat G G.n).foldl (fun h x => h.newEdge x.1 x.2.1 x.2.2) (start G.n) with lastNode := G.n } := by
    unfold fromGraphAccess
    rw [a]
    unfold finishConstruction
    simp only [(foldNew_frame' _ _).1]
    rfl
  obtain ⟨-, b2, b3, -, -, b6, -⟩ := foldNew_spec (flat G G.n) (Valid.start G.n) (by
    intro x hx
    obtain ⟨u, hu, hx⟩ := List.mem_flatMap.1 hx
    obtain ⟨e, he, rfl⟩ := List.mem_map.1 hx
    exact hG.1.tgt_lt u e he)
  unfold pframe at b2
  simp only [Prod.mk.injEq] at b2
  refine ⟨by rw [e], by rw [e]; exact b6, by rw [e]; exact b2.2.2.2.2, fun hp u b hb => ?_⟩
  have h1 : rowSum (fromGraphAccess G) (fun _ w => if w = 0 then 1 else 0) u = 0 := by
    have : rowSum (fromGraphAccess G) (fun _ w => if w = 0 then 1 else 0) u =
      rowSum ((flat G G.n).foldl (fun h x => h.newEdge x.1 x.2.1 x.2.2) (start G.n)) (fun _ w => if w = 0 then 1 else 0) u := by rw [e]; rfl
    rw [this, b3]
    have h0 : rowSum (start G.n) (fun _ w => if w = 0 then 1 else 0) u = 0 := by simp [rowSum, start]
    rw [h0, Nat.zero_add]
    apply List.sum_eq_zero
    intro y hy
    obtain ⟨x, hx, rfl⟩ := List.mem_map.1 hy
    obtain ⟨v, hv, hx⟩ := List.mem_flatMap.1 hx
    obtain ⟨d, hd, rfl⟩ := List.mem_map.1 hx
    have := hp v d hd
    have hd0 : d.2 ≠ 0 := by omega
    unfold contrib
    simp [hd0]
  unfold rowSum at h1
  have := (Finset.sum_eq_zero_iff.1 h1) b (Finset.mem_range.2 hb)
  dsimp only at this
  by_contra hz
  rw [if_pos (by omega)] at this
  omega

/-- The converted kernel is an input of the recursion. -/
theorem piece_of_graph {G : Graph} (hG : GoodG G) {c : Nat} (hl : ∀ X, ProperCut G.n X → c ≤ cutValue G.n G.wt X) :
    Piece (fun e => e < G.n) (fromGraphAccess G) c := by
  obtain ⟨h1, h2, h3, h4⟩ := fromGraphAccess_spec hG.1.1 hG.1.2
  obtain ⟨f1, f2, f3, f4⟩ := fromGraphAccess_frame hG.1
  refine ⟨consistent_iff.2 h1, noParallel_of_simple h1 (fromGraphAccess_simple hG.1.1 hG.1.2), by rw [f1, h3], by rw [f2, h3],
    fun u b _ hb => f4 hG.2 u b hb, ⟨?_, ?_, ?_⟩, fun e he => by rw [f3]; exact he, ?_, ?_⟩
  · intro e he
    rw [(h2.2 e (by rw [h3]; exact he)).1, h3]; exact he
  · intro p e hp
    rw [(h2.2 p hp).2, List.mem_singleton]
    constructor
    · rintro rfl
      exact ⟨by rw [← h3]; exact hp, (h2.2 e hp).1⟩
    · rintro ⟨he, hpe⟩
      rw [(h2.2 e (by rw [h3]; exact he)).1] at hpe
      exact hpe
  · intro p hp; rw [(h2.2 p hp).2]; simp
  · intro p hp; rw [(h2.2 p hp).2]; simp
  · intro X hX
    rw [h3] at hX ⊢
    rw [cut_wt_congr h4]
    exact hl X hX

theorem represents_of_cactus {G : Graph} (hG : GoodG G) {C : MGraph} {c : Nat} (hc : 0 < c)
    (h : CactusOf (fun e => e < G.n) (Split (fromGraphAccess G) (fun e => e < G.n) c) C c) : RepresentsMinCuts G C C.pos c := by
  obtain ⟨h1, h2, h3, h4⟩ := fromGraphAccess_spec hG.1.1 hG.1.2
  have hpos : ∀ v, v < G.n → (fromGraphAccess G).pos v = v := fun v hv => (h2.2 v (by rw [h3]; exact hv)).1
  refine ⟨h.consistent, h.simple, h.held.lt, h.least, ?_, ?_, h.separating⟩
  · intro X hX hv
    obtain ⟨Y, y1, y2, y3⟩ := (h.splits fun e => X (C.pos e)).1 ⟨X, hX, hv, fun _ _ => rfl⟩
    rw [h3] at y1 y2
    have he : ∀ v, v < G.n → Y v = X (C.pos v) := fun v hv => by
      have := y3 v hv
      rw [hpos v hv] at this
      exact this
    exact ⟨y1.congr he, by rw [← cutValue_congr he, ← cut_wt_congr h4]; exact y2⟩
  · intro S hS hv
    obtain ⟨X, -, x2, x3⟩ := (h.splits S).2 ⟨S, by rw [h3]; exact hS, by rw [h3, cut_wt_congr h4]; exact hv,
      fun e he => by rw [hpos e he]⟩
    exact ⟨X, x2, x3⟩

end Cactus
end VieCut
