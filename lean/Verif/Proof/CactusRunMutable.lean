import Verif.Proof.CactusRun
import Verif.Proof.CactusRunShape
import Verif.Proof.MutableSimple

/-!
# C37 on `mutable_graph`: the kernel is an input of the recursion
-/

namespace VieCut
namespace Cactus
open Function MGraph RecCactus

/-- All entries of the edge lists have positive weight. -/
def PosE (g : MGraph) : Prop := ∀ u b, b < g.len u → 0 < (g.edge u b).weight

theorem posE_push {g : MGraph} (h : PosE g) {u : Nat} {r : RevEdge} (hr : 0 < r.weight) : PosE (g.pushEdge u r) := by
  intro a b hb
  unfold pushEdge setEdge at hb ⊢
  dsimp only at hb ⊢
  by_cases ha : a = u
  · subst ha
    rw [update_self] at hb ⊢
    by_cases hbl : b = g.len a
    · rw [hbl, update_self]; exact hr
    · rw [update_of_ne hbl]; exact h a b (by omega)
  · rw [update_of_ne ha] at hb ⊢
    exact h a b hb

theorem posE_newEdge {g : MGraph} (h : PosE g) {s t w : Nat} (hw : 0 < w) : PosE (g.newEdge s t w) := by
  unfold newEdge
  split
  · have := posE_push (posE_push h (u := s) (r := { target := t, weight := w, rev := g.len t }) hw) (u := t)
      (r := { target := s, weight := w, rev := g.len s }) hw
    exact this
  · exact h

/-- What the construction of the contracted graph keeps. -/
structure SpKeep (N k : Nat) (g : MGraph) : Prop where
  n : g.n = N
  last : g.lastNode = k
  size : g.contSize = N
  orig : g.origNodes = N
  pos : PosE g

theorem SpKeep.newEdge {N k : Nat} {g : MGraph} (h : SpKeep N k g) {s t w : Nat} (hw : 0 < w) : SpKeep N k (g.newEdge s t w) := by
  refine ⟨?_, ?_, ?_, ?_, posE_newEdge h.pos hw⟩
  · unfold MGraph.newEdge; split <;> exact h.n
  · unfold MGraph.newEdge; split <;> exact h.last
  · unfold MGraph.newEdge; split <;> exact h.size
  · unfold MGraph.newEdge; split <;> exact h.orig

theorem SpKeep.edges {N k p : Nat} (w : Nat → Nat) (l : List Nat) : ∀ {g : MGraph}, SpKeep N k g → (∀ t ∈ l, 0 < w t) →
    SpKeep N k (l.foldl (fun h t => h.newEdge p t (w t)) g) := by
  induction l with
  | nil => intro g h _; exact h
  | cons t l ih =>
    intro g h hw
    exact ih (h.newEdge (hw t (by simp))) fun x hx => hw x (by simp [hx])

theorem collectM_pos (φ : Nat → Nat) (p : Nat) (w0 : Nat → Nat) (l : List (Nat × Nat)) :
    ∀ q ∈ (l.foldl (collectEdgeM φ p) ([], w0)).1, 0 < (l.foldl (collectEdgeM φ p) ([], w0)).2 q := by
  have hE : l.foldl (collectEdgeM φ p) ([], w0) =
      (l.filter (fun e => decide (p < φ e.1))).foldl (collectEdge φ p) ([], w0) := by
    rw [List.foldl_filter]
    congr 1
    funext st e
    exact collectEdgeM_eq φ p st e
  rw [hE]
  exact collect_pos φ p w0 _

theorem SpKeep.loop {N : Nat} {G : Graph} {φ : Nat → Nat} {ord : Nat → List Nat → List Nat} (ho : IsOrder ord) (rev : List (List Nat)) :
    ∀ (k : Nat) (s : MGraph × (Nat → Nat)), SpKeep N k s.1 → k + rev.length = N →
    SpKeep N N ((rev.zipIdx k).foldl (sparseStepM G φ ord) s).1 := by
  induction rev with
  | nil => intro k s h hk; simp at hk; subst hk; exact h
  | cons c rest ih =>
    intro k s h hk
    rw [List.zipIdx_cons, List.foldl_cons]
    simp only [List.length_cons] at hk
    refine ih (k + 1) _ ?_ (by omega)
    unfold sparseStepM
    dsimp only
    rw [newNode_of_lt (by rw [h.last, h.n]; omega)]
    refine SpKeep.edges _ _ ⟨h.n, ?_, h.size, h.orig, h.pos⟩ fun t ht => ?_
    · show s.1.lastNode + 1 = k + 1
      rw [h.last]
    · exact collectM_pos φ k s.2 (c.flatMap G.edges) t (((ho k _).mem_iff).1 ht)

/-- What `contractVertexSet` keeps. -/
structure CvKeep (g : MGraph) : Prop where
  valid : Valid g
  last : g.lastNode = g.n
  size : g.n ≤ g.contSize
  pos : PosW g []

theorem CvKeep.loop {g : MGraph} {ord : Nat → List Nat → List Nat} (ho : IsOrder ord) (rev : List (List Nat)) :
    ∀ (k : Nat) (H : MGraph), CvKeep H → CvKeep ((rev.zipIdx k).foldl (cvStep g ord) H) := by
  induction rev with
  | nil => intro k H h; exact h
  | cons c rest ih =>
    intro k H h
    rw [List.zipIdx_cons, List.foldl_cons]
    refine ih (k + 1) _ ?_
    unfold cvStep
    dsimp only
    split
    · obtain ⟨⟨φ, hφ⟩, -, -⟩ := contractVertexSet_spec (S := ord k ((c.map g.rep).map H.pos).dedup) h.valid
        ((ho k _).nodup_iff.2 (List.nodup_dedup _))
      exact ⟨hφ.valid, hφ.last h.last, hφ.csize h.size, hφ.posw h.pos⟩
    · exact h

/-- A `mutable_graph` whose construction is finished: original vertices, no parallel edges, positive weights. -/
structure MGood (g : MGraph) : Prop where
  valid : Valid g
  fresh : Fresh g
  simple : Simple g []
  pos : ∀ u b, u < g.n → b < g.len u → 0 < (g.edge u b).weight
  last : g.lastNode = g.n
  size : g.n ≤ g.contSize
  orig : g.origNodes = g.n

theorem fromUnionFindM_ok_good {ord : Nat → List Nat → List Nat} (ho : IsOrder ord) :
    ContractOK MGood (fun H uf => fromUnionFindM H uf true ord) := by
  intro g uf hg hu hs
  obtain ⟨⟨a1, a2, a3⟩, h2⟩ := fromUnionFindM_ok_simple ho g uf ⟨hg.valid, hg.fresh, hg.simple⟩ hu hs
  refine ⟨?_, h2⟩
  have hrest : (∀ u b, u < (fromUnionFindM g uf true ord).1.n → b < (fromUnionFindM g uf true ord).1.len u →
      0 < ((fromUnionFindM g uf true ord).1.edge u b).weight) ∧
      (fromUnionFindM g uf true ord).1.lastNode = (fromUnionFindM g uf true ord).1.n ∧
      (fromUnionFindM g uf true ord).1.n ≤ (fromUnionFindM g uf true ord).1.contSize ∧
      (fromUnionFindM g uf true ord).1.origNodes = (fromUnionFindM g uf true ord).1.n := by
    unfold fromUnionFindM
    rw [if_neg (by simp)]
    dsimp only
    split
    · have h := CvKeep.loop (g := g) ho (fuLoop g.n uf).rev 0 g ⟨hg.valid, hg.last, hg.size, fun u b hu _ hb => hg.pos u b hu hb⟩
      exact ⟨fun u b hu hb => h.pos u b hu (by simp) hb, h.last, h.size, rfl⟩
    · unfold contractSparseM
      have h := SpKeep.loop (N := ((fuLoop g.n uf).rev.map fun c => c.map g.rep).length) (G := g.toGraph) (φ := (fuLoop g.n uf).map) ho
        ((fuLoop g.n uf).rev.map fun c => c.map g.rep) 0
        (MGraph.start ((fuLoop g.n uf).rev.map fun c => c.map g.rep).length, fun _ => 0)
        ⟨rfl, rfl, rfl, rfl, fun u b hb => absurd hb (Nat.not_lt_zero _)⟩ (by omega)
      exact ⟨fun u b _ hb => h.pos u b hb, rfl, by
        show MGraph.n _ ≤ MGraph.contSize _
        have h1 := h.n
        have h2 := h.size
        unfold finishConstruction
        dsimp only
        omega, by
        show MGraph.origNodes _ = MGraph.n _
        have h1 := h.n
        have h2 := h.orig
        unfold finishConstruction
        dsimp only
        omega⟩
  exact ⟨a1, a2, a3, hrest.1, hrest.2.1, hrest.2.2.1, hrest.2.2.2⟩

/-- The kernel is an input of the recursion. -/
theorem piece_of_mutable {g : MGraph} (hg : MGood g) {c : Nat} (hl : ∀ X, ProperCut g.n X → c ≤ cutValue g.n g.toGraph.wt X) :
    Piece (fun e => e < g.n) g c := by
  have hf := hg.fresh.2
  refine ⟨consistent_iff.2 hg.valid, noParallel_of_simple hg.valid hg.simple, hg.last, hg.size, hg.pos, ⟨?_, ?_, ?_⟩,
    fun e he => by rw [hg.orig]; exact he, ?_, hl⟩
  · intro e he
    rw [(hf e he).1]; exact he
  · intro p e hp
    rw [(hf p hp).2, List.mem_singleton]
    constructor
    · rintro rfl
      exact ⟨hp, (hf e hp).1⟩
    · rintro ⟨he, hpe⟩
      rw [(hf e he).1] at hpe
      exact hpe
  · intro p hp; rw [(hf p hp).2]; simp
  · intro p hp; rw [(hf p hp).2]; simp

theorem represents_of_mutable {g : MGraph} (hg : MGood g) {C : MGraph} {c : Nat}
    (h : CactusOf (fun e => e < g.n) (Split g (fun e => e < g.n) c) C c) : RepresentsMinCuts g.toGraph C C.pos c := by
  have hpos : ∀ v, v < g.n → g.pos v = v := fun v hv => (hg.fresh.2 v hv).1
  have hN : g.toGraph.n = g.n := toGraph_n g
  refine ⟨h.consistent, h.simple, by rw [hN]; exact h.held.lt, h.least, ?_, ?_, h.separating⟩
  · intro X hX hv
    obtain ⟨Y, y1, y2, y3⟩ := (h.splits fun e => X (C.pos e)).1 ⟨X, hX, hv, fun _ _ => rfl⟩
    have he : ∀ v, v < g.n → Y v = X (C.pos v) := fun v hv => by
      have := y3 v hv
      rw [hpos v hv] at this
      exact this
    rw [hN]
    exact ⟨y1.congr he, by rw [← cutValue_congr he]; exact y2⟩
  · intro S hS hv
    rw [hN] at hS hv ⊢
    obtain ⟨X, -, x2, x3⟩ := (h.splits S).2 ⟨S, hS, hv, fun e he => by rw [hpos e he]⟩
    exact ⟨X, x2, x3⟩

end Cactus
end VieCut
