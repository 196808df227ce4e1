import Verif.Proof.CactusShape
import Verif.Proof.CactusLocations
import Verif.Spec.CactusPieces

/-!
# C37: the graph returned by `findAllMincuts` is a cactus
-/

namespace VieCut
namespace Cactus
open Function MGraph

/-- The weights of all edges satisfy `Q`. -/
def EdgesIn (Q : Nat → Prop) (g : MGraph) : Prop := ∀ u b, u < g.n → b < g.len u → Q (g.edge u b).weight

theorem edgesIn_push {Q : Nat → Prop} {g : MGraph} (h : EdgesIn Q g) (x : Nat) {r : RevEdge} (hr : Q r.weight) : EdgesIn Q (g.pushEdge x r) := by
  intro u b hu hb
  rw [pushEdge_len] at hb
  rw [pushEdge_edge]
  split
  · exact hr
  next hn =>
    refine h u b hu ?_
    by_cases hx : u = x
    · subst hx
      rw [update_self] at hb
      have : b ≠ g.len u := fun he => hn ⟨rfl, he⟩
      omega
    · rwa [update_of_ne hx] at hb

theorem edgesIn_newEdge {Q : Nat → Prop} {g : MGraph} (h : EdgesIn Q g) (s t : Nat) {w : Nat} (hw : Q w) : EdgesIn Q (g.newEdge s t w) := by
  unfold newEdge
  split
  · exact edgesIn_push (edgesIn_push h s (r := { target := t, weight := w, rev := g.len t }) hw) t
      (r := { target := s, weight := w, rev := g.len s }) hw
  · exact h

theorem edgesIn_newEmpty {Q : Nat → Prop} {g : MGraph} (h : EdgesIn Q g) : EdgesIn Q g.newEmptyNode := by
  unfold newEmptyNode
  split
  · intro u b hu hb
    by_cases hx : u = g.n
    · subst hx
      change b < update g.len g.n 0 g.n at hb
      rw [update_self] at hb
      omega
    · change b < update g.len g.n 0 u at hb
      rw [update_of_ne hx] at hb
      change u < g.n + 1 at hu
      exact h u b (by omega) hb
  · exact h

theorem edgesIn_attach {Q : Nat → Prop} {c : Nat} (hc : Q c) (st : MGraph × (Nat → Nat)) (e : Nat × Nat) (h : EdgesIn Q st.1) :
    EdgesIn Q (Cactus.attach c st e).1 := by
  show EdgesIn Q (newEdgeOrder _ _ _ _)
  unfold newEdgeOrder
  split
  · exact edgesIn_newEdge (edgesIn_newEmpty h) _ _ hc
  · split
    · exact edgesIn_newEdge (edgesIn_newEmpty h) _ _ hc
    · exact edgesIn_newEmpty h

theorem attach_orig (c : Nat) (st : MGraph × (Nat → Nat)) (e : Nat × Nat) : (Cactus.attach c st e).1.origNodes = st.1.origNodes := by
  show (newEdgeOrder _ _ _ _).origNodes = _
  have h1 : st.1.newEmptyNode.origNodes = st.1.origNodes := by unfold newEmptyNode; split <;> rfl
  have h2 : ∀ (g : MGraph) (s t w : Nat), (g.newEdge s t w).origNodes = g.origNodes := fun g s t w => by unfold newEdge; split <;> rfl
  unfold newEdgeOrder
  split
  · rw [h2, h1]
  · split
    · rw [h2, h1]
    · exact h1

theorem edgesIn_fold {Q : Nat → Prop} {c : Nat} (hc : Q c) (es : List (Nat × Nat)) : ∀ st : MGraph × (Nat → Nat), EdgesIn Q st.1 →
    EdgesIn Q (es.foldl (Cactus.attach c) st).1 ∧ (es.foldl (Cactus.attach c) st).1.origNodes = st.1.origNodes := by
  induction es with
  | nil => intro st h; exact ⟨h, rfl⟩
  | cons e es ih =>
    intro st h
    rw [List.foldl_cons]
    obtain ⟨a, b⟩ := ih _ (edgesIn_attach hc st e h)
    exact ⟨a, b.trans (attach_orig c st e)⟩

theorem edgesIn_unpack {Q : Nat → Prop} {c : Nat} (hc : Q c) : ∀ maps ge (st : MGraph × (Nat → Nat)), EdgesIn Q st.1 →
    EdgesIn Q (unpack c maps ge st).1 ∧ (unpack c maps ge st).1.origNodes = st.1.origNodes := by
  intro maps
  induction maps with
  | nil => intro ge st h; exact ⟨h, rfl⟩
  | cons φ maps ih =>
    intro ge st h
    unfold unpack
    simp only
    obtain ⟨a1, a2⟩ := edgesIn_fold hc (edgesAt ge maps.length) (st.1, fun v => st.2 (φ v)) h
    obtain ⟨b1, b2⟩ := ih (dropAt ge maps.length) _ a1
    exact ⟨b1, b2.trans a2⟩

/-- `setVertexLocations` adds edges of the weight of the minimum cut only, and sets `original_nodes`. -/
theorem edgesIn_locations {Q : Nat → Prop} {c : Nat} (hc : Q c) {C : MGraph} (h : EdgesIn Q C) (n kn : Nat) (maps : List (Nat → Nat))
    (ge : List (Nat × List (Nat × Nat))) :
    EdgesIn Q (setVertexLocations C n kn maps ge c) ∧ (setVertexLocations C n kn maps ge c).origNodes = n := by
  obtain ⟨pos, ps, f1, -, -⟩ := setOriginalNodes_frame C n
  unfold setVertexLocations
  simp only [f1]
  generalize hout : ({ C with pos := pos, posSize := ps, origNodes := n, cont := fun p => if p < C.n then [] else C.cont p } : MGraph) = out
  have h0 : EdgesIn Q out ∧ out.origNodes = n := by rw [← hout]; exact ⟨h, rfl⟩
  generalize hst : (if maps.length = 0 then (out, fun v => if v < kn then pos v else v) else
    unpack c maps.reverse (dropAt ge maps.length)
      ((edgesAt ge maps.length).foldl (Cactus.attach c) (out, fun v => if v < kn then pos v else v))) = st
  have hfin : EdgesIn Q st.1 ∧ st.1.origNodes = n := by
    rw [← hst]
    split
    · exact h0
    · obtain ⟨a1, a2⟩ := edgesIn_fold hc (edgesAt ge maps.length) (out, fun v => if v < kn then pos v else v) h0.1
      obtain ⟨b1, b2⟩ := edgesIn_unpack hc maps.reverse (dropAt ge maps.length) _ a1
      exact ⟨b1, b2.trans (a2.trans h0.2)⟩
  obtain ⟨pos', cont', p1, -, -⟩ := place_spec st.2 st.1 n
  have hD : (List.range n).foldl (fun g v => { g with pos := update g.pos v (st.2 v), cont := update g.cont (st.2 v) (g.cont (st.2 v) ++ [v]) })
      st.1 = { st.1 with pos := pos', cont := cont' } := p1
  rw [hD]
  exact hfin

/-- A cactus of a family of splits is a cactus. -/
theorem isCactus_of {E : Nat → Prop} {P : (Nat → Bool) → Prop} {C : MGraph} {c : Nat} (hc : 0 < c) (h : CactusOf E P C c) : IsCactus C c :=
  (Balanced.Shape.mk h.consistent h.simple hc h.weights h.least h.separating).isCactus

/-- So is a graph that represents the minimum cuts, if its edges have weight `c` or `c / 2`. -/
theorem isCactus_represents {G : Graph} {C : MGraph} {p : Nat → Nat} {c : Nat} (hc : 0 < c) (h : RepresentsMinCuts G C p c)
    (hw : EdgesIn (fun w => w = c ∨ 2 * w = c) C) : IsCactus C c :=
  (Balanced.Shape.mk h.consistent h.simple hc hw h.least h.separating).isCactus

end Cactus
end VieCut
