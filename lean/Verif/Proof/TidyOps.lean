import Verif.Proof.CanonizeReplace

/-!
# Contraction and deletion do not touch the lists behind the last vertex
-/

namespace VieCut
namespace MGraph
open Function

theorem mergePair_fr (g : MGraph) (k e t r : Nat) (d : RevEdge) : (g.mergePair k e t r d).fr = g.fr := by
  unfold mergePair
  dsimp only
  rw [internalDelete_fr]
  rfl

theorem redirect_fr (g : MGraph) (k : Nat) (d : RevEdge) : (g.redirect k d).fr = g.fr := rfl

theorem remap_fr (g : MGraph) (slot : Nat) : (g.remap slot).fr = g.fr := by
  unfold remap
  generalize List.range (g.len slot) = l
  induction l generalizing g with
  | nil => rfl
  | cons e l ih => rw [List.foldl_cons, ih]; rfl

theorem contractEdgeOrdered_tail {g : MGraph} {node edge : Nat} (hn : node < g.n) (ht : (g.edge node edge).target < g.n) {p : Nat}
    (hp : g.n ≤ p) :
    (g.contractEdgeOrdered node edge).cont p = g.cont p ∧ (g.contractEdgeOrdered node edge).contSize = g.contSize - 1 := by
  unfold contractEdgeOrdered
  dsimp only
  set g1 := (List.range (g.len (g.edge node edge).target)).foldl _ g with hg1
  have hfr : g1.fr = g.fr := by
    rw [hg1]
    generalize List.range (g.len (g.edge node edge).target) = l
    refine List.foldlRecOn (motive := fun (h : MGraph) => h.fr = g.fr) l _ rfl fun h hh ed _ => ?_
    split
    · exact hh
    · split
      · rw [mergePair_fr]; exact hh
      · rw [redirect_fr]; exact hh
  obtain ⟨r1, r2, r3, r4, r5, _⟩ := fr_eq hfr
  have key : ∀ h : MGraph, h.fr = ((g1.absorb node (g.edge node edge).target).freeSlot (g.edge node edge).target).fr →
      h.cont p = g.cont p ∧ h.contSize = g.contSize - 1 := by
    intro h hh
    obtain ⟨s1, s2, s3, s4, s5, _⟩ := fr_eq hh
    rw [s4, s3]
    unfold freeSlot
    split
    · obtain ⟨q1, q2, q3, q4, q5, _⟩ := fr_eq (remap_fr (((g1.absorb node (g.edge node edge).target).relocate (g.edge node edge).target
        ((g1.absorb node (g.edge node edge).target).n - 1)).moveLast (g.edge node edge).target).popVertex (g.edge node edge).target)
      rw [q4, q3]
      simp only [popVertex, moveLast, relocate, absorb]
      refine ⟨?_, by rw [r3]⟩
      rw [update_of_ne (by omega), update_of_ne (by omega), update_of_ne (by omega), r4]
    · simp only [popVertex, absorb]
      refine ⟨?_, by rw [r3]⟩
      rw [update_of_ne (by omega), update_of_ne (by omega), r4]
  exact key _ (internalDelete_fr _ _ _)

theorem contractEdge_tail {g : MGraph} {node edge : Nat} (hn : node < g.n) (ht : (g.edge node edge).target < g.n)
    (hr : (g.edge (g.edge node edge).target (g.edge node edge).rev).target < g.n) {p : Nat} (hp : g.n ≤ p) :
    (g.contractEdge node edge).cont p = g.cont p ∧ (g.contractEdge node edge).contSize = g.contSize - 1 := by
  unfold contractEdge
  dsimp only
  split
  · exact contractEdgeOrdered_tail ht hr hp
  · exact contractEdgeOrdered_tail hn ht hp

theorem deleteVertex_tail {g : MGraph} {node : Nat} (hn : node < g.n) {p : Nat} (hp : g.n ≤ p) :
    (g.deleteVertex node).cont p = g.cont p ∧ (g.deleteVertex node).n = g.n - 1 ∧ (g.deleteVertex node).contSize = g.contSize := by
  rw [deleteVertex_eq]
  dsimp only
  have h1 : (g.dvPos node).cont p = g.cont p ∧ (g.dvPos node).n = g.n ∧ (g.dvPos node).contSize = g.contSize := by
    unfold dvPos
    split
    · exact ⟨update_of_ne (by omega) _ _, rfl, rfl⟩
    · exact ⟨rfl, rfl, rfl⟩
  have h2 : ∀ (l : List Nat) (h : MGraph), (l.foldl (dvStep node) h).fr = h.fr := by
    intro l
    induction l with
    | nil => intro h; rfl
    | cons e l ih =>
      intro h
      rw [List.foldl_cons, ih]
      exact internalDelete_fr h (h.edge node e).target (h.edge node e).rev
  have h3 : ∀ (h : MGraph) b, (h.dvPre node b).fr = h.fr := by
    intro h b
    unfold dvPre
    split
    · generalize List.range (h.len b) = l
      induction l generalizing h with
      | nil => rfl
      | cons e l ih => rw [List.foldl_cons, ih]; rfl
    · rfl
  obtain ⟨a1, _, a3, a4, _⟩ := fr_eq (h3 ((List.range ((g.dvPos node).len node)).foldl (dvStep node) (g.dvPos node)) (g.n - 1))
  obtain ⟨b1, _, b3, b4, _⟩ := fr_eq (h2 (List.range ((g.dvPos node).len node)) (g.dvPos node))
  refine ⟨?_, ?_, ?_⟩
  · show (MGraph.dvPre _ node (g.n - 1)).cont p = _
    rw [a4, b4, h1.1]
  · show (MGraph.dvPre _ node (g.n - 1)).n - 1 = _
    rw [a1, b1, h1.2.1]
  · show (MGraph.dvPre _ node (g.n - 1)).contSize = _
    rw [a3, b3, h1.2.2]

/-- Contraction of an edge of a graph with nothing behind the last vertex. -/
theorem contractEdge_tidy {g : MGraph} (hg : Valid g) (hcl : Clean g) {node edge : Nat} (hn : node < g.n) (he : edge < g.len node)
    (hn' : (g.contractEdge node edge).n = g.n - 1) : Tidy (g.contractEdge node edge) := by
  obtain ⟨_, ⟨k1, _, _⟩, k4, _⟩ := hg.pv node edge ⟨hn, by simp, he⟩
  intro p hp hp2
  have hlt : 0 < g.n := by omega
  obtain ⟨t1, t2⟩ := contractEdge_tail hn k1 (by rw [k4]; exact hn) (p := p) (by omega)
  rw [t1]
  exact hcl p (by omega) (by omega)

end MGraph
end VieCut
