import Verif.Proof.Cut

/-! Decidable well-formedness check, used only to exhibit concrete graphs next to theorems. -/

namespace VieCut

/-- Executable form of `Graph.WF`. -/
def Graph.check (G : Graph) : Bool :=
  (List.range G.n).all fun u =>
    ((G.edges u).all fun e => decide (e.1 < G.n) && decide (e.1 ≠ u)) &&
    ((List.range G.n).all fun v => G.wt u v == G.wt v u)

theorem Graph.wf_of_check {G : Graph} (h : G.check = true) : G.WF := by
  unfold check at h
  rw [List.all_eq_true] at h
  have h' : ∀ u, u < G.n → (∀ e ∈ G.edges u, e.1 < G.n ∧ e.1 ≠ u) ∧ (∀ v, v < G.n → G.wt u v = G.wt v u) := by
    intro u hu
    have := h u (by simpa using hu)
    simp only [Bool.and_eq_true, List.all_eq_true, decide_eq_true_eq, beq_iff_eq, List.mem_range] at this
    exact this
  refine ⟨?_, ?_, ?_⟩
  · intro u e he
    by_cases hu : u < G.n
    · exact ((h' u hu).1 e he).1
    · rw [edges_of_ge (by omega)] at he; simp at he
  · intro u e he
    by_cases hu : u < G.n
    · exact ((h' u hu).1 e he).2
    · rw [edges_of_ge (by omega)] at he; simp at he
  · intro u v hu hv; exact (h' u hu).2 v hv

/-- Sample: two triangles `{0,1,2}`, `{3,4,5}` of weights 3,2,2 and 4,5,6, joined by an edge `2-3` of weight 1 and
`0-5` of weight 2. -/
def sampleGraph : Graph :=
  ⟨[[(1, 3), (2, 2), (5, 2)], [(0, 3), (2, 2)], [(0, 2), (1, 2), (3, 1)],
    [(2, 1), (4, 4), (5, 5)], [(3, 4), (5, 6)], [(3, 5), (4, 6), (0, 2)]]⟩

theorem sampleGraph_wf : sampleGraph.WF := Graph.wf_of_check (by decide)

/-- All Boolean lists of length `n`. -/
def boolLists : Nat → List (List Bool)
  | 0 => [[]]
  | n + 1 => (boolLists n).flatMap fun l => [true :: l, false :: l]

theorem mem_boolLists (l : List Bool) : l ∈ boolLists l.length := by
  induction l with
  | nil => simp [boolLists]
  | cons b l ih =>
    simp only [List.length_cons, boolLists, List.mem_flatMap]
    exact ⟨l, ih, by cases b <;> simp⟩

/-- Lower bound on all cuts by enumeration. -/
theorem cuts_ge_of_check {n : Nat} {w : Nat → Nat → Nat} {c : Nat}
    (h : ∀ l ∈ boolLists n, (∃ u ∈ List.range n, l.getD u false = true) → (∃ u ∈ List.range n, l.getD u false = false) →
      c ≤ cutValue n w (fun u => l.getD u false)) : ∀ S, ProperCut n S → c ≤ cutValue n w S := by
  intro S hS
  have hl : ∀ u, u < n → ((List.range n).map S).getD u false = S u := by
    intro u hu
    rw [List.getD_eq_getElem?_getD, List.getElem?_eq_getElem (by simpa using hu)]
    simp
  have hm : (List.range n).map S ∈ boolLists n := by
    have := mem_boolLists ((List.range n).map S)
    simpa using this
  obtain ⟨⟨u, hu, hu'⟩, ⟨v, hv, hv'⟩⟩ := hS
  have := h _ hm ⟨u, by simpa using hu, (hl u hu).trans hu'⟩ ⟨v, by simpa using hv, (hl v hv).trans hv'⟩
  rwa [cutValue_congr (fun u hu => hl u hu)] at this

end VieCut
