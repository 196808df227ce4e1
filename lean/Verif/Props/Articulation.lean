import Verif.Proof.ArticulationPass

/-!
# Articulation points

C45: `find_articulation_points` reports exactly the cut vertices that are not the first vertex of their component, and
merges what such a vertex separates from all terminals; C22: the pass of the kernelization keeps the optimum.
-/

namespace VieCut
open MGraph APState Balanced

/-- The search returns, and it reports exactly the cut vertices that are not the first vertex of their component. -/
theorem C45_exact (g : MGraph) (h : Consistent g) :
    ∃ s, findAll g.n g.targets = some s ∧ ∀ v, v ∈ s.points ↔ g.CutVertex v ∧ ¬ g.FirstOfComponent v := by
  obtain ⟨s, h1, F⟩ := findAll_forest (nbrs_targets h)
  exact ⟨s, h1, mem_points h F⟩

/-- For every list of terminals the reduction neither exits nor runs forever, and it merges into a reported vertex `v`
everything of its component behind `v` if all terminals are elsewhere, and everything before `v` if all terminals are at
or behind `v`.  Here `r` is the first vertex of the component of `v`. -/
theorem C45_merges (g : MGraph) (h : Consistent g) (ts : List Nat) (hts : ∀ t ∈ ts, t < g.n) :
    ∃ s res, findAll g.n g.targets = some s ∧ bothSides g.n g.targets ts s = some res ∧
      ∀ v r, v ∈ s.points → g.FirstOfComponent r → g.Joined v r →
        (ts ≠ [] → (∀ t ∈ ts, t ≠ v ∧ ¬ g.Behind v r t) → ∃ uf, res = some uf ∧
          ∀ x, g.Behind v r x → uf.root x = uf.root v) ∧
        ((∀ t ∈ ts, t = v ∨ g.Behind v r t) → ∃ uf, res = some uf ∧
          ∀ x, g.Joined v x → ¬ g.Behind v r x → uf.root x = uf.root v) := by
  obtain ⟨s, h1, F⟩ := findAll_forest (nbrs_targets h)
  have hN := nbrs_targets h
  have hpt := mem_points h F
  obtain ⟨r', a1, a2, _, _, a5⟩ := points_fold F hN hts s.points (UF.mk' g.n, false) [] (fun n hn => ((hpt n).1 hn).1.1)
    (UF.init_rep _) rfl (by simp)
  refine ⟨s, if r'.2 then some r'.1 else none, h1, by unfold bothSides; rw [a1]; rfl, ?_⟩
  intro v r hv hr hvr
  obtain ⟨⟨hvN, _⟩, hvf⟩ := (hpt v).1 hv
  have hpv : s.parent v ≠ v := fun e => hvf ((first_iff h F hvN).2 e)
  have hri : ∀ x, x < g.n → (Forest.Right s v x ↔ g.Behind v r x) := fun x hx => right_iff h F hvN hpv hx hr hvr
  constructor
  · intro hne hall
    obtain ⟨b1, b2⟩ := a5 v hv false (fun t ht => ⟨fun hs => (hall t ht).2 ((hri t hs.1).1 (hs.2.2.2 rfl)),
      fun _ => (hall t ht).1⟩) (fun e => absurd e hne)
    refine ⟨r'.1, by rw [b1]; rfl, fun x hx => ?_⟩
    have hxN := Forest.conn_lt hN (joined_iff.1 hx.2.1) hvN
    exact b2 x ⟨hxN, hx.1, by simp [(hri x hxN).2 hx]⟩ (joined_iff.1 hx.2.1)
  · intro hall
    obtain ⟨b1, b2⟩ := a5 v hv true (fun t ht => ⟨fun hs => by
      rcases hall t ht with h' | h'
      · exact hs.2.1 h'
      · exact Bool.noConfusion (hs.2.2.1 ((hri t hs.1).2 h')), fun e => Bool.noConfusion e⟩) (fun _ => rfl)
    refine ⟨r'.1, by rw [b1]; rfl, fun x hx hb => ?_⟩
    by_cases hxv : x = v
    · rw [hxv]
    · have hxN := Forest.conn_lt hN (joined_iff.1 hx) hvN
      refine b2 x ⟨hxN, hxv, ?_⟩ (joined_iff.1 hx)
      rw [hri x hxN]
      simp [hb]

namespace Problem

/-- The articulation-point pass never aborts and keeps the optimum. -/
theorem C22_articulation (ots : List Nat) (ord : Nat → List Nat → List Nat) (p : Problem) (h : Ok ots p)
    (ho : IsOrder ord) : ∃ p2, (p.setTerminals ots).articulationPass ots ord = some p2 ∧ Ok ots p2 ∧
      ∀ c, Optimum ots p c ↔ Optimum ots p2 c := by
  obtain ⟨p2, h1, h2⟩ := articulationPass_spec h ord
  have h0 : Ok ots (p.setTerminals ots) ∧ ∀ c, Optimum ots p c ↔ Optimum ots (p.setTerminals ots) c :=
    ⟨setTerminals_ok h, fun c => (setTerminals_optimum c).symm⟩
  refine ⟨p2, h1, ?_⟩
  rcases h2 with rfl | ⟨uf, h3, h4, h5, rfl⟩
  · exact h0
  · have hk := contractIfImproved_ok h0.1 ho h3 h4 h5
    exact ⟨hk.1, fun c => (h0.2 c).trans (hk.2 c)⟩

/-- Terminals 0 and 1; vertex 2 separates the triangle 4, 5, 6 and vertex 7 from them, and 3 is between the terminals. -/
def hanging : Problem := sample 8 [(0, 2, 1), (2, 3, 2), (1, 3, 1), (0, 3, 1), (2, 4, 3), (4, 5, 1), (5, 6, 1), (4, 6, 1), (2, 7, 1)]

theorem hanging_ok : Ok [0, 1] hanging :=
  ok_of_check (by decide +kernel) (by decide +kernel) (by decide +kernel) (by decide +kernel) (by decide +kernel)

example : Ok [0, 1] hanging ∧
    (findAll 8 hanging.graph.targets).map APState.points = some [4, 2, 2, 3] ∧
    ((hanging.setTerminals [0, 1]).articulationPass [0, 1] fun _ l => l).map (fun p => p.graph.n) = some 4 :=
  ⟨hanging_ok, by decide +kernel, by decide +kernel⟩

/-- The hypotheses of the first part of `C45_merges` for vertex 2: both terminals are before it, vertex 7 is behind it. -/
example : hanging.graph.FirstOfComponent 0 ∧ hanging.graph.Joined 2 0 ∧
    (∀ t ∈ [0, 1], t ≠ 2 ∧ ¬ hanging.graph.Behind 2 0 t) ∧ hanging.graph.Behind 2 0 7 := by
  have e02 : hanging.graph.Adj 2 0 := ⟨0, by decide +kernel⟩
  have e03 : hanging.graph.Adj 0 3 := ⟨1, by decide +kernel⟩
  have e31 : hanging.graph.Adj 3 1 := ⟨1, by decide +kernel⟩
  have e27 : hanging.graph.Adj 2 7 := ⟨3, by decide +kernel⟩
  refine ⟨fun u _ => Nat.zero_le u, Relation.ReflTransGen.single e02, ?_, ⟨by decide, Relation.ReflTransGen.single e27, ?_⟩⟩
  · intro t ht
    rcases List.mem_cons.1 ht with rfl | ht
    · exact ⟨by decide, fun h => h.2.2 Relation.ReflTransGen.refl⟩
    · rw [List.mem_singleton] at ht
      subst ht
      exact ⟨by decide, fun h => h.2.2 ((Relation.ReflTransGen.single ⟨e03, by decide, by decide⟩).tail
        ⟨e31, by decide, by decide⟩)⟩
  · have h7 : ∀ e < hanging.graph.len 7, (hanging.graph.edge 7 e).target = 2 := by decide +kernel
    have key : ∀ y, hanging.graph.JoinedWithout 2 0 y → y ≠ 7 ∧ y < hanging.graph.n := by
      intro y hy
      induction hy with
      | refl => exact ⟨by decide, by decide +kernel⟩
      | @tail b c _ h2 ih =>
        refine ⟨?_, adj_lt hanging_ok.consistent ih.2 h2.1⟩
        rintro rfl
        obtain ⟨e, he, h3⟩ := adj_symm hanging_ok.consistent ih.2 h2.1
        exact h2.2.1 (h3.symm.trans (h7 e he))
    exact fun h => (key 7 h).1 rfl

end Problem
end VieCut
