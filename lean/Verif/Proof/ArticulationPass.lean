import Verif.Proof.ArticulationMerge
import Verif.Proof.BalancedTree
import Verif.Proof.MulticutCheck
import Verif.Spec.Articulation

/-! # Articulation points of a graph and of a multiterminal-cut problem -/

namespace VieCut
open APState APState.Forest Balanced Function

namespace MGraph

variable {g : MGraph}

theorem mem_targets {u t : Nat} : t ∈ g.targets u ↔ g.Adj u t := by
  unfold targets Adj
  simp [List.mem_map]

theorem nbrs_targets (h : g.Consistent) : Nbrs g.n g.targets :=
  ⟨fun hu ht => adj_lt h hu (mem_targets.1 ht), fun hu ht => mem_targets.2 (adj_symm h hu (mem_targets.1 ht)),
    fun hu ht => adj_ne h hu (mem_targets.1 ht) rfl⟩

theorem joined_iff {x y : Nat} : g.Joined x y ↔ Conn g.targets (fun _ => True) x y := by
  unfold Joined Conn
  simp only [mem_targets, and_true]

theorem joinedWithout_iff {v x y : Nat} : g.JoinedWithout v x y ↔ Conn g.targets (fun z => z ≠ v) x y := by
  unfold JoinedWithout Conn
  simp only [mem_targets]

variable {s : APState}

theorem first_iff (h : g.Consistent) (F : Forest g.n g.targets s) {v : Nat} (hv : v < g.n) :
    g.FirstOfComponent v ↔ s.parent v = v := by
  have hN := nbrs_targets h
  constructor
  · intro hf
    obtain ⟨r, h1, h2⟩ := F.exists_root _ v rfl hv
    have hr := F.anc_lt h1 hv
    have hc := F.conn_top hN hv h1
    have h3 := F.root_first hN hr h2 hc
    have h4 := hf r (joined_iff.2 (conn_symm hN hc hr))
    have : r = v := by omega
    rw [this] at h2; exact h2
  · intro hp u hu
    exact F.root_first hN hv hp (joined_iff.1 hu)

theorem mem_points (h : g.Consistent) (F : Forest g.n g.targets s) (v : Nat) :
    v ∈ s.points ↔ g.CutVertex v ∧ ¬ g.FirstOfComponent v := by
  rw [F.points_iff (nbrs_targets h)]
  constructor
  · rintro ⟨hv, h1, a, b, h2, h3, h4, h5, h6, h7⟩
    exact ⟨⟨hv, a, b, h2, h3, h4, h5, joined_iff.2 h6, fun e => h7 (joinedWithout_iff.1 e)⟩,
      fun e => h1 ((first_iff h F hv).1 e)⟩
  · rintro ⟨⟨hv, a, b, h2, h3, h4, h5, h6, h7⟩, h1⟩
    exact ⟨hv, fun e => h1 ((first_iff h F hv).2 e), a, b, h2, h3, h4, h5, joined_iff.1 h6,
      fun e => h7 (joinedWithout_iff.2 e)⟩

/-- What is to the right of a reported vertex is what lies behind it. -/
theorem right_iff (h : g.Consistent) (F : Forest g.n g.targets s) {v r x : Nat} (hv : v < g.n) (hpv : s.parent v ≠ v)
    (hx : x < g.n) (hr : g.FirstOfComponent r) (hvr : g.Joined v r) : Right s v x ↔ g.Behind v r x := by
  have hN := nbrs_targets h
  have hrN := conn_lt hN (joined_iff.1 hvr) hv
  have hrr := (first_iff h F hrN).1 hr
  have hrv := F.conn_root hN (conn_symm hN (joined_iff.1 hvr) hv) hrN (Anc.refl _ _) hrr
  constructor
  · intro hR
    obtain ⟨t, h1, h2, h3, h4⟩ := hR
    have hvx : Anc s.parent v x := (h1 ▸ Anc.parent s.parent t : Anc s.parent v t).trans h4
    have hR : Right s v x := ⟨t, h1, h2, h3, h4⟩
    refine ⟨F.right_ne hx hR, joined_iff.2 (F.conn_top hN hx hvx), fun hc => ?_⟩
    obtain ⟨t', h5, h6, _, k, hk⟩ := F.conn_right hN hx hR (conn_symm hN (joinedWithout_iff.1 hc) hrN)
    rw [iterate_fixed hrr] at hk
    subst hk
    rw [hrr] at h5
    exact h6 h5
  · rintro ⟨h1, h2, h3⟩
    by_contra hR
    refine h3 (joinedWithout_iff.2 (conn_symm hN ?_ hx))
    exact F.conn_left hN hx hv hpv (F.conn_root hN (joined_iff.1 h2) hv hrv hrr) hrr h1 hR

end MGraph

namespace Problem
open MGraph

variable {ots : List Nat} {p : Problem}

theorem tpos_lt (_h : Ok ots p) : ∀ t ∈ (p.setTerminals ots).tpos, t < p.graph.n := fun _ ht =>
  (mem_tpos_setTerminals.1 ht).2.2

theorem good_spots (h : Ok ots p) {q : Nat × Nat} (hg : Good p.graph.n p.graph.targets (p.setTerminals ots).tpos q) :
    Good p.graph.n p.graph.targets (p.spots ots) q := by
  obtain ⟨n, P, h1, h2, h3, h4, h5, h6, h7⟩ := hg
  have hN := nbrs_targets h.consistent
  refine ⟨n, fun x => P x ∧ p.graph.targets x ≠ [], h1, fun e => h2 e.1, ?_, ?_, h5, h6, ?_⟩
  · intro x hx hP y hy
    rcases h3 x hx hP.1 y hy with h | h
    · exact Or.inl ⟨h, List.ne_nil_of_mem (hN.symm hx hy)⟩
    · exact Or.inr h
  · rintro t ht ⟨hP, hne⟩
    refine h4 t (mem_tpos_setTerminals.2 ⟨ht, ?_, h.spot_lt t ht⟩) hP
    rcases Nat.eq_zero_or_pos (p.graph.len t) with h0 | h0
    · exact absurd (by unfold targets; rw [h0]; rfl) hne
    · exact h0
  · have : ∀ b, Conn p.graph.targets (fun x => P x ∨ x = n) q.1 b →
        Conn p.graph.targets (fun x => (P x ∧ p.graph.targets x ≠ []) ∨ x = n) q.1 b := by
      intro b hb
      induction hb with
      | refl => exact Relation.ReflTransGen.refl
      | @tail b c a1 a2 ih =>
        have hb := conn_lt hN a1 h5
        refine ih.tail ⟨a2.1, ?_, ?_⟩
        · exact a2.2.1.imp_left fun h => ⟨h, List.ne_nil_of_mem a2.1⟩
        · exact a2.2.2.imp_left fun h => ⟨h, List.ne_nil_of_mem (hN.symm hb a2.1)⟩
    exact this _ h7

theorem articulation_safe (h : Ok ots p) {uf : UF} {ps : List (Nat × Nat)} (hr : UF.Rep uf ps)
    (hps : ∀ q ∈ ps, Good p.graph.n p.graph.targets (p.setTerminals ots).tpos q) :
    MergeSafe p.graph.n p.graph.toGraph.wt (p.spots ots) uf.root := by
  refine mergeSafe_of_rep hr fun f hf => ?_
  refine pairs_safe (nbrs_targets h.consistent) ?_ (fun q hq => good_spots h (hps q hq)) hf
  intro u v hu _ hw
  exact mem_targets.2 (adj_of_wt hu hw)

/-- The pass returns; it changes nothing but the terminal list or contracts safe classes. -/
theorem articulationPass_spec (h : Ok ots p) (ord : Nat → List Nat → List Nat) :
    ∃ p2, (p.setTerminals ots).articulationPass ots ord = some p2 ∧ (p2 = p.setTerminals ots ∨ ∃ uf : UF, uf.Inv ∧
      uf.size = p.graph.n ∧ MergeSafe p.graph.n p.graph.toGraph.wt (p.spots ots) uf.root ∧
      p2 = (p.setTerminals ots).contractIfImproved ots ord uf) := by
  have hN := nbrs_targets h.consistent
  obtain ⟨s, h1, F⟩ := findAll_forest hN
  have hpt := mem_points h.consistent F
  obtain ⟨r', a1, a2, ⟨ps, a3, a4⟩, _, _⟩ := points_fold F hN (tpos_lt h) s.points (UF.mk' p.graph.n, false) []
    (fun n hn => ((hpt n).1 hn).1.1) (UF.init_rep _) rfl (by simp)
  have hfind : findAll (p.setTerminals ots).graph.n (p.setTerminals ots).graph.targets = some s := h1
  unfold articulationPass
  rw [hfind]
  simp only [Option.bind_some]
  by_cases hp : s.points = []
  · rw [if_pos hp]; exact ⟨_, rfl, Or.inl rfl⟩
  · rw [if_neg hp]
    have hb : bothSides (p.setTerminals ots).graph.n (p.setTerminals ots).graph.targets (p.setTerminals ots).tpos s =
        some (if r'.2 then some r'.1 else none) := by
      have a1' : s.points.foldlM (pointStep (p.setTerminals ots).graph.n (p.setTerminals ots).graph.targets
        (p.setTerminals ots).tpos s) (UF.mk' (p.setTerminals ots).graph.n, false) = some r' := a1
      unfold bothSides
      rw [a1']; rfl
    rw [hb]
    refine ⟨_, rfl, ?_⟩
    by_cases hr : r'.2 = true
    · rw [if_pos hr]
      exact Or.inr ⟨r'.1, a3.inv, a2, articulation_safe h a3 a4, rfl⟩
    · rw [if_neg hr]
      exact Or.inl rfl

end Problem
end VieCut
