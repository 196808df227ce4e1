import Verif.Proof.BranchRefine
import Verif.Proof.MutableSimple

/-!
# `simplify` builds an equal graph with the current vertices as original vertices
-/

namespace VieCut
open Finset Function

namespace MGraph

theorem foldNew_row (u : Nat) (row : List (Nat × Nat)) (h : MGraph) :
    row.foldl (fun h e => h.newEdge u e.1 e.2) h =
      (row.map (fun e => (u, e.1, e.2))).foldl (fun h x => h.newEdge x.1 x.2.1 x.2.2) h := by
  rw [List.foldl_map]

theorem simplify_rows (G : Graph) (k : Nat) (hk : k ≤ G.n) :
    (List.range k).foldl (fun h u => (G.edges u).foldl (fun h e => h.newEdge u e.1 e.2) h.newNode) (start G.n) =
      { (flat G k).foldl (fun h x => h.newEdge x.1 x.2.1 x.2.2) (start G.n) with lastNode := k } := by
  induction k with
  | zero => rfl
  | succ k ih =>
    rw [List.range_succ, List.foldl_append, List.foldl_cons, List.foldl_nil, ih (by omega)]
    rw [newNode_lt (by
      show k ≠ ((flat G k).foldl (fun h x => h.newEdge x.1 x.2.1 x.2.2) (start G.n)).n
      rw [(foldNew_frame' _ _).1]
      show k ≠ G.n
      omega), foldNew_row]
    show List.foldl _ ({ (flat G k).foldl (fun h x => h.newEdge x.1 x.2.1 x.2.2) (start G.n) with lastNode := k + 1 } : MGraph) _ = _
    rw [foldNew_lastNode]
    unfold flat
    rw [CSR.rowsFlat_succ, List.foldl_append]

theorem simplify_eq {g : MGraph} (hs : ∀ u, u < g.n → ((g.toGraph.edges u).map (·.1)).Nodup) :
    g.simplify = { fromGraphAccess g.toGraph with
      part := fun v => if v < g.n then g.part v else (fromGraphAccess g.toGraph).part v } := by
  obtain ⟨a, -⟩ := fga_rows (G := g.toGraph) (by simpa [toGraph_n] using hs) g.toGraph.n (le_refl _)
  have b := simplify_rows g.toGraph g.toGraph.n (le_refl _)
  unfold simplify fromGraphAccess
  rw [a, ← toGraph_n g, b]
  rfl

/-- Contributions to the part of a row above the diagonal come from that row alone. -/
theorem flat_upper {G : Graph} (hG : G.WF) {u v : Nat} (hu : u < G.n) (huv : u < v) (f : Nat → Nat → Nat)
    (hf : ∀ x w, x ≠ v → f x w = 0) :
    ((flat G G.n).map (contrib f u)).sum = ((G.edges u).map (fun e => f e.1 e.2)).sum := by
  rw [flat_sum, Finset.sum_eq_single u]
  · congr 1
    refine List.map_congr_left fun e he => ?_
    unfold contrib
    simp only [if_true]
    have hno : e.1 ≠ u := hG.no_loop u e he
    by_cases h1 : u < e.1
    · simp only [h1, if_true]
      have h2 : ¬ u = e.1 := by omega
      simp only [h2, if_false, Nat.add_zero]
    · simp only [h1, if_false]
      rw [hf _ _ (by omega)]
  · intro s hs' hsu
    rw [List.sum_eq_zero]
    intro y hy
    obtain ⟨e, he, rfl⟩ := List.mem_map.1 hy
    unfold contrib
    simp only
    by_cases h1 : s < e.1
    · rw [if_pos h1, if_neg (Ne.symm hsu)]
      by_cases h2 : u = e.1
      · rw [if_pos h2, hf _ _ (by omega)]; rfl
      · rw [if_neg h2]; rfl
    · rw [if_neg h1]
  · intro h; exact absurd (Finset.mem_range.2 hu) h

theorem fromGraphAccess_simple {G : Graph} (hG : G.WF) (hs : ∀ u, u < G.n → ((G.edges u).map (·.1)).Nodup) :
    Simple (fromGraphAccess G) [] := by
  obtain ⟨a, -⟩ := fga_rows hs G.n (le_refl _)
  have e : fromGraphAccess G = { (flat G G.n).foldl (fun h x => h.newEdge x.1 x.2.1 x.2.2) (start G.n) with lastNode := G.n } := by
    unfold fromGraphAccess
    rw [a]
    unfold finishConstruction
    simp only [(foldNew_frame' _ _).1]
    rfl
  obtain ⟨hv, _, hn, _⟩ := fromGraphAccess_spec hG hs
  refine simple_of_upper hv fun u v huv => ?_
  by_cases hu : u < G.n
  · obtain ⟨_, _, b3, -⟩ := foldNew_spec (flat G G.n) (Valid.start G.n) (by
      intro x hx
      obtain ⟨u, hu, hx⟩ := List.mem_flatMap.1 hx
      obtain ⟨e, he, rfl⟩ := List.mem_map.1 hx
      exact hG.tgt_lt u e he)
    have h1 : (fromGraphAccess G).cnt u v = rowSum ((flat G G.n).foldl (fun h x => h.newEdge x.1 x.2.1 x.2.2) (start G.n))
        (fun a _ => if a = v then 1 else 0) u := by rw [e]; rfl
    rw [h1, b3, flat_upper hG hu huv _ (fun x w hx => if_neg hx)]
    have h0 : rowSum (start G.n) (fun a _ => if a = v then 1 else 0) u = 0 := by simp [rowSum, start]
    rw [h0, Nat.zero_add]
    have h2 := hs u hu
    have h3 : ∀ l : List (Nat × Nat), (l.map (·.1)).Nodup → (l.map fun e => if e.1 = v then 1 else 0).sum ≤ 1 := by
      intro l
      induction l with
      | nil => intro _; simp
      | cons x l ih =>
        intro hnd
        rw [List.map_cons, List.nodup_cons] at hnd
        rw [List.map_cons, List.sum_cons]
        by_cases hx : x.1 = v
        · have h0 : (l.map fun e => if e.1 = v then 1 else 0).sum = 0 := List.sum_eq_zero (by
            intro y hy
            obtain ⟨e, he, rfl⟩ := List.mem_map.1 hy
            refine if_neg fun h' => hnd.1 ?_
            rw [hx, ← h']
            exact List.mem_map_of_mem he)
          rw [if_pos hx, h0]
        · rw [if_neg hx, Nat.zero_add]; exact ih hnd.2
    exact h3 _ h2
  · have h1 : (fromGraphAccess G).cnt u v = rowSum ((flat G G.n).foldl (fun h x => h.newEdge x.1 x.2.1 x.2.2) (start G.n))
        (fun a _ => if a = v then 1 else 0) u := by rw [e]; rfl
    obtain ⟨_, _, b3, -⟩ := foldNew_spec (flat G G.n) (Valid.start G.n) (by
      intro x hx
      obtain ⟨u, hu, hx⟩ := List.mem_flatMap.1 hx
      obtain ⟨e, he, rfl⟩ := List.mem_map.1 hx
      exact hG.tgt_lt u e he)
    rw [h1, b3]
    have h0 : rowSum (start G.n) (fun a _ => if a = v then 1 else 0) u = 0 := by simp [rowSum, start]
    rw [h0, Nat.zero_add]
    refine Nat.le_trans (Nat.le_of_eq (List.sum_eq_zero ?_)) (Nat.zero_le 1)
    intro y hy
    obtain ⟨x, hx, rfl⟩ := List.mem_map.1 hy
    obtain ⟨s, hs', hx⟩ := List.mem_flatMap.1 hx
    obtain ⟨e, he, rfl⟩ := List.mem_map.1 hx
    have h5 := hG.tgt_lt s e he
    have h7 : s < G.n := List.mem_range.1 hs'
    unfold contrib
    simp only
    have h6 : ¬ u = e.1 := by omega
    split
    · have h8 : ¬ u = s := by omega
      simp [h6, h8]
    · rfl

/-- `simplify` keeps the vertices, the weights and the labels; the vertices become their own original vertices. -/
theorem simplify_spec {g : MGraph} (hg : Valid g) (hs : Simple g []) :
    Valid g.simplify ∧ Simple g.simplify [] ∧ g.simplify.Fresh ∧ g.simplify.n = g.n ∧
    (∀ u v, u < g.n → v < g.n → g.simplify.toGraph.wt u v = g.toGraph.wt u v) ∧
    ∀ v, v < g.n → g.simplify.part v = g.part v := by
  have hS := simpleWF_of_mutable hg hs
  have e := simplify_eq (g := g) (by simpa [toGraph_n] using hS.2)
  obtain ⟨a1, a2, a3, a4⟩ := fromGraphAccess_spec hS.1 hS.2
  have a5 := fromGraphAccess_simple hS.1 hS.2
  rw [toGraph_n] at a3 a4
  rw [e]
  exact ⟨⟨a1.pv, a1.wdeg, a1.num⟩, a5, a2, a3, a4, fun v hv => if_pos hv⟩

end MGraph

namespace Problem
open MGraph BB

variable {ots : List Nat} {p : Problem}

theorem simplified_ok (h : Ok ots p) :
    let q : Problem := { p with mapped := p.at', graph := p.graph.simplify }
    Ok ots q ∧ Refines p q ∧ (∀ c, Optimum ots p c ↔ Optimum ots q c) ∧ q.graph.n = p.graph.n := by
  intro q
  obtain ⟨h1, h2, h3, h4, h5, _⟩ := simplify_spec h.valid (simple_of_noParallel h.simple)
  have hlt : ∀ o, p.mapped o < p.graph.posSize → p.at' o < p.graph.n := fun o ho => h.located.live _ ho
  have hat : ∀ o, p.mapped o < p.graph.posSize → q.at' o = p.at' o := fun o ho => (h3.2 _ (by rw [h4]; exact hlt o ho)).1
  have hsp : q.spots ots = p.spots ots := List.map_congr_left fun o ho => hat o (h.mapped o ho)
  have hmc : ∀ f, multicutValue q.graph.n q.graph.toGraph.wt f = multicutValue p.graph.n p.graph.toGraph.wt f := by
    intro f
    show multicutValue p.graph.simplify.n _ _ = _
    rw [h4]
    exact multicut_wcongr (fun a b ha hb => h5 a b ha hb) f
  refine ⟨Ok.of h1 h2 h3.located (fun v hv => ?_) (fun o ho => ?_) (by rw [hsp]; exact h.apart), ?_, ?_, h4⟩
  · show p.graph.simplify.cont v ≠ []
    rw [(h3.2 v hv).2]; simp
  · show p.at' o < p.graph.simplify.posSize
    rw [h3.1, h4]; exact hlt o (h.mapped o ho)
  · refine ⟨id, fun o ho => ⟨?_, hat o ho⟩, fun f => ?_⟩
    · show p.at' o < p.graph.simplify.posSize
      rw [h3.1, h4]; exact hlt o ho
    · unfold cost
      rw [hmc]; exact Nat.le_refl _
  · intro c
    unfold Optimum IsMinMulticut
    simp only [hsp, hmc]
    exact Iff.rfl

theorem prepare_ok (h : Ok ots p) :
    Ok ots (prepare ots p) ∧ Refines p (prepare ots p) ∧ (∀ c, Optimum ots p c ↔ Optimum ots (prepare ots p) c) ∧
    (prepare ots p).graph.n = p.graph.n := by
  unfold prepare
  split
  · obtain ⟨h1, h2, h3, h4⟩ := simplified_ok h
    exact ⟨setTerminals_ok h1, h2.trans refines_setTerminals, fun c => (h3 c).trans (setTerminals_optimum c).symm, h4⟩
  · exact ⟨setTerminals_ok h, refines_setTerminals, fun c => (setTerminals_optimum c).symm, rfl⟩

end Problem
end VieCut
