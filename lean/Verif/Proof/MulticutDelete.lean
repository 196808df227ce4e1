import Verif.Proof.MulticutProblem
import Verif.Proof.MutableOps

namespace VieCut
open Finset Function

namespace MGraph

/-- Adjacency vectors after `deleteEdge`. -/
theorem deleteEdge_rows {g : MGraph} (hg : Valid g) {u e : Nat} (hu : u < g.n) (he : e < g.len u) :
    (g.deleteEdge u e).len = update (update g.len u (g.len u - 1)) (g.edge u e).target (g.len (g.edge u e).target - 1) ∧
    ∀ a b, a ≠ (g.edge u e).target → ((g.deleteEdge u e).edge a b).target =
      (if a = u ∧ b = e ∧ g.len u > e + 1 then g.edge u (g.len u - 1) else g.edge a b).target := by
  have hL0 : (fun u e => u < g.n ∧ u ∉ ([] : List Nat) ∧ e < g.len u) = fun u e => u < g.n ∧ e < g.len u := by
    funext a b; simp
  have hpv := hg.pv
  rw [hL0] at hpv
  obtain ⟨h1, ⟨h2, h3⟩, h4, h5, h6, h7⟩ := hpv u e ⟨hu, he⟩
  have hK := hpv.kill (u := u) (e := e) ⟨hu, he⟩
  set t := (g.edge u e).target with htd
  set r := (g.edge u e).rev with hrd
  set L1 : Nat → Nat → Prop := fun a b => (a < g.n ∧ b < g.len a) ∧ ¬ (a = u ∧ b = e) ∧ ¬ (a = t ∧ b = r) with hL1
  have hl1 : g.len u > e + 1 → L1 u (g.len u - 1) := by
    intro hc
    exact ⟨⟨hu, by omega⟩, by omega, fun hh => h7 hh.1.symm⟩
  have hd1 : ¬ L1 u e := fun hh => hh.2.1 ⟨rfl, rfl⟩
  have hP1 := hK.internalDelete he hd1 hl1
  obtain ⟨f1, f2, f3, f4, f5, f6⟩ := internalDelete_frame g u e
  have ft := internalDelete_edge_target hK he hl1
  set g1 := g.internalDelete u e with hg1
  set L2 := Lren L1 u e (g.len u - 1) with hL2
  have hlt1 : g1.len t = g.len t := by rw [f6, update_of_ne h7]
  have hl2 : g1.len t > r + 1 → L2 t (g1.len t - 1) := by
    intro hc
    rw [hlt1] at hc ⊢
    show if t = u then _ else L1 t (g.len t - 1)
    rw [if_neg h7]
    exact ⟨⟨h2, by omega⟩, fun hh => h7 hh.1, by omega⟩
  have hr' : r < g1.len t := by rw [hlt1]; exact h3
  obtain ⟨f1', f2', f3', f4', f5', f6'⟩ := internalDelete_frame g1 t r
  have ft2 := internalDelete_edge_target hP1 hr' hl2
  constructor
  · show (g1.internalDelete t r).len = _
    rw [f6', f6, update_of_ne h7]
  · intro a b ha
    show ((g1.internalDelete t r).edge a b).target = _
    rw [(ft2 a b).1, if_neg (fun hh => ha hh.1), (ft a b).1]

theorem simple_deleteEdge {g : MGraph} (hg : Valid g) {u e : Nat} (hu : u < g.n) (he : e < g.len u)
    (hs : Simple g []) : Simple (g.deleteEdge u e) [] := by
  obtain ⟨_, h2, h3⟩ := deleteEdge_spec hg hu he
  have hn : (g.deleteEdge u e).n = g.n := by
    unfold pframe at h2; simp only [Prod.mk.injEq] at h2; exact h2.1
  intro a b ha h1 hb h2
  rw [hn] at ha hb
  have h4 := h3 (fun x _ => if x = b then 1 else 0) a
  have h5 := hs a b ha h1 hb h2
  unfold cnt at h5 ⊢
  omega

end MGraph

namespace Problem
open MGraph

variable {ots : List Nat} {p : Problem}

theorem Ok.congr {p' : Problem} (h : Ok ots p) (hg : p'.graph = p.graph) (hm : p'.mapped = p.mapped) : Ok ots p' := by
  cases p; cases p'
  simp only at hg hm
  subst hg hm
  exact ⟨h.1, h.2, h.3, h.4, h.5, h.6⟩

theorem Optimum.congr {p' : Problem} (hg : p'.graph = p.graph) (hm : p'.mapped = p.mapped) (hd : p'.deleted = p.deleted)
    (c : Nat) : Optimum ots p' c ↔ Optimum ots p c := by
  cases p; cases p'
  simp only at hg hm hd
  subst hg hm hd
  exact Iff.rfl

theorem mem_tpos_setTerminals {v : Nat} :
    v ∈ (p.setTerminals ots).tpos ↔ v ∈ p.spots ots ∧ 0 < p.graph.len v ∧ v < p.graph.n := by
  unfold tpos setTerminals spots
  simp only [List.mem_map, List.mem_filterMap]
  constructor
  · rintro ⟨t, ⟨oi, ho, h⟩, rfl⟩
    split at h
    · rename_i hc
      simp only [Option.some.injEq] at h
      subst h
      have := List.mem_zipIdx ho
      refine ⟨⟨oi.1, ?_, rfl⟩, hc.1, hc.2⟩
      rw [this.2.2]; exact List.getElem_mem _
    · simp at h
  · rintro ⟨⟨o, ho, rfl⟩, h1, h2⟩
    obtain ⟨i, hi, rfl⟩ := List.getElem_of_mem ho
    refine ⟨⟨p.at' ots[i], i, invalidFlag p.terminals (p.at' ots[i])⟩, ⟨(ots[i], i), ?_, ?_⟩, rfl⟩
    · rw [List.mk_mem_zipIdx_iff_getElem?]; simp [hi]
    · simp only
      rw [if_pos ⟨h1, h2⟩]

theorem setTerminals_ok (h : Ok ots p) : Ok ots (p.setTerminals ots) := h.congr rfl rfl

theorem setTerminals_optimum (c : Nat) : Optimum ots (p.setTerminals ots) c ↔ Optimum ots p c :=
  Optimum.congr rfl rfl rfl c

/-- Deleting an edge between two terminals and paying for it. -/
theorem deleteEdge_ok (h : Ok ots p) {s e : Nat} (hs : s ∈ p.spots ots) (he : e < p.graph.len s)
    (ht : (p.graph.edge s e).target ∈ p.spots ots) {p' : Problem} (hg : p'.graph = p.graph.deleteEdge s e)
    (hm : p'.mapped = p.mapped) (hd : p'.deleted = p.deleted + (p.graph.edge s e).weight) :
    Ok ots p' ∧ p'.spots ots = p.spots ots ∧ ∀ c, Optimum ots p c ↔ Optimum ots p' c := by
  have hsn := h.spot_lt s hs
  have htn := h.spot_lt _ ht
  obtain ⟨h1, h2, h3⟩ := deleteEdge_spec h.valid hsn he
  have hfr := h2
  unfold pframe at h2
  simp only [Prod.mk.injEq] at h2
  obtain ⟨k1, k2, k3, k4, k5⟩ := h2
  rw [← hg] at k1 k2 k3 k4 k5 h1
  have hsp : p'.spots ots = p.spots ots := by
    unfold spots at'
    rw [hm, k2]
  have hne : s ≠ (p.graph.edge s e).target := (h.consistent.noLoop s e hsn he).symm
  have hL := h.located
  have hval : ∀ f, Separates (p.spots ots) f → multicutValue p.graph.n p.graph.toGraph.wt f =
      multicutValue p.graph.n p'.graph.toGraph.wt f + (p.graph.edge s e).weight := by
    intro f hf
    have e1 := multicut_edge (n := p.graph.n) (k := (p.graph.edge s e).weight) hsn htn hne f
    rw [if_pos (hf s hs _ ht hne)] at e1
    rw [← e1, ← multicut_add]
    refine multicut_wcongr (fun a b ha _ => ?_) f
    have h4 := h3 (fun x w => if x = b then w else 0) a
    rw [← hg] at h4
    rw [toGraph_wt p'.graph (by rw [k1]; exact ha), toGraph_wt p.graph ha]
    unfold W
    by_cases c1 : a = s
    · subst c1
      simpa [hne, eq_comm] using h4.symm
    · by_cases c2 : a = (p.graph.edge s e).target
      · rw [c2] at h4 ⊢
        simpa [hne.symm, eq_comm] using h4.symm
      · simpa [c1, c2] using h4.symm
  refine ⟨Ok.of h1 (by rw [hg]; exact simple_deleteEdge h.valid hsn he (simple_of_noParallel h.simple)) ?_ ?_ ?_ ?_, hsp, ?_⟩
  · refine ⟨⟨?_, ?_, ?_⟩, ?_⟩
    · rw [k1, k2, k3, k4]; exact hL.inv.back
    · rw [k1, k2, k3, k4]; exact hL.inv.mem
    · rw [k1, k4]; exact hL.inv.nodup
    · rw [k1, k2, k3]; exact hL.live
  · unfold HasRep; rw [k1, k4]; exact h.hasRep
  · rw [hm, k3]; exact h.mapped
  · rw [hsp]; exact h.apart
  · intro c
    unfold Optimum
    rw [k1, hsp, hd]
    exact optimum_shift hval

/-- The subproblem described by the locals of `deleteTermEdges`. -/
def ofDTE (p : Problem) (s : DTE) : Problem := { p with graph := s.g, deleted := p.deleted + s.del }

/-- Loop invariant of `deleteTermEdges`. -/
structure DInv (ots : List Nat) (p : Problem) (s : DTE) : Prop where
  ok : Ok ots (ofDTE p s)
  spots : (ofDTE p s).spots ots = p.spots ots
  opt : ∀ c, Optimum ots p c ↔ Optimum ots (ofDTE p s) c
  n : s.g.n = p.graph.n

/-- The first `k` processed, i.e. all indices `≥ k`, of `term` have no edge into `T`. -/
def Clean (T : List Nat) (g : MGraph) (term k : Nat) : Prop :=
  ∀ e, k ≤ e → e < g.len term → (g.edge term e).target ∉ T

theorem dteStep_inv {T : List Nat} (hT : ∀ t ∈ T, t ∈ p.spots ots) {term : Nat} (ht : term ∈ T) {s : DTE} {k : Nat}
    (h : DInv ots p s) (hk : k + 1 ≤ s.g.len term) (hc : Clean T s.g term (k + 1)) :
    DInv ots p (dteStep T term s k) ∧ k ≤ (dteStep T term s k).g.len term ∧ Clean T (dteStep T term s k).g term k ∧
    ∀ v, v ∈ T → Clean T s.g v 0 → Clean T (dteStep T term s k).g v 0 := by
  unfold dteStep
  dsimp only
  by_cases hin : (s.g.edge term k).target ∈ T
  · rw [if_pos hin]
    have hsp : ∀ t ∈ T, t ∈ (ofDTE p s).spots ots := by rw [h.spots]; exact hT
    have htn : term < s.g.n := h.ok.spot_lt term (hsp term ht)
    have hv : Valid s.g := h.ok.valid
    obtain ⟨a1, a2, a3⟩ := deleteEdge_ok h.ok (hsp term ht) (show k < s.g.len term by omega) (hsp _ hin)
      (p' := ofDTE p ⟨s.g.deleteEdge term k, s.del + (s.g.edge term k).weight, s.ts.map fun t =>
        if t.position ≠ term ∧ t.position ≠ (s.g.edge term k).target then { t with invalid := true } else t⟩)
      rfl rfl (by show p.deleted + _ = p.deleted + _ + _; rw [Nat.add_assoc]; rfl)
    obtain ⟨b1, b2⟩ := deleteEdge_rows hv htn (show k < s.g.len term by omega)
    have hne : term ≠ (s.g.edge term k).target := (h.ok.consistent.noLoop term k htn (show k < s.g.len term by omega)).symm
    have hlt : (s.g.deleteEdge term k).len term = s.g.len term - 1 := by
      rw [b1, update_of_ne hne, update_self]
    have hpf := (deleteEdge_spec hv htn (show k < s.g.len term by omega)).2
    have hnn : (s.g.deleteEdge term k).n = s.g.n := by
      have := hpf.1
      unfold pframe at this; simp only [Prod.mk.injEq] at this; exact this.1
    refine ⟨⟨a1, a2.trans h.spots, fun c => (h.opt c).trans (a3 c), hnn.trans h.n⟩, ?_, ?_, ?_⟩
    · show k ≤ (s.g.deleteEdge term k).len term
      omega
    · intro e he hel
      change e < (s.g.deleteEdge term k).len term at hel
      show ((s.g.deleteEdge term k).edge term e).target ∉ T
      rw [b2 term e hne]
      split
      · rename_i hh; exact hc _ (by omega) (by omega)
      · rename_i hh
        have : e ≠ k := by
          intro h'
          exact hh ⟨rfl, h', by omega⟩
        exact hc e (by omega) (by omega)
    · intro v hv' hcl
      -- counted version: the number of edges into `T` of a row only decreases
      have key : ∀ g : MGraph, Clean T g v 0 ↔ rowSum g (fun x _ => if x ∈ T then 1 else 0) v = 0 := by
        intro g
        unfold rowSum Clean
        rw [Finset.sum_eq_zero_iff]
        constructor
        · intro hh e he
          exact if_neg (hh e (Nat.zero_le _) (Finset.mem_range.1 he))
        · intro hh e _ he hm
          have := hh e (Finset.mem_range.2 he)
          dsimp only at this
          rw [if_pos hm] at this
          exact absurd this (by decide)
      rw [key] at hcl ⊢
      have := hpf.2 (fun x _ => if x ∈ T then 1 else 0) v
      show rowSum (s.g.deleteEdge term k) _ v = 0
      omega
  · rw [if_neg hin]
    refine ⟨h, by omega, ?_, fun v _ hcl => hcl⟩
    intro e he hel
    by_cases he' : e = k
    · rw [he']; exact hin
    · exact hc e (by omega) hel

theorem dteTerm_inv {T : List Nat} (hT : ∀ t ∈ T, t ∈ p.spots ots) {term : Nat} (ht : term ∈ T) {s : DTE}
    (h : DInv ots p s) : DInv ots p (dteTerm T s term) ∧ Clean T (dteTerm T s term).g term 0 ∧
    ∀ v, v ∈ T → Clean T s.g v 0 → Clean T (dteTerm T s term).g v 0 := by
  have key : ∀ k (s : DTE), DInv ots p s → k ≤ s.g.len term → Clean T s.g term k →
      DInv ots p ((List.range k).reverse.foldl (dteStep T term) s) ∧
      Clean T ((List.range k).reverse.foldl (dteStep T term) s).g term 0 ∧
      ∀ v, v ∈ T → Clean T s.g v 0 → Clean T ((List.range k).reverse.foldl (dteStep T term) s).g v 0 := by
    intro k
    induction k with
    | zero => intro s h _ hc; exact ⟨h, hc, fun v _ hh => hh⟩
    | succ k ih =>
      intro s h hk hc
      rw [List.range_succ, List.reverse_append, List.reverse_singleton, List.singleton_append, List.foldl_cons]
      obtain ⟨a1, a2, a3, a4⟩ := dteStep_inv hT ht h hk hc
      obtain ⟨b1, b2, b3⟩ := ih _ a1 a2 a3
      exact ⟨b1, b2, fun v hv hh => b3 v hv (a4 v hv hh)⟩
  exact key _ s h (Nat.le_refl _) (fun e h1 h2 => absurd h2 (by omega))

theorem dteLoop_inv {T : List Nat} (hT : ∀ t ∈ T, t ∈ p.spots ots) : ∀ (l : List Nat) (s : DTE),
    (∀ t ∈ l, t ∈ T) → DInv ots p s → DInv ots p (l.foldl (dteTerm T) s) ∧
    ∀ v, v ∈ T → (v ∈ l ∨ Clean T s.g v 0) → Clean T (l.foldl (dteTerm T) s).g v 0 := by
  intro l
  induction l with
  | nil => intro s _ h; exact ⟨h, fun v _ hh => by rcases hh with hh | hh; simp at hh; exact hh⟩
  | cons t l ih =>
    intro s hl h
    rw [List.foldl_cons]
    obtain ⟨a1, a2, a3⟩ := dteTerm_inv hT (hl t (by simp)) h
    obtain ⟨b1, b2⟩ := ih _ (fun t' ht' => hl t' (by simp [ht'])) a1
    refine ⟨b1, fun v hv hh => ?_⟩
    rcases hh with hh | hh
    · rw [List.mem_cons] at hh
      rcases hh with rfl | hh
      · exact b2 v hv (Or.inr a2)
      · exact b2 v hv (Or.inl hh)
    · exact b2 v hv (Or.inr (a3 v hv hh))

theorem deleteTermEdges_ok (h : Ok ots p) :
    Ok ots (p.deleteTermEdges ots) ∧ (∀ c, Optimum ots p c ↔ Optimum ots (p.deleteTermEdges ots) c) ∧
    (p.deleteTermEdges ots).spots ots = p.spots ots ∧
    (p.deleteTermEdges ots).graph.n = p.graph.n ∧
    (∀ s ∈ p.spots ots, ∀ t ∈ p.spots ots, (p.deleteTermEdges ots).graph.toGraph.wt s t = 0) := by
  set T := (p.setTerminals ots).tpos with hTd
  have hT : ∀ t ∈ T, t ∈ p.spots ots := fun t ht => (mem_tpos_setTerminals.1 ht).1
  have h0 : DInv ots p ⟨p.graph, 0, (p.setTerminals ots).terminals⟩ :=
    ⟨h.congr rfl rfl, rfl, fun c => (Optimum.congr rfl rfl rfl c).symm, rfl⟩
  obtain ⟨h1, h2⟩ := dteLoop_inv hT T _ (fun t ht => ht) h0
  set s := T.foldl (dteTerm T) ⟨p.graph, 0, (p.setTerminals ots).terminals⟩ with hs
  have hg : (p.deleteTermEdges ots).graph = s.g := rfl
  have hm : (p.deleteTermEdges ots).mapped = p.mapped := rfl
  have hd : (p.deleteTermEdges ots).deleted = p.deleted + s.del := rfl
  have hsp : (p.deleteTermEdges ots).spots ots = p.spots ots := h1.spots
  refine ⟨h1.ok.congr rfl rfl, fun c => (h1.opt c).trans (Optimum.congr rfl rfl rfl c).symm, hsp, h1.n, ?_⟩
  intro a ha b hb
  rw [hg]
  have han : a < s.g.n := by rw [h1.n]; exact h.spot_lt a ha
  -- row lengths only shrink, so an isolated terminal stays isolated
  have hlen : ∀ v, p.graph.len v = 0 → v < p.graph.n → s.g.toGraph.wt v = fun _ => 0 := by
    intro v hv hvn
    have hle : ∀ (l : List Nat) (s0 : DTE), (∀ t ∈ l, t ∈ T) → DInv ots p s0 →
        rowSum s0.g (fun _ _ => 1) v = 0 → rowSum (l.foldl (dteTerm T) s0).g (fun _ _ => 1) v = 0 := by
      intro l
      induction l with
      | nil => intro s0 _ _ h'; exact h'
      | cons t l ih =>
        intro s0 hl hd0 h'
        rw [List.foldl_cons]
        refine ih _ (fun t' ht' => hl t' (by simp [ht'])) (dteTerm_inv hT (hl t (by simp)) hd0).1 ?_
        have inner : ∀ k (s0 : DTE), DInv ots p s0 → k ≤ s0.g.len t → Clean T s0.g t k →
            rowSum s0.g (fun _ _ => 1) v = 0 →
            rowSum ((List.range k).reverse.foldl (dteStep T t) s0).g (fun _ _ => 1) v = 0 := by
          intro k
          induction k with
          | zero => intro s0 _ _ _ h'; exact h'
          | succ k ihk =>
            intro s0 hd0 hk hc h'
            rw [List.range_succ, List.reverse_append, List.reverse_singleton, List.singleton_append, List.foldl_cons]
            obtain ⟨a1, a2, a3, _⟩ := dteStep_inv hT (hl t (by simp)) hd0 hk hc
            refine ihk _ a1 a2 a3 ?_
            unfold dteStep
            dsimp only
            split
            · have htn : t < s0.g.n := by rw [hd0.n]; exact h.spot_lt t (hT t (hl t (by simp)))
              have := (deleteEdge_spec hd0.ok.valid (show t < (ofDTE p s0).graph.n from htn)
                (show k < (ofDTE p s0).graph.len t from hk)).2.2 (fun _ _ => 1) v
              change rowSum (s0.g.deleteEdge t k) _ v + _ = rowSum s0.g _ v at this
              show rowSum (s0.g.deleteEdge t k) _ v = 0
              omega
            · exact h'
        exact inner _ s0 hd0 (Nat.le_refl _) (fun e h1 h2 => absurd h2 (by omega)) h'
    have h3 := hle T ⟨p.graph, 0, (p.setTerminals ots).terminals⟩ (fun t ht => ht) h0 (by
      unfold rowSum
      rw [show (⟨p.graph, 0, (p.setTerminals ots).terminals⟩ : DTE).g.len v = p.graph.len v from rfl, hv]; simp)
    rw [← hs] at h3
    have h4 : s.g.len v = 0 := by
      unfold rowSum at h3
      rw [Finset.sum_const, Finset.card_range] at h3
      simpa using h3
    funext x
    rw [toGraph_wt _ (by rw [h1.n]; exact hvn)]
    unfold W rowSum
    rw [h4]; simp
  have hsym : ∀ x y, s.g.toGraph.wt x y = s.g.toGraph.wt y x := by
    have : Valid s.g := h1.ok.valid
    exact this.wf.wt_symm
  by_cases ca : p.graph.len a = 0
  · rw [hlen a ca (h.spot_lt a ha)]
  by_cases cb : p.graph.len b = 0
  · rw [hsym, hlen b cb (h.spot_lt b hb)]
  have hbT : b ∈ T := mem_tpos_setTerminals.2 ⟨hb, by omega, h.spot_lt b hb⟩
  have haT : a ∈ T := mem_tpos_setTerminals.2 ⟨ha, by omega, h.spot_lt a ha⟩
  have hcl := h2 a haT (Or.inl haT)
  rw [toGraph_wt _ han]
  unfold W rowSum
  refine Finset.sum_eq_zero fun e he => ?_
  dsimp only
  rw [if_neg]
  intro heq
  exact hcl e (Nat.zero_le _) (Finset.mem_range.1 he) (by rw [heq]; exact hbT)

/-- `contractIfImproved` with safe classes. -/
theorem contractIfImproved_ok (h : Ok ots p) {ord : Nat → List Nat → List Nat} (ho : IsOrder ord) {uf : UF}
    (hu : uf.Inv) (hs : uf.size = p.graph.n)
    (hsafe : MergeSafe p.graph.n p.graph.toGraph.wt (p.spots ots) uf.root) :
    Ok ots (p.contractIfImproved ots ord uf) ∧
    ∀ c, Optimum ots p c ↔ Optimum ots (p.contractIfImproved ots ord uf) c := by
  unfold contractIfImproved
  by_cases hc : uf.cnt < p.graph.n
  · rw [if_pos hc]
    have hcl := fuLoop_classes hu
    rw [hs] at hcl
    obtain ⟨h1, h2, _⟩ := contract_ok (ots := ots) h ho hcl.1 hcl.2.1 (cls := uf.root) (by
      intro c hc u hu' v hv'
      exact (hcl.2.2 u v ((hcl.1 c hc).1 u hu') ((hcl.1 c hc).1 v hv')).1 (Or.inr ⟨c, hc, hu', hv'⟩)) hsafe
      (p' := { p with graph := p.graph.contractVertexsets (fuLoop p.graph.n uf).rev ord, prio := none }) rfl rfl rfl
    have h3 := deleteTermEdges_ok (setTerminals_ok h1)
    exact ⟨h3.1, fun c => (h2 c).trans ((setTerminals_optimum c).symm.trans (h3.2.1 c))⟩
  · rw [if_neg hc]
    exact ⟨h, fun _ => Iff.rfl⟩

end Problem
end VieCut
