import Verif.Model.Branching
import Verif.Proof.MulticutBounds
import Verif.Proof.MulticutCheck

namespace VieCut
open Finset Function

namespace Problem
open MGraph

variable {ots : List Nat} {p : Problem}

/-- The value of a solution in a problem. -/
def cost (p : Problem) (f : Nat → Nat) : Nat := p.deleted + multicutValue p.graph.n p.graph.toGraph.wt f

theorem optimum_iff {c : Nat} : Optimum ots p c ↔
    (∃ f, Separates (p.spots ots) f ∧ c = p.cost f) ∧ ∀ f, Separates (p.spots ots) f → c ≤ p.cost f := by
  unfold Optimum IsMinMulticut cost
  constructor
  · rintro ⟨d, ⟨⟨f, hf, rfl⟩, h2⟩, rfl⟩
    exact ⟨⟨f, hf, rfl⟩, fun g hg => Nat.add_le_add_left (h2 g hg) _⟩
  · rintro ⟨⟨f, hf, rfl⟩, h2⟩
    refine ⟨_, ⟨⟨f, hf, rfl⟩, fun g hg => ?_⟩, rfl⟩
    have := h2 g hg
    omega

theorem optimum_unique {c d : Nat} (h1 : Optimum ots p c) (h2 : Optimum ots p d) : c = d := by
  obtain ⟨a, ha, rfl⟩ := h1
  obtain ⟨b, hb, rfl⟩ := h2
  rw [isMinMulticut_unique ha hb]

/-- Deleting any edge and paying for it. -/
theorem deleteEdge_any (h : Ok ots p) {s e : Nat} (hsn : s < p.graph.n) (he : e < p.graph.len s) {p' : Problem}
    (hg : p'.graph = p.graph.deleteEdge s e)
    (hm : p'.mapped = p.mapped) (hd : p'.deleted = p.deleted + (p.graph.edge s e).weight) :
    Ok ots p' ∧ p'.spots ots = p.spots ots ∧ p'.graph.n = p.graph.n ∧
    ∀ f, p'.cost f = p.cost f + if f s = f (p.graph.edge s e).target then (p.graph.edge s e).weight else 0 := by
  have htn : (p.graph.edge s e).target < p.graph.n := h.consistent.target s e hsn he
  obtain ⟨h1, h2, h3⟩ := deleteEdge_spec h.valid hsn he
  unfold pframe at h2
  simp only [Prod.mk.injEq] at h2
  obtain ⟨k1, k2, k3, k4, k5⟩ := h2
  rw [← hg] at k1 k2 k3 k4 k5 h1
  have hsp : p'.spots ots = p.spots ots := by
    unfold spots at'
    rw [hm, k2]
  have hne : s ≠ (p.graph.edge s e).target := (h.consistent.noLoop s e hsn he).symm
  have hL := h.located
  have hval : ∀ f, multicutValue p.graph.n p.graph.toGraph.wt f =
      multicutValue p.graph.n p'.graph.toGraph.wt f +
        if f s ≠ f (p.graph.edge s e).target then (p.graph.edge s e).weight else 0 := by
    intro f
    have e1 := multicut_edge (n := p.graph.n) (k := (p.graph.edge s e).weight) hsn htn hne f
    rw [← e1, ← multicut_add]
    refine multicut_wcongr (fun a b ha _ => ?_) f
    have h4 := h3 (fun x w => if x = b then w else 0) a
    rw [← hg] at h4
    rw [toGraph_wt p'.graph (by rw [k1]; exact ha), toGraph_wt p.graph ha]
    unfold W
    by_cases c1 : a = s
    · subst c1
      simpa [hne, eq_comm] using h4.symm
    · by_cases c2 : a = (p.graph.edge s e).target
      · rw [c2] at h4 ⊢
        simpa [hne.symm, eq_comm] using h4.symm
      · simpa [c1, c2] using h4.symm
  refine ⟨Ok.of h1 (by rw [hg]; exact simple_deleteEdge h.valid hsn he (simple_of_noParallel h.simple)) ?_ ?_ ?_ ?_, hsp,
    k1, ?_⟩
  · refine ⟨⟨?_, ?_, ?_⟩, ?_⟩
    · rw [k1, k2, k3, k4]; exact hL.inv.back
    · rw [k1, k2, k3, k4]; exact hL.inv.mem
    · rw [k1, k4]; exact hL.inv.nodup
    · rw [k1, k2, k3]; exact hL.live
  · unfold HasRep; rw [k1, k4]; exact h.hasRep
  · rw [hm, k3]; exact h.mapped
  · rw [hsp]; exact h.apart
  · intro f
    have := hval f
    unfold cost
    rw [hd, k1]
    by_cases c : f s = f (p.graph.edge s e).target
    · simp [c] at this ⊢; omega
    · simp [c] at this ⊢; omega

/-- Contracting an edge that does not join two terminals. -/
theorem contractEdge_any (h : Ok ots p) {s e : Nat} (hsn : s < p.graph.n) (he : e < p.graph.len s)
    (hst : ¬ (s ∈ p.spots ots ∧ (p.graph.edge s e).target ∈ p.spots ots)) {p' : Problem}
    (hg : p'.graph = p.graph.contractEdge s e) (hm : p'.mapped = p.mapped) (hd : p'.deleted = p.deleted) :
    Ok ots p' ∧ p'.graph.n = p.graph.n - 1 ∧
    ∀ c, Optimum ots p' c ↔ OptimumWith ots p (fun f => f s = f (p.graph.edge s e).target) c := by
  have hL := h.located
  have htn : (p.graph.edge s e).target < p.graph.n := h.consistent.target s e hsn he
  obtain ⟨⟨ψ, hc⟩, hsim, hn⟩ := contractEdge_spec h.valid (simple_of_noParallel h.simple) hsn he
  rw [← hg] at hc hsim hn
  have hpos : ∀ v, v < p.graph.posSize → p'.graph.pos v = ψ (p.graph.pos v) :=
    fun v hv => (hc.pos hL.inv).2 v hv (hL.live v hv)
  have hat : ∀ o ∈ ots, p'.at' o = ψ (p.at' o) := by
    intro o ho
    show p'.graph.pos (p'.mapped o) = ψ (p.graph.pos (p.mapped o))
    rw [hm, hpos _ (h.mapped o ho)]
  have hspots : p'.spots ots = (p.spots ots).map ψ := by
    unfold spots
    rw [List.map_map]
    exact List.map_congr_left fun o ho => hat o ho
  have hinj : ∀ a ∈ p.spots ots, ∀ b ∈ p.spots ots, ψ a = ψ b → a = b := by
    intro a ha b hb he'
    rcases (hc.ker a b (h.spot_lt a ha) (h.spot_lt b hb)).1 he' with h' | ⟨h1, h2⟩
    · exact h'
    · simp only [List.mem_cons, List.not_mem_nil, or_false] at h1 h2
      rcases h1 with rfl | rfl <;> rcases h2 with rfl | rfl
      · rfl
      · exact absurd ⟨ha, hb⟩ hst
      · exact absurd ⟨hb, ha⟩ hst
      · rfl
  have hmc : ∀ g, multicutValue p'.graph.n p'.graph.toGraph.wt g =
      multicutValue p.graph.n p.graph.toGraph.wt (fun u => g (ψ u)) := by
    intro g
    have := multicut_quotient h.valid.wf hc.con g
    rwa [toGraph_n, toGraph_n] at this
  have hψ : ψ s = ψ (p.graph.edge s e).target := (hc.ker _ _ hsn htn).2 (Or.inr (by simp))
  have hLoc := hL.contracted hc
  refine ⟨Ok.of hc.valid hsim hLoc (hasRep_of_surj hL h.hasRep hLoc hc.posSize hc.con hpos) ?_ ?_, hn, ?_⟩
  · intro o ho; rw [hm, hc.posSize]; exact h.mapped o ho
  · rw [hspots]
    exact (List.nodup_map_iff_inj_on h.apart).2 hinj
  · have hup : ∀ g, Separates (p'.spots ots) g → Separates (p.spots ots) (fun u => g (ψ u)) := by
      intro g hg' a ha b hb hne
      rw [hspots] at hg'
      exact hg' _ (List.mem_map_of_mem ha) _ (List.mem_map_of_mem hb) (fun e' => hne (hinj a ha b hb e'))
    have hdown : ∀ f, Separates (p.spots ots) f → f s = f (p.graph.edge s e).target →
        ∃ g, Separates (p'.spots ots) g ∧ p'.cost g = p.cost f := by
      intro f hf hfe
      classical
      have hfac : ∀ u v, u < p.graph.n → v < p.graph.n → ψ u = ψ v → f u = f v := by
        intro u v hu hv huv
        rcases (hc.ker u v hu hv).1 huv with rfl | ⟨h1, h2⟩
        · rfl
        · simp only [List.mem_cons, List.not_mem_nil, or_false] at h1 h2
          rcases h1 with rfl | rfl <;> rcases h2 with rfl | rfl
          · rfl
          · exact hfe
          · exact hfe.symm
          · rfl
      let g : Nat → Nat := fun q => if hq : ∃ u, u < p.graph.n ∧ ψ u = q then f hq.choose else 0
      have hgf : ∀ u, u < p.graph.n → g (ψ u) = f u := by
        intro u hu
        have hex : ∃ u', u' < p.graph.n ∧ ψ u' = ψ u := ⟨u, hu, rfl⟩
        show (if hq : ∃ u', u' < p.graph.n ∧ ψ u' = ψ u then f hq.choose else 0) = f u
        rw [dif_pos hex]
        exact hfac _ _ hex.choose_spec.1 hu hex.choose_spec.2
      refine ⟨g, ?_, ?_⟩
      · rw [hspots]
        intro a ha b hb hne
        obtain ⟨a', ha', rfl⟩ := List.mem_map.1 ha
        obtain ⟨b', hb', rfl⟩ := List.mem_map.1 hb
        rw [hgf _ (h.spot_lt _ ha'), hgf _ (h.spot_lt _ hb')]
        exact hf _ ha' _ hb' (fun e' => hne (by rw [e']))
      · unfold cost
        rw [hd, hmc]
        congr 1
        exact multicut_congr fun u v hu hv => by rw [hgf u hu, hgf v hv]
    intro c
    rw [optimum_iff]
    constructor
    · rintro ⟨⟨g, h1, rfl⟩, h2⟩
      refine ⟨⟨_, hup g h1, by dsimp only; rw [hψ], by unfold cost; rw [hd, hmc]⟩, ?_⟩
      intro f hf hfe
      obtain ⟨g', k1, k2⟩ := hdown f hf hfe
      have := h2 g' k1
      rw [k2] at this
      exact this
    · rintro ⟨⟨f, h1, h2, rfl⟩, h3⟩
      obtain ⟨g, k1, k2⟩ := hdown f h1 h2
      refine ⟨⟨g, k1, k2.symm⟩, fun g' hg' => ?_⟩
      have := h3 _ (hup g' hg') (by dsimp only; rw [hψ])
      unfold cost
      rw [hd, hmc]
      exact this

/-! ### The deletion loop of `multiBranch` -/

/-- The subproblem described by the locals. -/
def withGraph (p : Problem) (s : MGraph × Nat) : Problem := { p with graph := s.1, deleted := p.deleted + s.2 }

/-- What the deletion loop guarantees: nothing gets cheaper, solutions that cut all the deleted edges keep their
value, and rows without deletable edges are only shortened. -/
structure MBInv (ots : List Nat) (p : Problem) (D : Nat → Prop) (vtx : Nat) (s : MGraph × Nat) : Prop where
  ok : Ok ots (p.withGraph s)
  spots : (p.withGraph s).spots ots = p.spots ots
  n : s.1.n = p.graph.n
  ge : ∀ f, p.cost f ≤ (p.withGraph s).cost f
  eq : ∀ f, (∀ t, D t → f vtx ≠ f t) → (p.withGraph s).cost f = p.cost f
  rows : ∀ f a, rowSum s.1 f a ≤ rowSum p.graph f a
  keep : ∀ t, ¬ D t → rowSum s.1 (fun x _ => if x = t then 1 else 0) vtx =
    rowSum p.graph (fun x _ => if x = t then 1 else 0) vtx

theorem MBInv.init (h : Ok ots p) (D : Nat → Prop) (vtx : Nat) : MBInv ots p D vtx (p.graph, 0) :=
  ⟨h.congr rfl rfl, rfl, rfl, fun _ => Nat.le_refl _, fun _ _ => rfl, fun _ _ => Nat.le_refl _, fun _ _ => rfl⟩

theorem MBInv.step {D : Nat → Prop} {vtx : Nat} {s : MGraph × Nat} (h : MBInv ots p D vtx s) (hv : vtx < p.graph.n)
    {e : Nat} (he : e < s.1.len vtx) (hD : D (s.1.edge vtx e).target) :
    MBInv ots p D vtx (s.1.deleteEdge vtx e, s.2 + (s.1.edge vtx e).weight) ∧
    (s.1.deleteEdge vtx e).len vtx = s.1.len vtx - 1 ∧
    ∀ b, b < e → ((s.1.deleteEdge vtx e).edge vtx b).target = (s.1.edge vtx b).target := by
  have hvn : vtx < s.1.n := by rw [h.n]; exact hv
  obtain ⟨a1, a2, a3, a4⟩ := deleteEdge_any h.ok (show vtx < (p.withGraph s).graph.n from hvn) he
    (p' := p.withGraph (s.1.deleteEdge vtx e, s.2 + (s.1.edge vtx e).weight)) rfl rfl
    (by show p.deleted + _ = p.deleted + _ + _; rw [Nat.add_assoc]; rfl)
  have hne : vtx ≠ (s.1.edge vtx e).target := (h.ok.consistent.noLoop vtx e hvn he).symm
  obtain ⟨b1, b2⟩ := deleteEdge_rows h.ok.valid hvn he
  refine ⟨⟨a1, a2.trans h.spots, a3.trans h.n, fun f => (h.ge f).trans (by rw [a4]; exact Nat.le_add_right _ _), ?_, ?_, ?_⟩, ?_, ?_⟩
  · intro f hf
    rw [a4]
    have : f vtx ≠ f ((p.withGraph s).graph.edge vtx e).target := hf _ hD
    rw [if_neg this, Nat.add_zero]
    exact h.eq f hf
  · intro f a
    have h3 := (deleteEdge_spec h.ok.valid hvn he).2.2 f a
    have e : (p.withGraph s).graph = s.1 := rfl
    rw [e] at h3
    have := h.rows f a
    dsimp only
    omega
  · intro t ht
    have h3 := (deleteEdge_spec h.ok.valid hvn he).2.2 (fun x _ => if x = t then 1 else 0) vtx
    have hne' : (s.1.edge vtx e).target ≠ t := fun e' => ht (e' ▸ hD)
    rw [← h.keep t ht]
    have c1 : (if vtx = vtx then (if ((p.withGraph s).graph.edge vtx e).target = t then 1 else 0) else 0) = 0 := by
      rw [if_pos rfl]; exact if_neg hne'
    have c2 : (if vtx = ((p.withGraph s).graph.edge vtx e).target then (if vtx = t then 1 else 0) else 0) = 0 := if_neg hne
    rw [c1, c2] at h3
    exact h3
  · show ((p.withGraph s).graph.deleteEdge vtx e).len vtx = _
    have hne2 : vtx ≠ ((p.withGraph s).graph.edge vtx e).target := hne
    rw [b1, update_of_ne hne2, update_self]; rfl
  · intro b hb
    have := b2 vtx b hne
    rw [if_neg (by omega)] at this
    exact this

theorem mbDelete_inv {T : List Nat} {ctr : Option Nat} {vtx : Nat} (hv : vtx < p.graph.n) :
    ∀ (fuel e : Nat) (s : MGraph × Nat), MBInv ots p (fun t => t ∈ T ∧ some t ≠ ctr) vtx s → s.1.len vtx ≤ e + fuel →
    (∀ b, b < e → b < s.1.len vtx → ¬ ((s.1.edge vtx b).target ∈ T ∧ some (s.1.edge vtx b).target ≠ ctr)) →
    MBInv ots p (fun t => t ∈ T ∧ some t ≠ ctr) vtx (mbDelete T ctr vtx fuel e s) ∧
    ∀ b, b < (mbDelete T ctr vtx fuel e s).1.len vtx →
      ¬ (((mbDelete T ctr vtx fuel e s).1.edge vtx b).target ∈ T ∧
        some ((mbDelete T ctr vtx fuel e s).1.edge vtx b).target ≠ ctr) := by
  intro fuel
  induction fuel with
  | zero => intro e s h hl hc; exact ⟨h, fun b hb => hc b (by unfold mbDelete at hb; omega) hb⟩
  | succ fuel ih =>
    intro e s h hl hc
    unfold mbDelete
    by_cases he : e < s.1.len vtx
    · rw [if_pos he]
      dsimp only
      by_cases hD : (s.1.edge vtx e).target ∈ T ∧ some (s.1.edge vtx e).target ≠ ctr
      · rw [if_pos hD]
        obtain ⟨k1, k2, k3⟩ := h.step hv he hD
        refine ih e _ k1 (by dsimp only; omega) ?_
        intro b hb hbl
        dsimp only at hbl ⊢
        rw [k3 b hb]
        exact hc b hb (by omega)
      · rw [if_neg hD]
        refine ih (e + 1) s h (by omega) ?_
        intro b hb hbl
        by_cases hbe : b = e
        · rw [hbe]; exact hD
        · exact hc b (by omega) hbl
    · rw [if_neg he]
      exact ⟨h, fun b hb => hc b (by omega) hb⟩

theorem firstTo_some {g : MGraph} {u v e : Nat} (h : firstTo g u v = some e) : e < g.len u ∧ (g.edge u e).target = v := by
  unfold firstTo at h
  have h1 := List.find?_some h
  have h2 := List.mem_of_find?_eq_some h
  exact ⟨List.mem_range.1 h2, by simpa using h1⟩

theorem firstTo_none {g : MGraph} {u v : Nat} : firstTo g u v = none ↔ ∀ e, e < g.len u → (g.edge u e).target ≠ v := by
  unfold firstTo
  rw [List.find?_eq_none]
  simp

theorem firstTo_isSome_of_count {g : MGraph} {u v : Nat} (h : rowSum g (fun x _ => if x = v then 1 else 0) u ≠ 0) :
    ∃ e, firstTo g u v = some e := by
  rcases hf : firstTo g u v with _ | e
  · refine absurd ?_ h
    unfold rowSum
    refine Finset.sum_eq_zero fun e he => ?_
    exact if_neg (firstTo_none.1 hf e (Finset.mem_range.1 he))
  · exact ⟨e, rfl⟩

theorem count_of_edge {g : MGraph} {u v e : Nat} (he : e < g.len u) (ht : (g.edge u e).target = v) :
    rowSum g (fun x _ => if x = v then 1 else 0) u ≠ 0 := by
  unfold rowSum
  intro h0
  have := (Finset.sum_eq_zero_iff.1 h0) e (Finset.mem_range.2 he)
  dsimp only at this
  rw [if_pos ht] at this
  exact absurd this (by decide)

/-- Rows only lose edges in `deleteTermEdges`. -/
theorem deleteTermEdges_row_le (h : Ok ots p) (f : Nat → Nat → Nat) (v : Nat) :
    rowSum (p.deleteTermEdges ots).graph f v ≤ rowSum p.graph f v := by
  set T := (p.setTerminals ots).tpos with hTd
  have hT : ∀ t ∈ T, t ∈ p.spots ots := fun t ht => (mem_tpos_setTerminals.1 ht).1
  have h0 : DInv ots p ⟨p.graph, 0, (p.setTerminals ots).terminals⟩ :=
    ⟨h.congr rfl rfl, rfl, fun c => (Optimum.congr rfl rfl rfl c).symm, rfl⟩
  have hle : ∀ (l : List Nat) (s0 : DTE), (∀ t ∈ l, t ∈ T) → DInv ots p s0 →
      rowSum (l.foldl (dteTerm T) s0).g f v ≤ rowSum s0.g f v := by
    intro l
    induction l with
    | nil => intro s0 _ _; exact Nat.le_refl _
    | cons t l ih =>
      intro s0 hl hd0
      rw [List.foldl_cons]
      refine (ih _ (fun t' ht' => hl t' (by simp [ht'])) (dteTerm_inv hT (hl t (by simp)) hd0).1).trans ?_
      have inner : ∀ k (s0 : DTE), DInv ots p s0 → k ≤ s0.g.len t → Clean T s0.g t k →
          rowSum ((List.range k).reverse.foldl (dteStep T t) s0).g f v ≤ rowSum s0.g f v := by
        intro k
        induction k with
        | zero => intro s0 _ _ _; exact Nat.le_refl _
        | succ k ihk =>
          intro s0 hd0 hk hc
          rw [List.range_succ, List.reverse_append, List.reverse_singleton, List.singleton_append, List.foldl_cons]
          obtain ⟨a1, a2, a3, _⟩ := dteStep_inv hT (hl t (by simp)) hd0 hk hc
          refine (ihk _ a1 a2 a3).trans ?_
          unfold dteStep
          dsimp only
          split
          · have htn : t < s0.g.n := by
              have := hd0.ok.spot_lt t (by rw [hd0.spots]; exact hT t (hl t (by simp)))
              exact this
            have := (deleteEdge_spec hd0.ok.valid htn (show k < s0.g.len t by omega)).2.2 f v
            show rowSum (s0.g.deleteEdge t k) f v ≤ _
            have e : (ofDTE p s0).graph = s0.g := rfl
            rw [e] at this
            omega
          · exact Nat.le_refl _
      exact inner _ s0 hd0 (Nat.le_refl _) (fun e h1 h2 => absurd h2 (by omega))
  exact hle T _ (fun t ht => ht) h0

/-! ### The children of `multiBranch` -/

variable {vtx : Nat}

/-- The child for a terminal stands for the solutions that put the vertex with that terminal. -/
theorem mbChild_some (h : Ok ots p) (hT : ∀ t ∈ p.tpos, t ∈ p.spots ots) (hv : vtx < p.graph.n)
    (hvs : vtx ∉ p.spots ots) {t : Nat} (ht : t ∈ p.tpos) {e : Nat} (he : e < p.graph.len vtx)
    (het : (p.graph.edge vtx e).target = t) :
    Ok ots (p.mbChild ots vtx (some t)) ∧ (p.mbChild ots vtx (some t)).graph.n = p.graph.n - 1 ∧
    ∀ c, Optimum ots (p.mbChild ots vtx (some t)) c ↔ OptimumWith ots p (fun f => f vtx = f t) c := by
  obtain ⟨h1, _⟩ := mbDelete_inv (ots := ots) (T := p.tpos) (ctr := some t) hv (p.graph.len vtx) 0 (p.graph, 0)
    (MBInv.init h _ vtx) (by simp) (by simp)
  set s := mbDelete p.tpos (some t) vtx (p.graph.len vtx) 0 (p.graph, 0) with hs
  have hcnt : rowSum s.1 (fun x _ => if x = t then 1 else 0) vtx ≠ 0 := by
    rw [h1.keep t (by simp)]
    exact count_of_edge he het
  obtain ⟨e', he'⟩ := firstTo_isSome_of_count hcnt
  obtain ⟨hl, htt⟩ := firstTo_some he'
  have hcon : mbContract (some t) vtx s.1 = s.1.contractEdge vtx e' := by
    unfold mbContract; simp only [he']
  let q : Problem := { p with
    graph := s.1.contractEdge vtx e'
    terminals := p.terminals.map fun t => { t with invalid := true }
    deleted := p.deleted + s.2
    prio := none }
  have hq : p.mbChild ots vtx (some t) = q.deleteTermEdges ots := by
    unfold mbChild
    dsimp only
    rw [← hs, hcon]
  obtain ⟨k1, k2, k3⟩ := contractEdge_any (p' := q) h1.ok (show vtx < (p.withGraph s).graph.n by
      show vtx < s.1.n; rw [h1.n]; exact hv) hl (by
      rintro ⟨ha, _⟩
      rw [h1.spots] at ha
      exact hvs ha) rfl rfl rfl
  have hd := deleteTermEdges_ok k1
  rw [hq]
  refine ⟨hd.1, by rw [hd.2.2.2.1, k2]; show s.1.n - 1 = _; rw [h1.n], fun c => ?_⟩
  rw [← hd.2.1 c, k3 c]
  have hfe : ((p.withGraph s).graph.edge vtx e').target = t := htt
  have hval : ∀ f, Separates (p.spots ots) f → f vtx = f t → (p.withGraph s).cost f = p.cost f := by
    intro f hf hft
    refine h1.eq f fun t' ht' e0 => ?_
    have hne : t ≠ t' := fun e => ht'.2 (by rw [e])
    exact hf t (hT t ht) t' (hT t' ht'.1) hne (hft.symm.trans e0)
  unfold OptimumWith
  rw [h1.spots, hfe]
  constructor
  · rintro ⟨⟨f, f1, f2, rfl⟩, f3⟩
    refine ⟨⟨f, f1, f2, hval f f1 f2⟩, fun g g1 g2 => ?_⟩
    have := f3 g g1 g2
    have e := hval g g1 g2
    unfold cost at e
    omega
  · rintro ⟨⟨f, f1, f2, rfl⟩, f3⟩
    refine ⟨⟨f, f1, f2, (hval f f1 f2).symm⟩, fun g g1 g2 => ?_⟩
    have := f3 g g1 g2
    have e := hval g g1 g2
    unfold cost at e
    omega

/-- The child without a terminal: all edges from the vertex to terminals are paid for. -/
theorem mbChild_none (h : Ok ots p) (hT : ∀ t ∈ p.tpos, t ∈ p.spots ots) (hv : vtx < p.graph.n) :
    Ok ots (p.mbChild ots vtx none) ∧ (p.mbChild ots vtx none).graph.n = p.graph.n ∧
    (p.mbChild ots vtx none).spots ots = p.spots ots ∧
    (∀ t ∈ p.tpos, (p.mbChild ots vtx none).graph.toGraph.wt vtx t = 0) ∧
    (∀ c d, Optimum ots p c → Optimum ots (p.mbChild ots vtx none) d → c ≤ d) ∧
    ∀ f, Separates (p.spots ots) f → (∀ t ∈ p.tpos, p.graph.toGraph.wt vtx t ≠ 0 → f vtx ≠ f t) →
      Optimum ots p (p.cost f) → Optimum ots (p.mbChild ots vtx none) (p.cost f) := by
  obtain ⟨h1, h2⟩ := mbDelete_inv (ots := ots) (T := p.tpos) (ctr := none) hv (p.graph.len vtx) 0 (p.graph, 0)
    (MBInv.init h _ vtx) (by simp) (by simp)
  set s := mbDelete p.tpos none vtx (p.graph.len vtx) 0 (p.graph, 0) with hs
  let q : Problem := { p with
    graph := s.1
    terminals := p.terminals.map fun t => { t with invalid := true }
    deleted := p.deleted + s.2
    prio := none }
  have hq : p.mbChild ots vtx none = q.deleteTermEdges ots := rfl
  have hqok : Ok ots q := h1.ok.congr rfl rfl
  have hqsp : q.spots ots = p.spots ots := h1.spots
  have hqc : ∀ f, q.cost f = (p.withGraph s).cost f := fun f => rfl
  have hd := deleteTermEdges_ok hqok
  rw [hq]
  have hzero : ∀ g : MGraph, g.n = p.graph.n → ∀ t, g.toGraph.wt vtx t = rowSum g (fun x w => if x = t then w else 0) vtx := by
    intro g hg t
    rw [toGraph_wt g (by rw [hg]; exact hv)]
    rfl
  refine ⟨hd.1, hd.2.2.2.1.trans h1.n, hd.2.2.1.trans hqsp, ?_, ?_, ?_⟩
  · intro t ht
    rw [hzero _ (hd.2.2.2.1.trans h1.n)]
    have hle := deleteTermEdges_row_le hqok (fun x w => if x = t then w else 0) vtx
    have h0 : rowSum q.graph (fun x w => if x = t then w else 0) vtx = 0 := by
      unfold rowSum
      refine Finset.sum_eq_zero fun e he => ?_
      dsimp only
      refine if_neg fun e' => ?_
      exact h2 e (Finset.mem_range.1 he) ⟨by rw [show (s.1.edge vtx e).target = t from e']; exact ht, by simp⟩
    omega
  · intro c d hc hd'
    rw [← hd.2.1 d, optimum_iff] at hd'
    rw [optimum_iff] at hc
    obtain ⟨⟨f, f1, rfl⟩, _⟩ := hd'
    rw [hqsp] at f1
    exact (hc.2 f f1).trans (h1.ge f)
  · intro f hf hcut hc
    rw [← hd.2.1]
    rw [optimum_iff] at hc ⊢
    have hval : q.cost f = p.cost f := by
      -- only edges of positive weight matter
      have hge := h1.ge f
      classical
      -- relabel: terminals without an edge to the vertex are moved apart by a fresh label of the vertex set
      rw [hqc]
      have key : ∀ (fuel e : Nat) (s : MGraph × Nat), MBInv ots p (fun t => t ∈ p.tpos ∧ some t ≠ none) vtx s →
          (p.withGraph s).cost f = p.cost f →
          (∀ t ∈ p.tpos, s.1.toGraph.wt vtx t ≤ p.graph.toGraph.wt vtx t) →
          (p.withGraph (mbDelete p.tpos none vtx fuel e s)).cost f = p.cost f := by
        intro fuel
        induction fuel with
        | zero => intro e s _ hc _; exact hc
        | succ fuel ih =>
          intro e s hi hc hw
          unfold mbDelete
          by_cases he : e < s.1.len vtx
          · rw [if_pos he]
            dsimp only
            by_cases hD : (s.1.edge vtx e).target ∈ p.tpos ∧ some (s.1.edge vtx e).target ≠ none
            · rw [if_pos hD]
              obtain ⟨k1, _, _⟩ := hi.step hv he hD
              have hvn : vtx < s.1.n := by rw [hi.n]; exact hv
              obtain ⟨_, _, _, a4⟩ := deleteEdge_any hi.ok (show vtx < (p.withGraph s).graph.n from hvn) he
                (p' := p.withGraph (s.1.deleteEdge vtx e, s.2 + (s.1.edge vtx e).weight)) rfl rfl
                (by show p.deleted + _ = p.deleted + _ + _; rw [Nat.add_assoc]; rfl)
              refine ih e _ k1 ?_ ?_
              · rw [a4, hc]
                by_cases hz : (s.1.edge vtx e).weight = 0
                · have : ((p.withGraph s).graph.edge vtx e).weight = 0 := hz
                  rw [this, ite_self, Nat.add_zero]
                · have hwe : s.1.toGraph.wt vtx (s.1.edge vtx e).target = (s.1.edge vtx e).weight :=
                    wt_edge hi.ok.simple hvn he
                  have hne : f vtx ≠ f ((p.withGraph s).graph.edge vtx e).target :=
                    hcut (s.1.edge vtx e).target hD.1 (by have := hw _ hD.1; omega)
                  rw [if_neg hne, Nat.add_zero]
              · intro t ht
                refine Nat.le_trans ?_ (hw t ht)
                have hn' : (s.1.deleteEdge vtx e).n = p.graph.n := k1.n
                rw [hzero _ hn', hzero _ hi.n]
                have := (deleteEdge_spec hi.ok.valid hvn he).2.2 (fun x w => if x = t then w else 0) vtx
                have e : (p.withGraph s).graph = s.1 := rfl
                rw [e] at this
                omega
            · rw [if_neg hD]
              exact ih (e + 1) s hi hc hw
          · rw [if_neg he]; exact hc
      exact key _ _ _ (MBInv.init h _ vtx) rfl (fun _ _ => Nat.le_refl _)
    refine ⟨⟨f, by rw [hqsp]; exact hf, hval.symm⟩, fun g hg => ?_⟩
    rw [hqsp] at hg
    exact (hc.2 g hg).trans (h1.ge g)

theorem mbChild_none_edges (h : Ok ots p) (hT : ∀ t ∈ p.tpos, t ∈ p.spots ots) (hv : vtx < p.graph.n) {t : Nat}
    (ht : t ∈ p.tpos) {e : Nat} (he : e < p.graph.len vtx) (het : (p.graph.edge vtx e).target = t) :
    (p.mbChild ots vtx none).graph.numEdges < p.graph.numEdges := by
  obtain ⟨h1, h2⟩ := mbDelete_inv (ots := ots) (T := p.tpos) (ctr := none) hv (p.graph.len vtx) 0 (p.graph, 0)
    (MBInv.init h _ vtx) (by simp) (by simp)
  set s := mbDelete p.tpos none vtx (p.graph.len vtx) 0 (p.graph, 0) with hs
  let q : Problem := { p with
    graph := s.1
    terminals := p.terminals.map fun t => { t with invalid := true }
    deleted := p.deleted + s.2
    prio := none }
  have hq : p.mbChild ots vtx none = q.deleteTermEdges ots := rfl
  have hqok : Ok ots q := h1.ok.congr rfl rfl
  have hd := deleteTermEdges_ok hqok
  rw [hq, hd.1.consistent.edges, h.consistent.edges, hd.2.2.2.1, show q.graph.n = p.graph.n from h1.n]
  have hlen : ∀ a, (q.deleteTermEdges ots).graph.len a ≤ s.1.len a := by
    intro a
    have := deleteTermEdges_row_le hqok (fun _ _ => 1) a
    unfold rowSum at this
    simpa using this
  have hlen2 : ∀ a, s.1.len a ≤ p.graph.len a := by
    intro a
    have := h1.rows (fun _ _ => 1) a
    unfold rowSum at this
    simpa using this
  have hstrict : s.1.len vtx < p.graph.len vtx := by
    have k1 := h1.rows (fun x _ => if x = t then 0 else 1) vtx
    have k2 : rowSum s.1 (fun x _ => if x = t then 1 else 0) vtx = 0 := by
      unfold rowSum
      refine Finset.sum_eq_zero fun b hb => if_neg fun e' => ?_
      exact h2 b (Finset.mem_range.1 hb) ⟨by rw [e']; exact ht, by simp⟩
    have k3 := count_of_edge he het
    have k4 : ∀ g : MGraph, g.len vtx = rowSum g (fun x _ => if x = t then 1 else 0) vtx +
        rowSum g (fun x _ => if x = t then 0 else 1) vtx := by
      intro g
      unfold rowSum
      rw [← Finset.sum_add_distrib]
      have : ∀ b ∈ Finset.range (g.len vtx), ((if (g.edge vtx b).target = t then 1 else 0) +
          if (g.edge vtx b).target = t then 0 else 1) = 1 := by
        intro b _; split <;> rfl
      rw [Finset.sum_congr rfl this]; simp
    rw [k4 s.1, k4 p.graph]
    omega
  refine Finset.sum_lt_sum (fun a _ => (hlen a).trans (hlen2 a)) ⟨vtx, Finset.mem_range.2 hv, ?_⟩
  exact Nat.lt_of_le_of_lt (hlen vtx) hstrict

/-! ### Branching on an edge -/

theorem cost_ge_edge (h : Ok ots p) {s e : Nat} (hsn : s < p.graph.n) (he : e < p.graph.len s) {f : Nat → Nat}
    (hf : f s ≠ f (p.graph.edge s e).target) : p.deleted + (p.graph.edge s e).weight ≤ p.cost f := by
  obtain ⟨_, _, _, h4⟩ := deleteEdge_any h hsn he
    (p' := { p with graph := p.graph.deleteEdge s e, deleted := p.deleted + (p.graph.edge s e).weight }) rfl rfl rfl
  have := h4 f
  rw [if_neg hf, Nat.add_zero] at this
  rw [← this]
  unfold cost
  exact Nat.le_add_right _ _

theorem singleBranch_ok (h : Ok ots p) {gub s e : Nat} (hsn : s < p.graph.n) (he : e < p.graph.len s)
    (hst : ¬ (s ∈ p.spots ots ∧ (p.graph.edge s e).target ∈ p.spots ots)) (hd3 : d3Applies p.graph s e = false) :
    (∀ q ∈ p.singleBranch ots gub s e, Ok ots q ∧ ∀ c d, Optimum ots p c → Optimum ots q d → c ≤ d) ∧
    ∀ c, Optimum ots p c → c < gub → ∃ q ∈ p.singleBranch ots gub s e, Optimum ots q c := by
  obtain ⟨a1, a2, a3, a4⟩ := deleteEdge_any h hsn he (p' := p.sbDelete s e) rfl rfl rfl
  let r : Problem := { p with
    graph := p.graph.contractEdge s e
    terminals := p.terminals.map fun t => { t with invalid := true }
    prio := none }
  have hr : p.sbContract ots s e = r.deleteTermEdges ots := by
    unfold sbContract
    rw [hd3]; rfl
  obtain ⟨b1, b2, b3⟩ := contractEdge_any h hsn he hst (p' := r) rfl rfl rfl
  have hd := deleteTermEdges_ok b1
  refine ⟨fun q hq => ?_, fun c hc hlt => ?_⟩
  · unfold singleBranch at hq
    rw [List.mem_append, List.mem_singleton] at hq
    rcases hq with hq | rfl
    · split at hq
      · rw [List.mem_singleton] at hq
        subst hq
        refine ⟨a1, fun c d hc hd => ?_⟩
        rw [optimum_iff] at hc hd
        obtain ⟨⟨f, f1, rfl⟩, _⟩ := hd
        rw [a2] at f1
        rw [a4]
        exact (hc.2 f f1).trans (Nat.le_add_right _ _)
      · simp at hq
    · rw [hr]
      refine ⟨hd.1, fun c d hc hd' => ?_⟩
      rw [← hd.2.1, b3] at hd'
      obtain ⟨⟨f, f1, _, rfl⟩, _⟩ := hd'
      exact (optimum_iff.1 hc).2 f f1
  · have hc' := hc
    rw [optimum_iff] at hc
    obtain ⟨⟨f, f1, rfl⟩, f2⟩ := hc
    unfold singleBranch
    by_cases hf : f s = f (p.graph.edge s e).target
    · refine ⟨p.sbContract ots s e, by simp, ?_⟩
      rw [hr, ← hd.2.1, b3]
      exact ⟨⟨f, f1, hf, rfl⟩, fun g g1 _ => f2 g g1⟩
    · have := cost_ge_edge h hsn he hf
      refine ⟨p.sbDelete s e, by rw [if_pos (by omega)]; simp, ?_⟩
      rw [optimum_iff, a2]
      refine ⟨⟨f, f1, by rw [a4, if_neg hf, Nat.add_zero]⟩, fun g g1 => ?_⟩
      rw [a4]
      exact (f2 g g1).trans (Nat.le_add_right _ _)

end Problem
end VieCut
