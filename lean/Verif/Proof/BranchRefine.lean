import Verif.Model.BranchBound
import Verif.Proof.BranchChoice
import Verif.Proof.Convert

/-!
# Problems that refine other problems

`Refines p q`: every labelling of `q` is a labelling of `p` that costs at most as much, and original vertices are found
accordingly.
-/

namespace VieCut
open Finset Function

namespace Problem
open MGraph

variable {ots : List Nat} {p q r : Problem}

/-- Every solution of `q` is a solution of `p` of at most the same cost. -/
def Refines (p q : Problem) : Prop :=
  ∃ ψ : Nat → Nat, (∀ o, p.mapped o < p.graph.posSize → q.mapped o < q.graph.posSize ∧ q.at' o = ψ (p.at' o)) ∧
    ∀ f, p.cost (fun v => f (ψ v)) ≤ q.cost f

theorem Refines.refl (p : Problem) : Refines p p := ⟨id, fun _ h => ⟨h, rfl⟩, fun _ => Nat.le_refl _⟩

theorem Refines.trans (h1 : Refines p q) (h2 : Refines q r) : Refines p r := by
  obtain ⟨ψ, a1, a2⟩ := h1
  obtain ⟨χ, b1, b2⟩ := h2
  refine ⟨fun v => χ (ψ v), fun o ho => ?_, fun f => (a2 _).trans (b2 f)⟩
  obtain ⟨c1, c2⟩ := a1 o ho
  obtain ⟨d1, d2⟩ := b1 o c1
  exact ⟨d1, by rw [d2, c2]⟩

theorem Refines.of_eq (hg : q.graph.toGraph = p.graph.toGraph) (hn : q.graph.n = p.graph.n) (hp : q.graph.pos = p.graph.pos)
    (hs : q.graph.posSize = p.graph.posSize) (hm : q.mapped = p.mapped) (hd : q.deleted = p.deleted) : Refines p q := by
  refine ⟨id, fun o ho => ⟨by rw [hm, hs]; exact ho, ?_⟩, fun f => ?_⟩
  · show q.graph.pos (q.mapped o) = p.graph.pos (p.mapped o)
    rw [hp, hm]
  · unfold cost
    rw [hd, hg, hn]
    exact Nat.le_refl _

/-- Only terminals, bounds and the priority edge differ. -/
theorem Refines.same (hg : q.graph = p.graph) (hm : q.mapped = p.mapped) (hd : q.deleted = p.deleted) : Refines p q :=
  Refines.of_eq (by rw [hg]) (by rw [hg]) (by rw [hg]) (by rw [hg]) hm hd

theorem refines_deleteEdge (h : Ok ots p) {s e : Nat} (hsn : s < p.graph.n) (he : e < p.graph.len s)
    (hg : q.graph = p.graph.deleteEdge s e) (hm : q.mapped = p.mapped)
    (hd : q.deleted = p.deleted + (p.graph.edge s e).weight) : Refines p q := by
  obtain ⟨_, _, _, h4⟩ := deleteEdge_any h hsn he hg hm hd
  obtain ⟨_, h2, _⟩ := deleteEdge_spec h.valid hsn he
  unfold pframe at h2
  simp only [Prod.mk.injEq] at h2
  obtain ⟨k1, k2, k3, k4, k5⟩ := h2
  refine ⟨id, fun o ho => ⟨by rw [hm, hg, k3]; exact ho, ?_⟩, fun f => ?_⟩
  · show q.graph.pos (q.mapped o) = p.graph.pos (p.mapped o)
    rw [hm, hg, k2]
  · rw [h4]
    exact Nat.le_add_right _ _

theorem refines_of_contraction (h : Ok ots p) {ψ : Nat → Nat} (hc : IsContraction p.graph.toGraph q.graph.toGraph ψ)
    (hp : ∀ v, v < p.graph.posSize → q.graph.pos v = ψ (p.graph.pos v)) (hs : q.graph.posSize = p.graph.posSize)
    (hm : q.mapped = p.mapped) (hd : q.deleted = p.deleted) : Refines p q := by
  refine ⟨ψ, fun o ho => ⟨by rw [hm, hs]; exact ho, ?_⟩, fun f => ?_⟩
  · show q.graph.pos (q.mapped o) = ψ (p.graph.pos (p.mapped o))
    rw [hm, hp _ ho]
  · have := multicut_quotient h.valid.wf hc f
    rw [toGraph_n, toGraph_n] at this
    unfold cost
    rw [hd, this]

theorem refines_contractEdge (h : Ok ots p) {s e : Nat} (hsn : s < p.graph.n) (he : e < p.graph.len s)
    (hg : q.graph = p.graph.contractEdge s e) (hm : q.mapped = p.mapped) (hd : q.deleted = p.deleted) : Refines p q := by
  have hL := h.located
  obtain ⟨⟨ψ, hc⟩, _, _⟩ := contractEdge_spec h.valid (simple_of_noParallel h.simple) hsn he
  rw [← hg] at hc
  exact refines_of_contraction h hc.con (fun v hv => (hc.pos hL.inv).2 v hv (hL.live v hv)) hc.posSize hm hd

theorem refines_contractVertexsets (h : Ok ots p) {rev : List (List Nat)} {ord : Nat → List Nat → List Nat} (ho : IsOrder ord)
    (h1 : ∀ c ∈ rev, (∀ q ∈ c, q < p.graph.n) ∧ c.Nodup) (h2 : rev.Pairwise (fun c' c => ∀ q ∈ c', q ∉ c))
    (hg : q.graph = p.graph.contractVertexsets rev ord) (hm : q.mapped = p.mapped) (hd : q.deleted = p.deleted) :
    Refines p q := by
  have hL := h.located
  have h0 : CVInv p.graph p.graph [] id := by
    refine ⟨h.valid, hL, rfl, isContraction_refl h.valid.wf, fun _ _ => rfl, ?_, fun h => h⟩
    intro p q _ _; simp
  obtain ⟨ψ, hI⟩ := CVInv.loop hL h.hasRep ho rev p.graph [] id 0 h0 h1 (by simp) h2
  change CVInv p.graph (p.graph.contractVertexsets rev ord) _ ψ at hI
  rw [← hg] at hI
  exact refines_of_contraction h hI.con hI.pos hI.psize hm hd

theorem refines_setTerminals : Refines p (p.setTerminals ots) := Refines.same rfl rfl rfl

theorem refines_dteStep {T : List Nat} (hT : ∀ t ∈ T, t ∈ p.spots ots) {term : Nat} (ht : term ∈ T) {s : DTE} {k : Nat}
    (h : DInv ots p s) (hk : k < s.g.len term) : Refines (ofDTE p s) (ofDTE p (dteStep T term s k)) := by
  unfold dteStep
  dsimp only
  split
  · have htn : term < (ofDTE p s).graph.n := h.ok.spot_lt term (by rw [h.spots]; exact hT term ht)
    refine refines_deleteEdge h.ok htn hk rfl rfl ?_
    show p.deleted + (_ + _) = p.deleted + _ + _
    rw [Nat.add_assoc]; rfl
  · exact Refines.refl _

theorem refines_dteTerm {T : List Nat} (hT : ∀ t ∈ T, t ∈ p.spots ots) {term : Nat} (ht : term ∈ T) {s : DTE}
    (h : DInv ots p s) : Refines (ofDTE p s) (ofDTE p (dteTerm T s term)) := by
  have key : ∀ k (s : DTE), DInv ots p s → k ≤ s.g.len term → Clean T s.g term k →
      Refines (ofDTE p s) (ofDTE p ((List.range k).reverse.foldl (dteStep T term) s)) := by
    intro k
    induction k with
    | zero => intro s h _ hc; exact Refines.refl _
    | succ k ih =>
      intro s h hk hc
      rw [List.range_succ, List.reverse_append, List.reverse_singleton, List.singleton_append, List.foldl_cons]
      obtain ⟨a1, a2, a3, _⟩ := dteStep_inv hT ht h hk hc
      exact (refines_dteStep hT ht h hk).trans (ih _ a1 a2 a3)
  exact key _ s h (Nat.le_refl _) (fun e h1 h2 => absurd h2 (by omega))

theorem refines_dteLoop {T : List Nat} (hT : ∀ t ∈ T, t ∈ p.spots ots) : ∀ (l : List Nat) (s : DTE),
    (∀ t ∈ l, t ∈ T) → DInv ots p s → Refines (ofDTE p s) (ofDTE p (l.foldl (dteTerm T) s)) := by
  intro l
  induction l with
  | nil => intro s _ h; exact Refines.refl _
  | cons t l ih =>
    intro s hl h
    rw [List.foldl_cons]
    exact (refines_dteTerm hT (hl t (by simp)) h).trans
      (ih _ (fun t' ht' => hl t' (by simp [ht'])) (dteTerm_inv hT (hl t (by simp)) h).1)

theorem refines_deleteTermEdges (h : Ok ots p) : Refines p (p.deleteTermEdges ots) := by
  set T := (p.setTerminals ots).tpos with hTd
  have hT : ∀ t ∈ T, t ∈ p.spots ots := fun t ht => (mem_tpos_setTerminals.1 ht).1
  have h0 : DInv ots p ⟨p.graph, 0, (p.setTerminals ots).terminals⟩ :=
    ⟨h.congr rfl rfl, rfl, fun c => (Optimum.congr rfl rfl rfl c).symm, rfl⟩
  have h1 := refines_dteLoop hT T _ (fun t ht => ht) h0
  exact ((Refines.same rfl rfl rfl : Refines p (ofDTE p ⟨p.graph, 0, (p.setTerminals ots).terminals⟩)).trans h1).trans
    (Refines.same rfl rfl rfl)

theorem refines_contractIfImproved (h : Ok ots p) {ord : Nat → List Nat → List Nat} (ho : IsOrder ord) {uf : UF}
    (hu : uf.Inv) (hs : uf.size = p.graph.n)
    (hsafe : MergeSafe p.graph.n p.graph.toGraph.wt (p.spots ots) uf.root) :
    Refines p (p.contractIfImproved ots ord uf) := by
  unfold contractIfImproved
  by_cases hc : uf.cnt < p.graph.n
  · rw [if_pos hc]
    have hcl := fuLoop_classes hu
    rw [hs] at hcl
    obtain ⟨h1, h2, _⟩ := contract_ok (ots := ots) h ho hcl.1 hcl.2.1 (cls := uf.root) (by
      intro c hc u hu' v hv'
      exact (hcl.2.2 u v ((hcl.1 c hc).1 u hu') ((hcl.1 c hc).1 v hv')).1 (Or.inr ⟨c, hc, hu', hv'⟩)) hsafe
      (p' := { p with graph := p.graph.contractVertexsets (fuLoop p.graph.n uf).rev ord, prio := none }) rfl rfl rfl
    have h3 := refines_contractVertexsets h ho hcl.1 hcl.2.1
      (q := { p with graph := p.graph.contractVertexsets (fuLoop p.graph.n uf).rev ord, prio := none }) rfl rfl rfl
    exact (h3.trans refines_setTerminals).trans (refines_deleteTermEdges (setTerminals_ok h1))
  · rw [if_neg hc]; exact Refines.refl _

/-! ### The children of `multiBranch` -/

theorem refines_mbChild (h : Ok ots p) {vtx : Nat} (hv : vtx < p.graph.n) (hvs : vtx ∉ p.spots ots) (ctr : Option Nat) :
    Refines p (p.mbChild ots vtx ctr) := by
  obtain ⟨h1, _⟩ := mbDelete_inv (ots := ots) (T := p.tpos) (ctr := ctr) hv (p.graph.len vtx) 0 (p.graph, 0)
    (MBInv.init h _ vtx) (by simp) (by simp)
  have key : ∀ (fuel e : Nat) (s : MGraph × Nat), MBInv ots p (fun t => t ∈ p.tpos ∧ some t ≠ ctr) vtx s →
      Refines (p.withGraph s) (p.withGraph (mbDelete p.tpos ctr vtx fuel e s)) := by
    intro fuel
    induction fuel with
    | zero => intro e s _; exact Refines.refl _
    | succ fuel ih =>
      intro e s hi
      unfold mbDelete
      by_cases he : e < s.1.len vtx
      · rw [if_pos he]
        dsimp only
        by_cases hD : (s.1.edge vtx e).target ∈ p.tpos ∧ some (s.1.edge vtx e).target ≠ ctr
        · rw [if_pos hD]
          have hvn : vtx < (p.withGraph s).graph.n := by show vtx < s.1.n; rw [hi.n]; exact hv
          refine Refines.trans ?_ (ih e _ (hi.step hv he hD).1)
          refine refines_deleteEdge hi.ok hvn he rfl rfl ?_
          show p.deleted + (_ + _) = p.deleted + _ + _
          rw [Nat.add_assoc]; rfl
        · rw [if_neg hD]; exact ih (e + 1) s hi
      · rw [if_neg he]; exact Refines.refl _
  have k0 : Refines p (p.withGraph (p.graph, 0)) := Refines.same rfl rfl rfl
  have k1 := k0.trans (key (p.graph.len vtx) 0 (p.graph, 0) (MBInv.init h _ vtx))
  set s := mbDelete p.tpos ctr vtx (p.graph.len vtx) 0 (p.graph, 0) with hs
  let q : Problem := { p with
    graph := mbContract ctr vtx s.1
    terminals := p.terminals.map fun t => { t with invalid := true }
    deleted := p.deleted + s.2
    prio := none }
  have hq : p.mbChild ots vtx ctr = q.deleteTermEdges ots := rfl
  have hvn : vtx < (p.withGraph s).graph.n := by show vtx < s.1.n; rw [h1.n]; exact hv
  have hqg : q.graph = mbContract ctr vtx s.1 := rfl
  have hqm : q.mapped = (p.withGraph s).mapped := rfl
  have hqd : q.deleted = (p.withGraph s).deleted := rfl
  clear_value q
  clear hs
  have k2 : Ok ots q ∧ Refines (p.withGraph s) q := by
    cases ctr with
    | none => exact ⟨h1.ok.congr hqg hqm, Refines.same hqg hqm hqd⟩
    | some t =>
      unfold mbContract at hqg
      cases hf : firstTo s.1 vtx t with
      | none =>
        simp only [hf] at hqg
        exact ⟨h1.ok.congr hqg hqm, Refines.same hqg hqm hqd⟩
      | some e' =>
        simp only [hf] at hqg
        obtain ⟨hl, _⟩ := firstTo_some hf
        exact ⟨(contractEdge_any h1.ok hvn hl (by
          rintro ⟨ha, _⟩
          rw [h1.spots] at ha
          exact hvs ha) hqg hqm hqd).1, refines_contractEdge h1.ok hvn hl hqg hqm hqd⟩
  rw [hq]
  exact (k1.trans k2.2).trans (refines_deleteTermEdges k2.1)

/-! ### Flows -/

theorem refines_maximumSTFlow (flow : Int) (block : List Nat) : Refines p (p.maximumSTFlow ots flow block) := by
  unfold maximumSTFlow
  split
  · exact Refines.of_eq rfl rfl rfl rfl rfl rfl
  · exact Refines.refl _

theorem isoSpec_mem (bs : List (List Nat)) (A : List Nat) : ∀ c ∈ isoSpec bs A, ∀ x ∈ c, x ∉ A ∧ ∃ b ∈ bs, x ∈ b := by
  induction bs generalizing A with
  | nil => simp [isoSpec]
  | cons b bs ih =>
    unfold isoSpec
    intro c hc x hx
    split at hc
    · rcases List.mem_cons.1 hc with rfl | hc
      · have := List.mem_filter.1 hx
        exact ⟨by simpa using this.2, b, by simp, this.1⟩
      · obtain ⟨h1, b', hb', h2⟩ := ih _ c hc x hx
        exact ⟨fun h => h1 (by simp [h]), b', by simp [hb'], h2⟩
    · rcases List.mem_cons.1 hc with rfl | hc
      · simp at hx
      · obtain ⟨h1, b', hb', h2⟩ := ih _ c hc x hx
        exact ⟨h1, b', by simp [hb'], h2⟩

theorem isoSpec_pairwise (bs : List (List Nat)) (A : List Nat) :
    (isoSpec bs A).Pairwise (fun c' c => ∀ x ∈ c', x ∉ c) := by
  induction bs generalizing A with
  | nil => simp [isoSpec]
  | cons b bs ih =>
    unfold isoSpec
    split
    · refine List.pairwise_cons.2 ⟨fun c hc x hx hxc => ?_, ih _⟩
      exact (isoSpec_mem bs _ c hc x hxc).1 (by simp only [List.mem_append]; exact Or.inr hx)
    · exact List.pairwise_cons.2 ⟨fun c _ x hx => by simp at hx, ih _⟩

theorem refines_maximumIsolatingFlow (h : Ok ots p) {ord : Nat → List Nat → List Nat} (ho : IsOrder ord) (flow : Nat → List Nat)
    (hflow : ∀ (i : Nat) (t : Terminal), (p.setTerminals ots).terminals[i]? = some t →
      (if t.invalid then flow i else [t.position]).Nodup ∧
      (∀ x ∈ (if t.invalid then flow i else [t.position]), x < p.graph.n) ∧
      IsolatingCut p.graph.n p.graph.toGraph.wt (p.spots ots) t.position
        (fun x => decide (x ∈ (if t.invalid then flow i else [t.position])))) :
    Refines p (p.maximumIsolatingFlow ots ord flow) := by
  set p1 := p.setTerminals ots with hp1
  let p1' : Problem := { p1 with terminals := p1.terminals.map fun t => { t with invalid := false } }
  have hok1' : Ok ots p1' := h.congr rfl rfl
  have hb : ∀ b ∈ p1.isoBlocks flow, b.Nodup ∧ ∀ x ∈ b, x < p.graph.n := by
    intro b hb
    obtain ⟨⟨t, i⟩, hti, rfl⟩ := List.mem_map.1 hb
    have := hflow i t (List.mk_mem_zipIdx_iff_getElem?.1 hti)
    exact ⟨this.1, this.2.1⟩
  have e := isoBases_eq (p1.isoBlocks flow) (fun b hb' => (hb b hb').1)
  have k : Refines p1' (p1'.contractIsolatingBlocks ord (p1.isoBlocks flow)) := by
    refine refines_contractVertexsets hok1' ho (rev := (isoBases (p1.isoBlocks flow)).1) ?_ ?_ rfl rfl rfl
    · rw [e]
      intro c hc
      refine ⟨fun x hx => ?_, isoSpec_nodup _ _ (fun b hb' => (hb b hb').1) c hc⟩
      obtain ⟨_, b, hb', hxb⟩ := isoSpec_mem _ _ c hc x hx
      exact (hb b hb').2 x hxb
    · rw [e]; exact isoSpec_pairwise _ _
  exact ((Refines.same rfl rfl rfl : Refines p p1').trans k).trans (Refines.of_eq rfl rfl rfl rfl rfl rfl)

end Problem
end VieCut
