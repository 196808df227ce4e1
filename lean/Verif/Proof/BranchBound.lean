import Verif.Proof.Simplify
import Verif.Props.PushRelabel
import Verif.Props.Articulation
import Verif.Props.Branching
import Verif.Props.Tools

/-!
# The invariant of the branch and bound
-/

namespace VieCut
open Finset Function

namespace Problem
open MGraph

variable {ots : List Nat} {p q : Problem}

/-! ### Terminals after `deleteTermEdges` -/

theorem invalidFlag_mem {ts : List Terminal} {node : Nat} (h : ∀ t ∈ ts, t.invalid = true) : invalidFlag ts node = true := by
  unfold invalidFlag
  split
  · rfl
  · rename_i t ht
    exact h t (by simpa using List.mem_of_find?_eq_some ht)

theorem setTerminals_invalid (h : ∀ t ∈ p.terminals, t.invalid = true) :
    ∀ t ∈ (p.setTerminals ots).terminals, t.invalid = true := by
  intro t ht
  obtain ⟨oi, _, h2⟩ := List.mem_filterMap.1 ht
  split at h2
  · cases h2
    exact invalidFlag_mem h
  · cases h2

theorem dteStep_invalid {T : List Nat} {term : Nat} {s : DTE} {e : Nat} (h : ∀ t ∈ s.ts, t.invalid = true) :
    ∀ t ∈ (dteStep T term s e).ts, t.invalid = true := by
  unfold dteStep
  dsimp only
  split
  · intro t ht
    obtain ⟨t', ht', rfl⟩ := List.mem_map.1 ht
    split
    · rfl
    · exact h t' ht'
  · exact h

theorem foldl_keeps {α β : Type} {P : β → Prop} {f : β → α → β} (hf : ∀ b a, P b → P (f b a)) :
    ∀ (l : List α) (b : β), P b → P (l.foldl f b) := by
  intro l
  induction l with
  | nil => intro b h; exact h
  | cons a l ih => intro b h; exact ih _ (hf b a h)

theorem deleteTermEdges_invalid (h : ∀ t ∈ p.terminals, t.invalid = true) :
    ∀ t ∈ (p.deleteTermEdges ots).terminals, t.invalid = true := by
  refine setTerminals_invalid ?_
  exact foldl_keeps (P := fun s : DTE => ∀ t ∈ s.ts, t.invalid = true)
    (fun s t hs => foldl_keeps (P := fun s : DTE => ∀ t ∈ s.ts, t.invalid = true) (fun s e hs => dteStep_invalid hs) _ s hs) _ _
    (setTerminals_invalid h)

theorem internalDelete_part (g : MGraph) (u e : Nat) : (g.internalDelete u e).part = g.part := by
  unfold internalDelete
  dsimp only
  split <;> rfl

theorem deleteTermEdges_part : (p.deleteTermEdges ots).graph.part = p.graph.part := by
  refine foldl_keeps (P := fun s : DTE => s.g.part = p.graph.part)
    (fun s t hs => foldl_keeps (P := fun s : DTE => s.g.part = p.graph.part) (fun s e hs => ?_) _ s hs) _ _ rfl
  unfold dteStep
  dsimp only
  split
  · show (((s.g.internalDelete t e).internalDelete _ _)).part = _
    rw [internalDelete_part, internalDelete_part, hs]
  · exact hs

theorem invalidFlag_set (node : Nat) (h : ∃ t ∈ (p.setTerminals ots).terminals, t.position = node) :
    invalidFlag (p.setTerminals ots).terminals node = invalidFlag p.terminals node := by
  have hall : ∀ t ∈ (p.setTerminals ots).terminals, t.invalid = invalidFlag p.terminals t.position := by
    intro t ht
    obtain ⟨oi, _, h2⟩ := List.mem_filterMap.1 ht
    split at h2
    · cases h2; rfl
    · cases h2
  unfold invalidFlag at hall ⊢
  cases hf : (p.setTerminals ots).terminals.reverse.find? (fun t => t.position == node) with
  | none =>
    obtain ⟨t, ht, rfl⟩ := h
    rw [List.find?_eq_none] at hf
    exact absurd (beq_self_eq_true _) (hf t (by simpa using ht))
  | some t =>
    dsimp only
    have h1 : t.position = node := by simpa using List.find?_some hf
    rw [hall t (by simpa using List.mem_of_find?_eq_some hf), h1]

theorem setTerminals_idem : (p.setTerminals ots).setTerminals ots = p.setTerminals ots := by
  have key : ∀ l : List (Nat × Nat), (∀ oi ∈ l, oi ∈ ots.zipIdx) →
      (l.filterMap fun oi => if p.graph.len (p.at' oi.1) > 0 ∧ p.at' oi.1 < p.graph.n then
        some (⟨p.at' oi.1, oi.2, invalidFlag (p.setTerminals ots).terminals (p.at' oi.1)⟩ : Terminal) else none) =
      (l.filterMap fun oi => if p.graph.len (p.at' oi.1) > 0 ∧ p.at' oi.1 < p.graph.n then
        some (⟨p.at' oi.1, oi.2, invalidFlag p.terminals (p.at' oi.1)⟩ : Terminal) else none) := by
    intro l hl
    refine List.filterMap_congr fun oi hoi => ?_
    split
    · rename_i hc
      rw [invalidFlag_set]
      refine ⟨⟨p.at' oi.1, oi.2, invalidFlag p.terminals (p.at' oi.1)⟩, ?_, rfl⟩
      exact List.mem_filterMap.2 ⟨oi, hl oi hoi, if_pos hc⟩
    · rfl
  have h := key ots.zipIdx (fun _ h => h)
  exact congrArg (fun l => ({ p with terminals := l } : Problem)) h

theorem deleteTermEdges_set : (p.deleteTermEdges ots).setTerminals ots = p.deleteTermEdges ots := setTerminals_idem

/-- Without edges every labelling is free. -/
theorem no_edges_cost (h : Ok ots p) (h0 : p.graph.numEdges = 0) (f : Nat → Nat) : p.cost f = p.deleted := by
  have hlen : ∀ u, u < p.graph.n → p.graph.len u = 0 := by
    intro u hu
    have := h.consistent.edges
    rw [h0] at this
    exact (List.sum_eq_zero_iff.1 this.symm) _ (List.mem_map.2 ⟨u, List.mem_range.2 hu, rfl⟩)
  have : multicutValue p.graph.n p.graph.toGraph.wt f = 0 := by
    unfold multicutValue
    refine Finset.sum_eq_zero fun v hv => Finset.sum_eq_zero fun u hu => ?_
    rw [Finset.mem_range] at hu hv
    have : p.graph.toGraph.wt u v = 0 := by
      rw [toGraph_wt _ (by omega)]
      unfold W rowSum
      rw [hlen u (by omega)]; rfl
    rw [this]; simp
  unfold cost
  omega

end Problem

namespace BB
open Problem MGraph

variable {E : Env} {R : Nat → Nat → Prop} {p q : Problem}

/-! ### The passes -/

theorem pass_ok {ots : List Nat} {p q : Problem} (h : Ok ots p) (hp : Pass ots p q) :
    Ok ots q ∧ Refines p q ∧ ∀ c, Optimum ots p c ↔ Optimum ots q c := by
  cases hp with
  | high ord active ho =>
    obtain ⟨h1, h2, h3⟩ := highDegree_safe h active
    have := C22_high_degree ots ord active p h ho
    exact ⟨this.1, refines_setTerminals.trans (refines_contractIfImproved (setTerminals_ok h) ho h1 h2 h3), this.2⟩
  | equal ord hash bound active ho hh =>
    obtain ⟨h1, h2, h3⟩ := equalNeighborhoods_safe h hh bound active
    have := C22_equal_neighborhoods ots ord hash bound active p h ho hh
    exact ⟨this.1, refines_setTerminals.trans (refines_contractIfImproved (setTerminals_ok h) ho h1 h2 h3), this.2⟩
  | low ord ho hn =>
    have hn' : ∀ t ∈ p.spots ots, p.graph.len t = 3 → ∀ e, e < 3 → p.graph.len (p.graph.edge t e).target = 1 →
        (p.graph.edge t e).target ∈ p.spots ots := by
      intro t ht
      obtain ⟨o, ho', rfl⟩ := List.mem_map.1 ht
      exact hn o ho'
    have := C22_low_degree_partial ots ord p h ho hn'
    have hns : NoSpur p.graph (p.setTerminals ots).isTerm := by
      intro t ht htt hl e he
      by_contra hc
      have hc' : leaf p.graph (p.setTerminals ots).isTerm (p.graph.edge t e).target = true := by simpa using hc
      unfold leaf at hc'
      simp only [Bool.and_eq_true, decide_eq_true_eq, Bool.not_eq_true'] at hc'
      have hs : t ∈ p.spots ots := (mem_tpos_setTerminals.1 (by simpa [isTerm] using htt)).1
      rcases spots_isTerm h _ (hn' t hs hl e he hc'.1.2) with h' | h'
      · rw [hc'.1.1] at h'; exact absurd h' (by simp)
      · omega
    obtain ⟨h1, h2, h3⟩ := lowDegree_safe h hns
    exact ⟨this.1, refines_setTerminals.trans (refines_contractIfImproved (setTerminals_ok h) ho h1 h2 h3), this.2⟩
  | articulation q ord ho hq =>
    obtain ⟨q', h1, h2⟩ := articulationPass_spec h ord
    obtain ⟨q'', h3, h4⟩ := C22_articulation ots ord p h ho
    rw [hq] at h1 h3
    cases h1
    cases h3
    refine ⟨h4.1, ?_, h4.2⟩
    rcases h2 with rfl | ⟨uf, h5, h6, h7, rfl⟩
    · exact refines_setTerminals
    · exact refines_setTerminals.trans (refines_contractIfImproved (setTerminals_ok h) ho h5 h6 h7)
  | flow ord flows ho hlt hcut hdis =>
    obtain ⟨h1, h2, h3⟩ := flowUnions_safe h flows hlt hcut hdis
    have := C22_nonterminal_flow_partial ots ord flows p h ho hlt hcut hdis
    exact ⟨this.1, refines_contractIfImproved h ho h1 h2 h3, this.2⟩

theorem kernelized_ok {ots : List Nat} {p q : Problem} (h : Ok ots p) (hp : Kernelized ots p q) :
    Ok ots q ∧ Refines p q ∧ ∀ c, Optimum ots p c ↔ Optimum ots q c := by
  induction hp with
  | refl => exact ⟨h, Refines.refl _, fun _ => Iff.rfl⟩
  | tail _ hs ih =>
    obtain ⟨a1, a2, a3⟩ := ih
    obtain ⟨b1, b2, b3⟩ := pass_ok a1 hs
    exact ⟨b1, a2.trans b2, fun c => (a3 c).trans (b3 c)⟩

/-! ### Flows -/

theorem flowResult_ok {ots : List Nat} {p : Problem} (h : Ok ots p) {t : Terminal} (ht : t ∈ (p.setTerminals ots).terminals)
    {value : Int} {block : List Nat} (hf : FlowResult p.graph (p.setTerminals ots).tpos t.position value block) :
    block.Nodup ∧ (∀ x ∈ block, x < p.graph.n) ∧
    IsolatingCut p.graph.n p.graph.toGraph.wt (p.spots ots) t.position (fun x => decide (x ∈ block)) ∧
    value = cutValue p.graph.n p.graph.toGraph.wt (fun x => decide (x ∈ block)) := by
  obtain ⟨trigger, N, hN⟩ := hf
  obtain ⟨v, b, M, hM, h1⟩ := C14_isolating_block ots p h trigger t ht
  have := hN (max N M) (Nat.le_max_left _ _)
  rw [hM (max N M) (Nat.le_max_right _ _)] at this
  cases this
  exact h1

/-! ### What is known about a task -/

/-- A labelling of the problem costs at most as much as what it means for the original graph, and the pairs in `R` are
merged. -/
def Lift (G : Graph) (R : Nat → Nat → Prop) (p : Problem) : Prop :=
  (∀ o, o < G.n → p.mapped o < p.graph.posSize) ∧
  (∀ f : Nat → Nat, multicutValue G.n G.wt (fun o => f (p.at' o)) ≤ p.cost f) ∧
  ∀ u v, R u v → u < G.n ∧ v < G.n ∧ p.at' u = p.at' v

theorem Lift.refines {G : Graph} (h : Lift G R p) (hr : Refines p q) : Lift G R q := by
  obtain ⟨ψ, h1, h2⟩ := hr
  refine ⟨fun o ho => (h1 o (h.1 o ho)).1, fun f => ?_, fun u v huv => ?_⟩
  · refine Nat.le_trans (Nat.le_of_eq ?_) ((h.2.1 _).trans (h2 f))
    refine multicut_congr fun u v hu hv => ?_
    rw [(h1 u (h.1 u hu)).2, (h1 v (h.1 v hv)).2]
  · obtain ⟨hu, hv, e⟩ := h.2.2 u v huv
    exact ⟨hu, hv, by rw [(h1 u (h.1 u hu)).2, (h1 v (h.1 v hv)).2, e]⟩

structure Good (E : Env) (R : Nat → Nat → Prop) (p : Problem) : Prop where
  ok : Ok E.ots p
  lift : Lift E.G R p

theorem Good.together (h : Good E R p) : ∀ u v, R u v → getSolution p u = getSolution p v := by
  intro u v huv
  unfold getSolution
  rw [(h.lift.2.2 u v huv).2.2]

/-- Every vertex has a block, and the `i`-th terminal is in block `i`. -/
structure Labelled (ots : List Nat) (p : Problem) : Prop where
  lt : ∀ v, v < p.graph.n → p.graph.part v < ots.length
  term : ∀ i (hi : i < ots.length), p.graph.part (p.at' ots[i]) = i

def TaskOk (E : Env) (R : Nat → Nat → Prop) : Task → Prop
  | .queued p => Good E R p ∧ ∀ c, Optimum E.ots p c → p.lower ≤ c
  | .checked p => Good E R p
  | .kernel p => Good E R p
  | .child p => Good E R p ∧ p.setTerminals E.ots = p ∧ ∀ t ∈ p.terminals, t.invalid = true
  | .flow2 p _ => Good E R p ∧ ∀ c, Optimum E.ots p c → p.upper = c ∧ p.cost p.graph.part = c
  | .flowed p _ => Good E R p ∧ ∀ c, Optimum E.ots p c → p.lower ≤ c
  | .admitted p _ => Good E R p ∧ ∀ c, Optimum E.ots p c → p.lower ≤ c
  | .record sol _ => ∀ u v, R u v → sol u = sol v

/-- The task will lead to a solution of weight `c` (or to an exit). -/
def Carries (E : Env) (c : Nat) : Task → Prop
  | .queued p => Optimum E.ots p c
  | .checked p => Optimum E.ots p c
  | .kernel p => Optimum E.ots p c
  | .child p => Optimum E.ots p c
  | .flow2 p _ => Optimum E.ots p c
  | .flowed p _ => Optimum E.ots p c
  | .admitted p _ => Optimum E.ots p c
  | .record sol _ => ∀ v, flowValue E.G E.ots sol = some v → v = c

/-- The parameters make sense. -/
structure EnvOk (E : Env) : Prop where
  wf : E.G.WF
  simple : ∀ u, ((E.G.edges u).map Prod.fst).Nodup
  nodup : E.ots.Nodup
  lt : ∀ o ∈ E.ots, o < E.G.n
  fixed : ∀ o ∈ E.ots, E.fixed o = true
  pos : 0 < E.ots.length
  ls : E.runLS = true

theorem separates_of_separatesTerminals {n : Nat} {ots : List Nat} {sol : Nat → Nat} (hn : ots.Nodup) (hlt : ∀ o ∈ ots, o < n)
    (h : SeparatesTerminals n ots sol) : Separates ots sol := by
  intro s hs t ht hne he
  obtain ⟨x, hx⟩ := List.length_eq_one_iff.1 (h.one (sol s) (h.ids s (hlt s hs)))
  have h1 : s ∈ ots.filter (fun t => sol t == sol s) := List.mem_filter.2 ⟨hs, by simp⟩
  have h2 : t ∈ ots.filter (fun t => sol t == sol s) := List.mem_filter.2 ⟨ht, by simp [he]⟩
  rw [hx, List.mem_singleton] at h1 h2
  exact hne (h1.trans h2.symm)

theorem flowValue_some (hE : EnvOk E) {sol : Nat → Nat} {v : Nat} (h : flowValue E.G E.ots sol = some v) :
    SeparatesTerminals E.G.n E.ots sol ∧ v = multicutValue E.G.n E.G.wt sol := by
  obtain ⟨h1, h2⟩ := C26_flow_value E.G hE.wf E.ots hE.lt sol
  by_cases hs : SeparatesTerminals E.G.n E.ots sol
  · rw [h1 hs] at h
    cases h
    exact ⟨hs, rfl⟩
  · rw [h2 hs] at h
    cases h

theorem flowValue_ge (hE : EnvOk E) {c : Nat} (hc : IsMinTogether E.G.n E.G.wt E.ots R c) {sol : Nat → Nat} {v : Nat}
    (hR : ∀ u v, R u v → sol u = sol v) (h : flowValue E.G E.ots sol = some v) : c ≤ v := by
  obtain ⟨h1, rfl⟩ := flowValue_some hE h
  exact hc.2 sol (separates_of_separatesTerminals hE.nodup hE.lt h1) hR

/-- Labels whose cost is at most the optimum. -/
theorem carries_labels (hE : EnvOk E) {c : Nat} (hc : IsMinTogether E.G.n E.G.wt E.ots R c) (hg : Good E R p)
    (h : p.cost p.graph.part ≤ c) (k : Nat) : Carries E c (.record (getSolution p) k) := by
  intro v hv
  have h1 := flowValue_ge hE hc hg.together hv
  obtain ⟨_, rfl⟩ := flowValue_some hE hv
  have h2 := hg.lift.2.1 p.graph.part
  have h3 : (fun o => p.graph.part (p.at' o)) = getSolution p := rfl
  rw [h3] at h2
  omega

theorem optimum_deleted {ots : List Nat} {c : Nat} (h : Optimum ots p c) : p.deleted ≤ c := by
  obtain ⟨d, _, rfl⟩ := h
  omega

theorem optimum_no_edges {ots : List Nat} (h : Ok ots p) (h0 : p.graph.numEdges = 0) {c : Nat} (hc : Optimum ots p c) :
    c = p.deleted := by
  obtain ⟨⟨f, _, rfl⟩, _⟩ := optimum_iff.1 hc
  exact no_edges_cost h h0 f

theorem not_labelsCut_cost (h : ¬ LabelsCut p) : p.cost p.graph.part = p.deleted := by
  have : multicutValue p.graph.n p.graph.toGraph.wt p.graph.part = 0 := by
    unfold multicutValue
    refine Finset.sum_eq_zero fun v hv => Finset.sum_eq_zero fun u hu => ?_
    rw [Finset.mem_range] at hu hv
    split
    · rename_i hne
      by_contra h0
      exact h ⟨u, v, by omega, hv, h0, hne⟩
    · rfl
  unfold cost
  omega

/-! ### Steps of tasks other than `record` -/

theorem acts_other (hE : EnvOk E) {c : Nat} (hc : IsMinTogether E.G.n E.G.wt E.ots R c) {sh sh' : Shared} {t : Task}
    {ts : List Task} {stray : Prop} (ha : Acts E sh t ts sh' stray) (hst : ¬ stray) (ht : TaskOk E R t) (hgub : (c : Int) ≤ sh.gub)
    (hb : ∀ k, sh.bGUB k ≤ c → sh.init = true ∧ sh.gub = c) :
    (∃ sol k, t = .record sol k) ∨ (sh' = sh ∧ (∀ t' ∈ ts, TaskOk E R t') ∧
      (Carries E c t → (∃ t' ∈ ts, Carries E c t') ∨ sh.gub ≤ c ∨ (sh.init = true ∧ sh.gub = c))) := by
  cases ha with
  | drop p h =>
    refine Or.inr ⟨rfl, by simp, fun hcar => Or.inr (Or.inl ?_)⟩
    have h1 := ht.2 c hcar
    unfold checkProblem at h
    simp only [decide_eq_false_iff_not, not_lt] at h
    omega
  | check p h =>
    refine Or.inr ⟨rfl, ?_, fun hcar => Or.inl ⟨.checked p, by simp, hcar⟩⟩
    intro t' ht'
    rw [List.mem_singleton] at ht'
    subst ht'
    exact ht.1
  | kernelize p q h =>
    have hg : Good E R p := ht
    obtain ⟨a1, a2, a3, _⟩ := prepare_ok hg.ok
    obtain ⟨b1, b2, b3⟩ := kernelized_ok a1 h
    refine Or.inr ⟨rfl, ?_, fun hcar => Or.inl ⟨.kernel q, by simp, (b3 c).1 ((a3 c).1 hcar)⟩⟩
    intro t' ht'
    rw [List.mem_singleton] at ht'
    subst ht'
    exact ⟨b1, hg.lift.refines (a2.trans b2)⟩
  | prune p h =>
    refine Or.inr ⟨rfl, by simp, fun hcar => ?_⟩
    have := optimum_deleted hcar
    omega
  | finish p h h0 =>
    have hg : Good E R p := ht
    obtain ⟨a1, a2, _⟩ := deleteTermEdges_ok hg.ok
    have hg' : Good E R (p.deleteTermEdges E.ots) := ⟨a1, hg.lift.refines (refines_deleteTermEdges hg.ok)⟩
    refine Or.inr ⟨rfl, by simpa [TaskOk] using hg'.together, fun hcar => Or.inl ⟨_, List.mem_singleton_self _, ?_⟩⟩
    refine carries_labels hE hc hg' ?_ _
    rw [no_edges_cost a1 h0]
    exact optimum_deleted ((a2 c).1 hcar)
  | branch p h h0 =>
    have hg : Good E R p := ht
    obtain ⟨a1, a2, _⟩ := deleteTermEdges_ok hg.ok
    have hr := refines_deleteTermEdges hg.ok
    obtain ⟨_, k2, k3⟩ := C24_precondition E.ots p hg.ok
    set p' := p.deleteTermEdges E.ots with hp'
    have hedge : ∃ t ∈ p'.tpos, ∃ e, e < p'.graph.len t ∧ 0 < p'.graph.wdeg (p'.graph.edge t e).target := by
      by_contra hcon
      push Not at hcon
      exact hst fun t ht e he => by have := hcon t ht e he; omega
    obtain ⟨c1, c2⟩ := C24_multi_branch E.ots p' a1 k2 k3 hedge
    obtain ⟨d1, d2, _⟩ := heavyVertex_spec hedge
    have htn : p'.heavyVertex.1 < p'.graph.n := a1.spot_lt _ (k2.spots _ d1)
    have hv : p'.findEdgeMultiBranch.1 < p'.graph.n := a1.consistent.target _ _ htn d2
    have hvs : p'.findEdgeMultiBranch.1 ∉ p'.spots E.ots := k3 _ d1 _ d2
    refine Or.inr ⟨rfl, ?_, fun hcar => ?_⟩
    · intro t' ht'
      obtain ⟨q, hq, rfl⟩ := List.mem_map.1 ht'
      obtain ⟨ctr, _, hqe⟩ := List.mem_map.1 hq
      refine ⟨⟨(c2 q hq).1, ?_⟩, ?_, ?_⟩
      · rw [← hqe]
        exact (hg.lift.refines hr).refines (refines_mbChild a1 hv hvs ctr)
      · rw [← hqe]; exact deleteTermEdges_set
      · rw [← hqe]
        refine deleteTermEdges_invalid ?_
        intro t ht
        obtain ⟨t', _, rfl⟩ := List.mem_map.1 ht
        rfl
    · obtain ⟨⟨q, hq, hqo⟩, _⟩ := c1 c ((a2 c).1 hcar)
      exact Or.inl ⟨.child q, List.mem_map_of_mem hq, hqo⟩
  | few p h hls =>
    have hg : Good E R p := ht.1
    refine Or.inr ⟨rfl, by simpa [TaskOk] using hg.together, fun hcar => Or.inl ⟨_, List.mem_singleton_self _, ?_⟩⟩
    refine carries_labels hE hc hg ?_ _
    rw [not_labelsCut_cost hst]
    exact optimum_deleted hcar
  | two p p' h hf =>
    obtain ⟨hg, hset, hinv⟩ := ht
    obtain ⟨t0, t1, value, block, hts, hfl, rfl⟩ := hf
    have hmem : t0 ∈ (p.setTerminals E.ots).terminals := by rw [hset, hts]; simp
    obtain ⟨b1, b2, b3, b4⟩ := flowResult_ok hg.ok hmem (by rw [hset]; exact hfl)
    have hk := maximumSTFlow_ok hg.ok (t0 := t0) (t1 := t1) (by rw [hset]; exact hts) block b2 b3
    subst b4
    rw [hset] at hk
    obtain ⟨k1, k2, k3, k4, k5, k6, k7, k8, k9, k10⟩ := hk
    have hspo : ∀ c, Optimum E.ots (p.maximumSTFlow E.ots ↑(cutValue p.graph.n p.graph.toGraph.wt fun x => decide (x ∈ block)) block) c ↔ Optimum E.ots p c := by
      intro c
      unfold Optimum
      rw [k2, k3, k4, k5]
    refine Or.inr ⟨rfl, ?_, fun hcar => Or.inl ⟨_, List.mem_singleton_self _, (hspo c).2 hcar⟩⟩
    intro t' ht'
    rw [List.mem_singleton] at ht'
    subst ht'
    refine ⟨⟨k1, hg.lift.refines (refines_maximumSTFlow _ _)⟩, fun d hd => ?_⟩
    have := optimum_unique ((hspo d).1 hd) k7
    refine ⟨by rw [k6, this], ?_⟩
    unfold cost
    rw [k2, k4, k5, k10, this]
  | isolate p p' h hn hf =>
    obtain ⟨hg, hset, hinv⟩ := ht
    obtain ⟨ord, flow, ho, hfl, rfl⟩ := hf
    have hflow : ∀ (i : Nat) (t : Terminal), (p.setTerminals E.ots).terminals[i]? = some t →
      (if t.invalid then flow i else [t.position]).Nodup ∧
      (∀ x ∈ (if t.invalid then flow i else [t.position]), x < p.graph.n) ∧
      IsolatingCut p.graph.n p.graph.toGraph.wt (p.spots E.ots) t.position
        (fun x => decide (x ∈ (if t.invalid then flow i else [t.position]))) := by
      intro i t hit
      have hm := List.mem_of_getElem? hit
      rw [if_pos (hinv t (by rw [hset] at hm; exact hm))]
      obtain ⟨value, hv⟩ := hfl i t hit
      obtain ⟨b1, b2, b3, _⟩ := flowResult_ok hg.ok hm hv
      exact ⟨b1, b2, b3⟩
    obtain ⟨k1, k2, k3, _, _, k6, _⟩ := maximumIsolatingFlow_ok hg.ok ho flow hflow
    have hr := refines_maximumIsolatingFlow hg.ok ho flow hflow
    set q := p.maximumIsolatingFlow E.ots ord flow with hq
    obtain ⟨a1, a2, _⟩ := deleteTermEdges_ok k1
    refine Or.inr ⟨rfl, ?_, fun hcar => Or.inl ⟨_, List.mem_singleton_self _, (a2 c).1 ((k2 c).1 hcar)⟩⟩
    intro t' ht'
    rw [List.mem_singleton] at ht'
    subst ht'
    refine ⟨⟨a1, (hg.lift.refines hr).refines (refines_deleteTermEdges k1)⟩, fun d hd => ?_⟩
    exact k6 d ((k2 d).2 ((a2 d).2 hd))
  | two_record p k hls =>
    obtain ⟨hg, ho⟩ := ht
    refine Or.inr ⟨rfl, by simpa [TaskOk] using hg.together, fun hcar => Or.inl ⟨_, List.mem_singleton_self _, ?_⟩⟩
    exact carries_labels hE hc hg (Nat.le_of_eq (ho c hcar).2) _
  | two_drop p k hls =>
    obtain ⟨hg, ho⟩ := ht
    refine Or.inr ⟨rfl, by simp, fun hcar => Or.inr (Or.inr ?_)⟩
    refine hb p.terminals.length ?_
    unfold runLocalSearch at hls
    rw [hE.ls] at hls
    simp only [Bool.and_true, decide_eq_false_iff_not, not_lt] at hls
    rw [(ho c hcar).1] at hls
    exact hls
  | empty_record p k h0 hls =>
    obtain ⟨hg, ho⟩ := ht
    refine Or.inr ⟨rfl, by simpa [TaskOk] using hg.together, fun hcar => Or.inl ⟨_, List.mem_singleton_self _, ?_⟩⟩
    refine carries_labels hE hc hg ?_ _
    rw [no_edges_cost hg.ok h0]
    exact optimum_deleted hcar
  | empty_drop p k h0 hls =>
    obtain ⟨hg, ho⟩ := ht
    refine Or.inr ⟨rfl, by simp, fun hcar => Or.inr (Or.inr ?_)⟩
    refine hb p.terminals.length ?_
    unfold runLocalSearch at hls
    rw [hE.ls] at hls
    simp only [Bool.and_true, decide_eq_false_iff_not, not_lt] at hls
    rw [optimum_no_edges hg.ok h0 hcar]
    exact hls
  | reject p k h0 h =>
    obtain ⟨hg, ho⟩ := ht
    refine Or.inr ⟨rfl, by simp, fun hcar => Or.inr (Or.inl ?_)⟩
    have h1 := ho c hcar
    unfold checkProblem at h
    simp only [decide_eq_false_iff_not, not_lt] at h
    omega
  | admit p k h0 h =>
    refine Or.inr ⟨rfl, ?_, fun hcar => Or.inl ⟨_, List.mem_singleton_self _, hcar⟩⟩
    intro t' ht'
    rw [List.mem_singleton] at ht'
    subst ht'
    exact ht
  | enqueue_record p k hls =>
    refine Or.inr ⟨rfl, ?_, fun hcar => Or.inl ⟨.queued p, by simp, hcar⟩⟩
    intro t' ht'
    rcases List.mem_cons.1 ht' with rfl | ht'
    · exact ht
    · rw [List.mem_singleton] at ht'
      subst ht'
      exact ht.1.together
  | enqueue p k hls =>
    refine Or.inr ⟨rfl, ?_, fun hcar => Or.inl ⟨.queued p, by simp, hcar⟩⟩
    intro t' ht'
    rw [List.mem_singleton] at ht'
    subst ht'
    exact ht
  | best sol k r sh' => exact Or.inl ⟨sol, k, rfl⟩

/-! ### `findBestSolution` -/

theorem localSearch_ok (hE : EnvOk E) {sol : Nat → Nat} {v : Nat} (hv : flowValue E.G E.ots sol = some v)
    {r : (Nat → Nat) × Int} (h : LocalSearchResult E sol r) :
    0 ≤ r.2 ∧ (∃ w : Nat, flowValue E.G E.ots r.1 = some w ∧ (w : Int) = v - r.2) ∧
    ∀ x, E.fixed x = true → r.1 x = sol x := by
  obtain ⟨ord, flow, perm1, perm2, pairs, fuel, ho, hfl, hp1, hp2, hpairs, hfuel, hr⟩ := h
  obtain ⟨r', e, h1, h2, h3, h4, _⟩ := C25_improve_exact E.G hE.wf hE.simple E.ots.length hE.pos E.fixed ord ho flow hfl
    perm1 perm2 hp1 hp2 pairs hpairs sol fuel hfuel
  rw [hr] at e
  cases e
  obtain ⟨hs, rfl⟩ := flowValue_some hE hv
  have hs' : SeparatesTerminals E.G.n E.ots r.1 := by
    refine ⟨fun x hx => ?_, fun i hi => ?_⟩
    · rcases h4 x with h | h
      · rw [h]; exact hs.ids x hx
      · exact h
    · rw [← hs.one i hi]
      congr 1
      refine List.filter_congr fun t ht => ?_
      rw [h3 t (hE.fixed t ht)]
  exact ⟨h2, ⟨_, (C26_flow_value E.G hE.wf E.ots hE.lt r.1).1 hs', by omega⟩, h3⟩

/-- The bounds and the recorded solution. -/
structure SharedOk (E : Env) (R : Nat → Nat → Prop) (c : Nat) (sh : Shared) : Prop where
  gub : (c : Int) ≤ sh.gub
  bgub : ∀ k, (c : Int) ≤ sh.bGUB k
  best : sh.init = true → (∀ u v, R u v → sh.best u = sh.best v) ∧ ∃ v : Nat, flowValue E.G E.ots sh.best = some v ∧
    (sh.gub = v ∨ (sh.gub = undefinedNode ∧ undefinedNode ≤ v))
  known : ∀ k, sh.bGUB k ≤ c → sh.init = true ∧ sh.gub = c
  seen : sh.seen ≤ undefinedNode ∧ (sh.gub ≤ sh.seen ∨ undefinedNode ≤ sh.seen)

theorem findBest_ok (hE : EnvOk E) (hR : ∀ u v, R u v → E.fixed u = true ∧ E.fixed v = true) {c : Nat} (hc : IsMinTogether E.G.n E.G.wt E.ots R c) {sh sh' : Shared} (h : SharedOk E R c sh)
    {sol : Nat → Nat} {k : Nat} (hsol : ∀ u v, R u v → sol u = sol v) {r : (Nat → Nat) × Int}
    (hr : LocalSearchResult E sol r) (hf : findBest E sol k r sh = some sh')
    (hraise : ¬ (sh.init = false ∧ sh.gub < sh'.gub)) :
    SharedOk E R c sh' ∧ (sh.init = true ∧ sh.gub = c → sh'.init = true ∧ sh'.gub = c) ∧
    (sh'.gub ≤ c → (sh'.init = true ∧ sh'.gub = c) ∨ sh.gub ≤ c) ∧
    (Carries E c (.record sol k) → sh'.init = true ∧ sh'.gub = c) := by
  unfold findBest at hf
  cases hv : flowValue E.G E.ots sol with
  | none => rw [hv] at hf; cases hf
  | some v =>
    rw [hv, Option.map_some] at hf
    have hvc := flowValue_ge hE hc hsol hv
    obtain ⟨hr0, ⟨w, hw, hwv⟩, hrf⟩ := localSearch_ok hE hv hr
    have hsol' : ∀ u v, R u v → r.1 u = r.1 v := fun u v h => by
      rw [hrf u (hR u v h).1, hrf v (hR u v h).2, hsol u v h]
    have hwc := flowValue_ge hE hc hsol' hw
    have hcar : Carries E c (.record sol k) → v = c := fun h => h v hv
    obtain ⟨g1, g2, g3, g4, g5⟩ := h
    have g2k := g2 k
    have hlb : (v : Int) - r.2 = w := hwv.symm
    simp only [Option.some.injEq, hlb] at hf
    by_cases c1 : (v : Int) > sh.bGUB k
    · rw [if_pos c1] at hf
      subst hf
      exact ⟨⟨g1, g2, g3, g4, g5⟩, fun h => h, fun h => Or.inr h, fun h => by have := hcar h; omega⟩
    · rw [if_neg c1] at hf
      -- the state after the first comparison
      obtain ⟨s1, hs1, f1, f2, f3, f4, f5⟩ : ∃ s1 : Shared,
          s1 = (if (v : Int) < sh.gub then { sh with gub := (v : Int), best := sol, init := true } else sh) ∧
          s1.bGUB = sh.bGUB ∧ (c : Int) ≤ s1.gub ∧
          (s1.init = true → (∀ u v, R u v → s1.best u = s1.best v) ∧ ∃ v : Nat, flowValue E.G E.ots s1.best = some v ∧
            (s1.gub = v ∨ (s1.gub = undefinedNode ∧ undefinedNode ≤ v))) ∧
          (s1.gub ≤ v ∧ s1.gub ≤ sh.gub ∧ s1.seen = sh.seen ∧ (sh.init = true → s1.init = true)) ∧ ((s1 = sh) ∨ (s1.gub = v ∧ s1.init = true ∧ (v : Int) < sh.gub)) := by
        by_cases c2 : (v : Int) < sh.gub
        · rw [if_pos c2]
          exact ⟨_, rfl, rfl, by show (c : Int) ≤ v; omega, fun _ => ⟨hsol, v, hv, Or.inl rfl⟩,
            ⟨Int.le_refl _, Int.le_of_lt c2, rfl, fun _ => rfl⟩, Or.inr ⟨rfl, rfl, c2⟩⟩
        · rw [if_neg c2]
          exact ⟨_, rfl, rfl, g1, g3, ⟨by omega, Int.le_refl _, rfl, id⟩, Or.inl rfl⟩
      obtain ⟨f4, f6, f7, f8⟩ := f4
      rw [← hs1] at hf
      obtain ⟨s2, hs2, e1, e2, e3, e4⟩ : ∃ s2 : Shared,
          s2 = (if (w : Int) ≤ s1.tGUB k then
            { s1 with tGUB := update s1.tGUB k (w : Int), bGUB := update s1.bGUB k (v : Int) } else s1) ∧
          s2.gub = s1.gub ∧ s2.init = s1.init ∧ (s2.best = s1.best ∧ s2.seen = s1.seen) ∧
          ∀ k', s2.bGUB k' = sh.bGUB k' ∨ s2.bGUB k' = v := by
        by_cases c3 : (w : Int) ≤ s1.tGUB k
        · rw [if_pos c3]
          refine ⟨_, rfl, rfl, rfl, ⟨rfl, rfl⟩, fun k' => ?_⟩
          by_cases hk : k' = k
          · subst hk; exact Or.inr (by simp)
          · exact Or.inl (by simp only [update_of_ne hk]; rw [f1])
        · rw [if_neg c3]
          exact ⟨_, rfl, rfl, rfl, ⟨rfl, rfl⟩, fun k' => Or.inl (by rw [f1])⟩
      obtain ⟨e3, e5⟩ := e3
      rw [← hs2] at hf
      by_cases c4 : (w : Int) < s2.gub ∨ s2.init = false
      · rw [if_pos c4] at hf
        subst hf
        refine ⟨⟨by show (c : Int) ≤ w; omega, fun k' => ?_, fun _ => ⟨hsol', w, hw, Or.inl rfl⟩, fun k' hk' => ⟨rfl, ?_⟩, ?_⟩, ?_, ?_, ?_⟩
        · show (c : Int) ≤ s2.bGUB k'
          have := g2 k'
          rcases e4 k' with h | h <;> rw [h] <;> omega
        · -- a bound of weight at most the minimum
          show (w : Int) = c
          change s2.bGUB k' ≤ c at hk'
          rcases e4 k' with h | h
          · rw [h] at hk'
            obtain ⟨i1, i2⟩ := g4 k' hk'
            rcases f5 with f5 | ⟨f5, _, f6⟩
            · rw [e1, e2, f5, i1, i2] at c4
              rcases c4 with c4 | c4
              · omega
              · cases c4
            · omega
          · omega
        · -- the bound is not raised
          show s2.seen ≤ undefinedNode ∧ ((w : Int) ≤ s2.seen ∨ undefinedNode ≤ s2.seen)
          rw [e5, f7]
          refine ⟨g5.1, ?_⟩
          have hle : (w : Int) ≤ sh.gub := by
            by_contra hcon
            refine hraise ⟨?_, by show sh.gub < (w : Int); omega⟩
            rcases c4 with c4 | c4
            · rw [e1] at c4; omega
            · rw [e2] at c4
              by_contra hi
              rw [f8 (by simpa using hi)] at c4
              cases c4
          rcases g5.2 with h | h
          · exact Or.inl (by omega)
          · exact Or.inr h
        · rintro ⟨i1, i2⟩
          refine ⟨rfl, ?_⟩
          show (w : Int) = c
          rcases f5 with f5 | ⟨f5, _, f6⟩
          · rw [e1, e2, f5, i1, i2] at c4
            rcases c4 with c4 | c4
            · omega
            · cases c4
          · omega
        · intro hle
          change (w : Int) ≤ c at hle
          exact Or.inl ⟨rfl, by show (w : Int) = c; omega⟩
        · intro hcr
          have := hcar hcr
          exact ⟨rfl, by show (w : Int) = c; omega⟩
      · rw [if_neg c4] at hf
        subst hf
        push Not at c4
        obtain ⟨c5, c6⟩ := c4
        have c6' : s1.init = true := by rw [← e2]; simpa using c6
        rw [e1] at c5
        have fin : s1.gub ≤ c → s2.init = true ∧ s2.gub = c := fun h => ⟨by rw [e2]; exact c6', by rw [e1]; omega⟩
        refine ⟨⟨by rw [e1]; exact f2, fun k' => ?_, fun _ => by rw [e1, e3]; exact f3 c6', fun k' hk' => fin ?_, ?_⟩, ?_, ?_, ?_⟩
        · have := g2 k'
          rcases e4 k' with h | h <;> rw [h] <;> omega
        · rcases e4 k' with h | h
          · rw [h] at hk'
            obtain ⟨i1, i2⟩ := g4 k' hk'
            rcases f5 with f5 | ⟨f5, _, f6⟩
            · rw [f5]; omega
            · omega
          · rw [h] at hk'; omega
        · rw [e5, f7, e1]
          refine ⟨g5.1, ?_⟩
          rcases g5.2 with h | h
          · exact Or.inl (by omega)
          · exact Or.inr h
        · rintro ⟨i1, i2⟩
          refine fin ?_
          rcases f5 with f5 | ⟨f5, _, f6⟩
          · rw [f5]; omega
          · omega
        · intro hle
          rw [e1] at hle
          exact Or.inl (fin hle)
        · intro hcr
          have := hcar hcr
          exact fin (by omega)

/-! ### The invariant -/

structure Inv (E : Env) (R : Nat → Nat → Prop) (c : Nat) (s : State) : Prop where
  tasks : ∀ t ∈ s.tasks, TaskOk E R t
  shared : SharedOk E R c s.sh
  carried : (∃ t ∈ s.tasks, Carries E c t) ∨ (s.sh.init = true ∧ s.sh.gub = c)
  pending : s.sh.gub ≤ c → (∃ sol k, .record sol k ∈ s.tasks ∧ Carries E c (.record sol k)) ∨ (s.sh.init = true ∧ s.sh.gub = c)

theorem step_inv (hE : EnvOk E) (hR : ∀ u v, R u v → E.fixed u = true ∧ E.fixed v = true) {c : Nat} (hc : IsMinTogether E.G.n E.G.wt E.ots R c) (hbig : (c : Int) < undefinedNode) {s s' : State} (hs : Step E s s')
    (h : s.exited = false → ¬ s.stray → Inv E R c s) : s'.exited = false → ¬ s'.stray → Inv E R c s' := by
  intro hex hst
  cases hs with
  | exit l₁ l₂ sol k sh b hn => exact absurd hex (by simp)
  | announce ts sh b =>
    obtain ⟨I1, I2, I3, I4⟩ := h rfl hst
    refine ⟨I1, ⟨I2.gub, I2.bgub, I2.best, I2.known, ?_⟩, I3, I4⟩
    have := I2.seen
    unfold Shared.announce
    dsimp only at this ⊢
    omega
  | learn ts sh b =>
    obtain ⟨I1, I2, I3, I4⟩ := h rfl hst
    dsimp only at I1 I2 I3 I4
    have hs := I2.seen
    have key : sh.learn.gub = sh.gub ∨ (sh.learn.gub = undefinedNode ∧ undefinedNode < sh.gub) := by
      unfold Shared.learn
      dsimp only
      omega
    rcases key with key | ⟨key, hlt⟩
    · have : sh.learn = sh := by
        have h1 : sh.learn = { sh with gub := sh.learn.gub } := rfl
        rw [h1, key]
      show Inv E R c ⟨ts, sh.learn, false, b⟩
      rw [this]
      exact ⟨I1, I2, I3, I4⟩
    · have hne : sh.gub ≠ c := by omega
      refine ⟨I1, ⟨?_, I2.bgub, fun hi => ?_, fun k hk => absurd (I2.known k hk).2 hne, ?_⟩, ?_, fun hle => ?_⟩
      · show (c : Int) ≤ sh.learn.gub
        omega
      · obtain ⟨h0, v, h1, h2⟩ := I2.best hi
        refine ⟨h0, v, h1, Or.inr ⟨key, ?_⟩⟩
        omega
      · show sh.seen ≤ undefinedNode ∧ (sh.learn.gub ≤ sh.seen ∨ _)
        rw [key]
        omega
      · rcases I3 with h | h
        · exact Or.inl h
        · exact absurd h.2 hne
      · change sh.learn.gub ≤ c at hle
        omega
  | act l₁ l₂ t ts sh sh' b d ha =>
    change ¬ (b ∨ d) at hst
    push Not at hst
    obtain ⟨I1, I2, I3, I4⟩ := h rfl hst.1
    dsimp only at I1 I2 I3 I4
    have hmem : ∀ t', t' ∈ l₁ ++ t :: l₂ ↔ t' = t ∨ t' ∈ l₁ ++ l₂ := by
      intro t'
      clear hbig
      simp only [List.mem_append, List.mem_cons]
      tauto
    have hmem' : ∀ t', t' ∈ l₁ ++ ts ++ l₂ ↔ t' ∈ ts ∨ t' ∈ l₁ ++ l₂ := by
      intro t'
      clear hbig
      simp only [List.mem_append]
      tauto
    by_cases hrec : ∃ sol k, t = .record sol k
    · obtain ⟨sol, k, rfl⟩ := hrec
      cases ha with
      | best _ _ r _ hr hf =>
        obtain ⟨b1, b2, b3, b4⟩ := findBest_ok hE hR hc I2 (I1 _ ((hmem _).2 (Or.inl rfl))) hr hf hst.2
        refine ⟨?_, b1, ?_, ?_⟩
        · intro t ht
          rcases (hmem' t).1 ht with h | h
          · simp at h
          · exact I1 t ((hmem t).2 (Or.inr h))
        · rcases I3 with ⟨t, ht, hcar⟩ | h
          · rcases (hmem t).1 ht with rfl | ht
            · exact Or.inr (b4 hcar)
            · exact Or.inl ⟨t, (hmem' t).2 (Or.inr ht), hcar⟩
          · exact Or.inr (b2 h)
        · intro hle
          rcases b3 hle with h | h
          · exact Or.inr h
          · rcases I4 h with ⟨sol', k', ht, hcar⟩ | h
            · rcases (hmem _).1 ht with heq | ht
              · rw [heq] at hcar
                exact Or.inr (b4 hcar)
              · exact Or.inl ⟨sol', k', (hmem' _).2 (Or.inr ht), hcar⟩
            · exact Or.inr (b2 h)
    · obtain ⟨rfl, a2, a3⟩ := (acts_other hE hc ha hst.2 (I1 t ((hmem t).2 (Or.inl rfl))) I2.gub I2.known).resolve_left hrec
      have hpend : sh'.gub ≤ c → (∃ sol k, Task.record sol k ∈ l₁ ++ ts ++ l₂ ∧ Carries E c (.record sol k)) ∨
          (sh'.init = true ∧ sh'.gub = c) := by
        intro hle
        rcases I4 hle with ⟨sol, k, ht, hcar⟩ | h
        · rcases (hmem _).1 ht with heq | ht
          · exact absurd ⟨sol, k, heq.symm⟩ hrec
          · exact Or.inl ⟨sol, k, (hmem' _).2 (Or.inr ht), hcar⟩
        · exact Or.inr h
      refine ⟨?_, I2, ?_, hpend⟩
      · intro t' ht'
        rcases (hmem' t').1 ht' with h | h
        · exact a2 t' h
        · exact I1 t' ((hmem t').2 (Or.inr h))
      · show (∃ t ∈ l₁ ++ ts ++ l₂, Carries E c t) ∨ _
        rcases I3 with ⟨t', ht', hcar⟩ | h
        · rcases (hmem t').1 ht' with rfl | ht'
          · rcases a3 hcar with ⟨t'', h1, h2⟩ | h | h
            · exact Or.inl ⟨t'', (hmem' t'').2 (Or.inl h1), h2⟩
            · rcases hpend h with ⟨sol, k, h1, h2⟩ | h
              · exact Or.inl ⟨_, h1, h2⟩
              · exact Or.inr h
            · exact Or.inr h
          · exact Or.inl ⟨t', (hmem' t').2 (Or.inr ht'), hcar⟩
        · exact Or.inr h

/-! ### The beginning -/

section
variable {g : MGraph} {ots : List Nat}

theorem first_ok (hg : Consistent g) (hs : g.NoParallel) (hf : MGraph.Fresh g) (hn : ots.Nodup) (hlt : ∀ o ∈ ots, o < g.n) :
    Ok ots (firstProblem g ots) := by
  have hsp : (firstProblem g ots).spots ots = ots := by
    conv_rhs => rw [← List.map_id ots]
    exact List.map_congr_left fun o ho => (hf.2 o (hlt o ho)).1
  refine Ok.of (consistent_iff.1 hg) (simple_of_noParallel hs) hf.located ?_ ?_ (by rw [hsp]; exact hn)
  · intro v hv
    show g.cont v ≠ []
    rw [(hf.2 v hv).2]; simp
  · intro o ho
    show o < g.posSize
    rw [hf.1]; exact hlt o ho

theorem first_lift (hf : MGraph.Fresh g) : Lift g.toGraph (fun _ _ => False) (firstProblem g ots) := by
  refine ⟨fun o ho => ?_, fun f => ?_, fun u v h => h.elim⟩
  · show o < g.posSize
    rw [hf.1]; rwa [toGraph_n] at ho
  · unfold cost
    refine Nat.le_trans (Nat.le_of_eq ?_) (Nat.le_add_left _ _)
    rw [toGraph_n]
    refine multicut_congr fun u v hu hv => ?_
    show f (g.pos u) = f (g.pos v) ↔ _
    rw [(hf.2 u hu).1, (hf.2 v hv).1]

theorem first_optimum (hf : MGraph.Fresh g) (hlt : ∀ o ∈ ots, o < g.n) (c : Nat) :
    IsMinMulticut g.n g.toGraph.wt ots c ↔ Optimum ots (firstProblem g ots) c := by
  have hsp : (firstProblem g ots).spots ots = ots := by
    conv_rhs => rw [← List.map_id ots]
    exact List.map_congr_left fun o ho => (hf.2 o (hlt o ho)).1
  unfold Optimum
  rw [hsp]
  constructor
  · intro h
    exact ⟨c, h, (Nat.zero_add c).symm⟩
  · rintro ⟨d, h, h2⟩
    have : c = d := h2.trans (Nat.zero_add d)
    rw [this]
    exact h

end

/-- The first problem: it is in order, no flow is known yet, and its optimum is the one looked for. -/
structure Start (E : Env) (R : Nat → Nat → Prop) (c : Nat) (p : Problem) : Prop where
  good : Good E R p
  invalid : ∀ t ∈ p.terminals, t.invalid = true
  optimum : Optimum E.ots p c

theorem init_inv (hE : EnvOk E) {c : Nat} (hc : IsMinTogether E.G.n E.G.wt E.ots R c) (hbig : (c : Int) < undefinedNode)
    (hs : Start E R c p) {s : State} (hi : Init E p s) : Inv E R c s := by
  have hbig' : undefinedNode < undefinedFlow := by unfold undefinedNode undefinedFlow; norm_num
  obtain ⟨⟨hok, hlift⟩, hinv, hopt⟩ := hs
  obtain ⟨p', hfl⟩ := hi
  obtain ⟨ord, flow, ho, hfl, rfl⟩ := hfl
  have hflow : ∀ (i : Nat) (t : Terminal), (p.setTerminals E.ots).terminals[i]? = some t →
      (if t.invalid then flow i else [t.position]).Nodup ∧
      (∀ x ∈ (if t.invalid then flow i else [t.position]), x < p.graph.n) ∧
      IsolatingCut p.graph.n p.graph.toGraph.wt (p.spots E.ots) t.position
        (fun x => decide (x ∈ (if t.invalid then flow i else [t.position]))) := by
    intro i t hit
    have hm := List.mem_of_getElem? hit
    rw [if_pos (setTerminals_invalid hinv t hm)]
    obtain ⟨value, hv⟩ := hfl i t hit
    obtain ⟨b1, b2, b3, _⟩ := flowResult_ok hok hm hv
    exact ⟨b1, b2, b3⟩
  obtain ⟨k1, k2, _, _, _, k6, _, _, _, k10⟩ := maximumIsolatingFlow_ok hok ho flow hflow
  have hr := refines_maximumIsolatingFlow hok ho flow hflow
  have hgood : Good E R (p.maximumIsolatingFlow E.ots ord flow) := ⟨k1, hlift.refines hr⟩
  have hge : (c : Int) ≤ (p.maximumIsolatingFlow E.ots ord flow).upper := by
    have := optimum_le ((k2 c).1 hopt) (f := (p.maximumIsolatingFlow E.ots ord flow).graph.part)
      (by assumption)
    omega
  refine ⟨?_, ⟨?_, ?_, ?_, ?_, ?_⟩, ?_, ?_⟩
  · intro t ht
    rcases List.mem_cons.1 ht with rfl | ht
    · exact ⟨hgood, fun d hd => k6 d ((k2 d).2 hd)⟩
    · rw [List.mem_singleton] at ht
      subst ht
      exact hgood.together
  · exact le_min hge (by show (c : Int) ≤ undefinedFlow; omega)
  · intro k
    show (c : Int) ≤ undefinedFlow
    omega
  · intro h; cases h
  · intro k hk
    change undefinedFlow ≤ c at hk
    omega
  · exact ⟨Int.le_refl _, Or.inr (Int.le_refl _)⟩
  · exact Or.inl ⟨_, List.mem_cons_self, (k2 c).1 hopt⟩
  · intro hle
    have hle : (p.maximumIsolatingFlow E.ots ord flow).upper ≤ (c : Int) := by
      rcases min_le_iff.1 hle with h | h
      · exact h
      · change undefinedFlow ≤ (c : Int) at h
        omega
    refine Or.inl ⟨_, _, List.mem_cons_of_mem _ List.mem_cons_self, ?_⟩
    refine carries_labels hE hc hgood ?_ _
    unfold cost
    omega

theorem reach_start (hE : EnvOk E) (hR : ∀ u v, R u v → E.fixed u = true ∧ E.fixed v = true) {c : Nat}
    (hc : IsMinTogether E.G.n E.G.wt E.ots R c) (hbig : (c : Int) < undefinedNode) (hp : Start E R c p) {s0 s : State}
    (hi : Init E p s0) (hr : Relation.ReflTransGen (Step E) s0 s) (hex : s.exited = false) (hst : ¬ s.stray) :
    Inv E R c s := by
  have : s.exited = false → ¬ s.stray → Inv E R c s := by
    induction hr with
    | refl => exact fun _ _ => init_inv hE hc hbig hp hi
    | tail _ hstep ih =>
      refine step_inv hE hR hc hbig hstep fun h1 h2 => ?_
      clear hex hst
      exact ih h1 h2 h1 h2
  exact this hex hst

theorem isMinTogether_none {n : Nat} {w : Nat → Nat → Nat} {ts : List Nat} {c : Nat} :
    IsMinTogether n w ts (fun _ _ => False) c ↔ IsMinMulticut n w ts c := by
  unfold IsMinTogether IsMinMulticut
  simp

section
variable {g : MGraph} {ots : List Nat}

theorem envOk_of {fixed : Nat → Bool} (hg : Consistent g) (hs : g.NoParallel) (hn : ots.Nodup) (hlt : ∀ o ∈ ots, o < g.n)
    (h0 : ots ≠ []) (hfix : ∀ o ∈ ots, fixed o = true) : EnvOk ⟨g.toGraph, ots, fixed, true⟩ := by
  have hw := simpleWF_of_mutable (consistent_iff.1 hg) (simple_of_noParallel hs)
  refine ⟨hw.1, fun u => ?_, hn, fun o ho => by show o < g.toGraph.n; rw [toGraph_n]; exact hlt o ho, hfix, List.length_pos_iff.2 h0, rfl⟩
  by_cases hu : u < g.toGraph.n
  · exact hw.2 u hu
  · show ((g.toGraph.edges u).map Prod.fst).Nodup
    rw [Graph.edges_of_ge (by omega)]
    exact List.nodup_nil

theorem reach_inv {fixed : Nat → Bool} (hg : Consistent g) (hs : g.NoParallel) (hf : MGraph.Fresh g) (hn : ots.Nodup)
    (hlt : ∀ o ∈ ots, o < g.n) (h0 : ots ≠ []) (hfix : ∀ o ∈ ots, fixed o = true) {c : Nat}
    (hc : IsMinMulticut g.n g.toGraph.wt ots c) (hbig : (c : Int) < undefinedNode) {s0 s : State}
    (hi : Init ⟨g.toGraph, ots, fixed, true⟩ (firstProblem g ots) s0)
    (hr : Relation.ReflTransGen (Step ⟨g.toGraph, ots, fixed, true⟩) s0 s) (hex : s.exited = false) (hst : ¬ s.stray) :
    Inv ⟨g.toGraph, ots, fixed, true⟩ (fun _ _ => False) c s := by
  have hE := envOk_of (fixed := fixed) hg hs hn hlt h0 hfix
  refine reach_start hE (fun _ _ h => h.elim) (isMinTogether_none.2 (by rw [← toGraph_n] at hc; exact hc)) hbig ⟨⟨?_, ?_⟩, ?_, ?_⟩ hi hr hex hst
  · exact first_ok hg hs hf hn hlt
  · exact first_lift hf
  · intro t ht
    obtain ⟨oi, _, rfl⟩ := List.mem_map.1 ht
    rfl
  · exact (first_optimum hf hlt c).1 hc

end

/-- The recorded solution, if there is one, separates the terminals. -/
def BestOk (E : Env) (s : Shared) : Prop := s.init = true → ∃ v, flowValue E.G E.ots s.best = some v

theorem BestOk.ite {c : Prop} [Decidable c] {a b : Shared} (ha : BestOk E a) (hb : BestOk E b) : BestOk E (if c then a else b) := by
  split
  · exact ha
  · exact hb

theorem step_best (hE : EnvOk E) {s s' : State} (hs : Step E s s') (h : BestOk E s.sh) : BestOk E s'.sh := by
  cases hs with
  | exit => exact h
  | announce => exact h
  | learn => exact h
  | act l₁ l₂ t ts sh sh' b d ha =>
    cases ha with
    | best sol k r sh' hr hf =>
      dsimp only at h ⊢
      unfold findBest at hf
      cases hv : flowValue E.G E.ots sol with
      | none => rw [hv] at hf; cases hf
      | some v =>
        rw [hv, Option.map_some] at hf
        obtain ⟨_, ⟨w, hw, _⟩, _⟩ := localSearch_ok hE hv hr
        rw [Option.some.injEq] at hf
        subst hf
        have h1 : BestOk E (if (v : Int) < sh.gub then { sh with gub := (v : Int), best := sol, init := true } else sh) :=
          BestOk.ite (fun _ => ⟨v, hv⟩) h
        exact BestOk.ite h (BestOk.ite (fun _ => ⟨w, hw⟩) (BestOk.ite h1 h1))
    | _ => exact h

end BB
end VieCut
