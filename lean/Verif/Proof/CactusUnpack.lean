import Verif.Proof.CactusKernel
import Verif.Proof.DynamicMerge
import Verif.Spec.Cactus
import Verif.Props.MutableGraph

/-!
# Unpacking: the remembered edges are put back
-/

namespace VieCut
namespace Cactus
open Function Finset MGraph

/-- `C` represents the cuts of value `c` of `A` that satisfy `Q`. -/
structure Rep (Q : (Nat → Bool) → Prop) (A : Graph) (C : MGraph) (p : Nat → Nat) (c : Nat) : Prop where
  valid : Valid C
  ready : C.lastNode = C.n
  simple : C.NoParallel
  lt : ∀ v, v < A.n → p v < C.n
  least : ∀ X, ProperCut C.n X → c ≤ cutValue C.n C.toGraph.wt X
  sound : ∀ X, ProperCut C.n X → cutValue C.n C.toGraph.wt X = c →
    ProperCut A.n (fun v => X (p v)) ∧ cutValue A.n A.wt (fun v => X (p v)) = c
  complete : ∀ S, ProperCut A.n S → cutValue A.n A.wt S = c → Q S →
    ∃ X, cutValue C.n C.toGraph.wt X = c ∧ ∀ v, v < A.n → X (p v) = S v
  separating : ∀ x y, x < C.n → y < C.n → x ≠ y → ∃ X : Nat → Bool, X x = true ∧ X y = false ∧ cutValue C.n C.toGraph.wt X = c

theorem Rep.represents {A : Graph} {C : MGraph} {p : Nat → Nat} {c : Nat} (h : Rep (fun _ => True) A C p c) : RepresentsMinCuts A C p c :=
  ⟨consistent_iff.2 h.valid, h.simple, h.lt, h.least, h.sound, fun S h1 h2 => h.complete S h1 h2 trivial, h.separating⟩

theorem Rep.of_represents {A : Graph} {C : MGraph} {p : Nat → Nat} {c : Nat} (h : RepresentsMinCuts A C p c) (hr : C.lastNode = C.n) :
    Rep (fun _ => True) A C p c :=
  ⟨consistent_iff.1 h.consistent, hr, h.simple, h.lt, h.least, h.sound, fun S h1 h2 _ => h.complete S h1 h2, h.separating⟩

/-- The graph after `new_empty_node` and `new_edge_order`. -/
theorem attach_graph {C : MGraph} (hv : Valid C) (hr : C.lastNode = C.n) (hs : C.NoParallel) {q c : Nat} (hq : q < C.n) :
    let C' := C.newEmptyNode.newEdgeOrder C.n q c
    Valid C' ∧ C'.n = C.n + 1 ∧ C'.lastNode = C'.n ∧ C'.NoParallel ∧
    C'.pos = C.pos ∧ C'.posSize = C.posSize ∧ C'.cont = update C.cont C.contSize [] ∧ C'.contSize = C.contSize + 1 ∧
    ∀ X, cutValue C'.n C'.toGraph.wt X = cutValue C.n C.toGraph.wt X + (if X C.n = X q then 0 else c) := by
  intro C'
  have hE : C.newEmptyNode.n = C.n + 1 := by unfold newEmptyNode; rw [if_pos hr]
  have hEl : C.newEmptyNode.len = update C.len C.n 0 := by unfold newEmptyNode; rw [if_pos hr]
  have hEe : C.newEmptyNode.edge = C.edge := by unfold newEmptyNode; rw [if_pos hr]
  have hEw : C.newEmptyNode.wdeg = update C.wdeg C.n 0 := by unfold newEmptyNode; rw [if_pos hr]
  have hEm : C.newEmptyNode.numEdges = C.numEdges := by unfold newEmptyNode; rw [if_pos hr]
  have hEr : C.newEmptyNode.lastNode = C.n + 1 := by unfold newEmptyNode; rw [if_pos hr]; simp [hr]
  have hEp : C.newEmptyNode.pos = C.pos := by unfold newEmptyNode; rw [if_pos hr]
  have hEs : C.newEmptyNode.posSize = C.posSize := by unfold newEmptyNode; rw [if_pos hr]
  have hEc : C.newEmptyNode.cont = update C.cont C.contSize [] := by unfold newEmptyNode; rw [if_pos hr]
  have hEcs : C.newEmptyNode.contSize = C.contSize + 1 := by unfold newEmptyNode; rw [if_pos hr]
  obtain ⟨v1, v2, v3⟩ := addVertex_spec hv hE hEl hEe hEw hEm
  have hC' : C' = C.newEmptyNode.newEdge q C.n c := by
    show newEdgeOrder _ _ _ _ = _
    unfold newEdgeOrder
    rw [if_neg (by omega), if_pos hq]
  have hn' : C'.n = C.n + 1 := by
    rw [hC']; unfold newEdge; rw [if_pos hq]; exact hE
  obtain ⟨w1, w2, w3⟩ := newEdge_spec v1 (s := q) (t := C.n) (w := c) hq (by rw [hE]; omega)
  rw [← hC'] at w1 w2 w3
  have htgt := (valid_iff.1 hv).1
  refine ⟨w1, hn', ?_, ?_, ?_, ?_, ?_, ?_, ?_⟩
  · rw [hn', hC']; unfold newEdge; rw [if_pos hq]; exact hEr
  · -- no parallel edges
    have hlen : C'.len = update (update C.newEmptyNode.len q (C.newEmptyNode.len q + 1)) C.n (C.newEmptyNode.len C.n + 1) := by
      rw [hC']
      simp only [newEdge, if_pos hq, pushEdge_len, update_of_ne (show C.n ≠ q by omega)]
    have hedge : ∀ a b, C'.edge a b = if a = C.n ∧ b = C.newEmptyNode.len C.n then
          { target := q, weight := c, rev := C.newEmptyNode.len q }
        else if a = q ∧ b = C.newEmptyNode.len q then { target := C.n, weight := c, rev := C.newEmptyNode.len C.n }
        else C.edge a b := by
      intro a b
      rw [hC']
      simp only [newEdge, if_pos hq, pushEdge_edge, pushEdge_len, update_of_ne (show C.n ≠ q by omega), hEe]
    have hl0 : C.newEmptyNode.len C.n = 0 := by rw [hEl, update_self]
    have hlq : C.newEmptyNode.len q = C.len q := by rw [hEl, update_of_ne (by omega)]
    intro u hu e he e' he' ht
    rw [hn'] at hu
    by_cases hun : u = C.n
    · subst hun
      rw [hlen, update_self, hl0] at he he'
      omega
    · have hu' : u < C.n := by omega
      by_cases huq : u = q
      · subst huq
        rw [hlen, update_of_ne hun, update_self, hlq] at he he'
        have hin : ∀ b, (C'.edge u b).target = if b = C.len u then C.n else (C.edge u b).target := by
          intro b
          rw [hedge, if_neg (fun h => hun h.1), hlq]
          by_cases hb : b = C.len u
          · rw [if_pos ⟨rfl, hb⟩, if_pos hb]
          · rw [if_neg (fun h => hb h.2), if_neg hb]
        rw [hin, hin] at ht
        by_cases h1 : e = C.len u <;> by_cases h2 : e' = C.len u
        · omega
        · rw [if_pos h1, if_neg h2] at ht
          have := (htgt u e' hu' (by omega)).1
          omega
        · rw [if_neg h1, if_pos h2] at ht
          have := (htgt u e hu' (by omega)).1
          omega
        · rw [if_neg h1, if_neg h2] at ht
          exact hs u hu' e (by omega) e' (by omega) ht
      · rw [hlen, update_of_ne hun, update_of_ne huq, hEl, update_of_ne hun] at he he'
        have hin : ∀ b, C'.edge u b = C.edge u b := fun b => by
          rw [hedge, if_neg (fun h => hun h.1), if_neg (fun h => huq h.1)]
        rw [hin, hin] at ht
        exact hs u hu' e he e' he' ht
  · rw [hC']; unfold newEdge; rw [if_pos hq]; exact hEp
  · rw [hC']; unfold newEdge; rw [if_pos hq]; exact hEs
  · rw [hC']; unfold newEdge; rw [if_pos hq]; exact hEc
  · rw [hC']; unfold newEdge; rw [if_pos hq]; exact hEcs
  · intro X
    have hwt : ∀ u v, u < C.n + 1 → C'.toGraph.wt u v = C.newEmptyNode.toGraph.wt u v +
        (if (u = q ∧ v = C.n) ∨ (u = C.n ∧ v = q) then c else 0) := by
      intro u v hu
      rw [hC']
      exact C08_newEdge _ (consistent_iff.2 v1) q C.n c hq (by rw [hE]; omega) u v (by rw [hE]; exact hu)
    have h1 := cutValue_add (n := C.n + 1) (s := q) (t := C.n) (k := c) (w := C.newEmptyNode.toGraph.wt)
      (w' := C'.toGraph.wt) (by omega) (by omega) (by omega) hwt X
    rw [hn', h1]
    have e2 : cutValue (C.n + 1) C.newEmptyNode.toGraph.wt X = cutValue C.n C.toGraph.wt X := by
      have hrow : ∀ v, C.newEmptyNode.toGraph.wt C.n v = 0 := by
        intro v
        rw [toGraph_wt _ (by rw [hE]; omega)]
        unfold W rowSum
        rw [v3]; simp
      have hcol : ∀ u, u < C.n → C.newEmptyNode.toGraph.wt u C.n = 0 := by
        intro u hu
        rw [v1.wf.symm u C.n (by rw [toGraph_n, hE]; omega) (by rw [toGraph_n, hE]; omega)]
        exact hrow u
      have hold : ∀ u v, u < C.n → C.newEmptyNode.toGraph.wt u v = C.toGraph.wt u v := by
        intro u v hu
        rw [toGraph_wt _ (by rw [hE]; omega), toGraph_wt _ hu]
        exact v2 _ u hu
      unfold cutValue
      rw [Finset.sum_range_succ]
      have z : (∑ v ∈ range (C.n + 1), if X C.n = true ∧ X v = false then C.newEmptyNode.toGraph.wt C.n v else 0) = 0 :=
        Finset.sum_eq_zero fun v _ => by rw [hrow]; simp
      rw [z, Nat.add_zero]
      refine Finset.sum_congr rfl fun u hu => ?_
      rw [Finset.sum_range_succ, hcol u (mem_range.1 hu), ite_self, Nat.add_zero]
      exact Finset.sum_congr rfl fun v _ => by rw [hold u v (mem_range.1 hu)]
    rw [e2]
    by_cases hx : X C.n = X q
    · rw [if_pos hx, if_pos hx.symm]
    · rw [if_neg hx, if_neg (fun h => hx h.symm)]

/-- One remembered edge. -/
theorem Rep.attach_step {Q : (Nat → Bool) → Prop} {A : Graph} (hA : A.WF) {C : MGraph} {p : Nat → Nat} {c : Nat} (hc : 0 < c)
    (h : Rep Q A C p c) {e : Nat × Nat} (he1 : e.1 < A.n) (hee : A.edges e.1 = [(e.2, c)]) (hpe : p e.1 = p e.2)
    (hQ : ∀ S, Q S → S e.1 = S e.2) :
    Rep (fun S => Q S ∨ ∀ u v, u < A.n → v < A.n → u ≠ e.1 → v ≠ e.1 → S u = S v) A (attach c (C, p) e).1 (attach c (C, p) e).2 c := by
  have ht : e.2 < A.n := hA.tgt_lt e.1 (e.2, c) (by rw [hee]; simp)
  have hne : e.2 ≠ e.1 := hA.no_loop e.1 (e.2, c) (by rw [hee]; simp)
  have hq := h.lt e.2 ht
  obtain ⟨g1, g2, g3, g4, _, _, _, _, g9⟩ := attach_graph h.valid h.ready h.simple (c := c) hq
  unfold Cactus.attach
  simp only
  generalize hC' : C.newEmptyNode.newEdgeOrder C.n (p e.2) c = C' at *
  have hpo : ∀ v, v < A.n → v ≠ e.1 → update p e.1 C.n v = p v := fun v _ hv => update_of_ne hv _ _
  have hcon : ∀ X : Nat → Bool, ¬ ProperCut C.n X → ∀ x y, x < C.n → y < C.n → X x = X y := by
    intro X hX x y hx hy
    by_contra hxy
    apply hX
    cases h1 : X x
    · exact ⟨⟨y, hy, by cases h2 : X y; exact absurd (h1.trans h2.symm) hxy; rfl⟩, ⟨x, hx, h1⟩⟩
    · exact ⟨⟨x, hx, h1⟩, ⟨y, hy, by cases h2 : X y; rfl; exact absurd (h1.trans h2.symm) hxy⟩⟩
  have hproper : ∀ X, ProperCut C'.n X → X C.n = X (p e.2) → ProperCut C.n X := by
    intro X hX he
    by_contra hnp
    have hall : ∀ x, x < C.n + 1 → X x = X (p e.2) := by
      intro x hx
      by_cases hxn : x = C.n
      · rw [hxn]; exact he
      · exact hcon X hnp _ _ (by omega) hq
    obtain ⟨⟨a, ha, ha'⟩, ⟨b, hb, hb'⟩⟩ := hX
    rw [g2] at ha hb
    rw [hall a ha] at ha'
    rw [hall b hb, ha'] at hb'
    cases hb'
  refine ⟨g1, g3, g4, ?_, ?_, ?_, ?_, ?_⟩
  · intro v hv
    rw [g2]
    by_cases hve : v = e.1
    · subst hve; rw [update_self]; omega
    · rw [hpo v hv hve]; have := h.lt v hv; omega
  · intro X hX
    rw [g9]
    by_cases hx : X C.n = X (p e.2)
    · rw [if_pos hx]; exact h.least X (hproper X hX hx)
    · rw [if_neg hx]; omega
  · intro X hX hval
    rw [g9] at hval
    by_cases hx : X C.n = X (p e.2)
    · rw [if_pos hx, Nat.add_zero] at hval
      obtain ⟨s1, s2⟩ := h.sound X (hproper X hX hx) hval
      have heq : ∀ v, v < A.n → X (p v) = X (update p e.1 C.n v) := by
        intro v hv
        by_cases hve : v = e.1
        · subst hve; rw [update_self, hx, hpe]
        · rw [hpo v hv hve]
      exact ⟨s1.congr heq, by rw [← s2]; exact (cutValue_congr heq).symm⟩
    · rw [if_neg hx] at hval
      have h0 : cutValue C.n C.toGraph.wt X = 0 := by omega
      have hnp : ¬ ProperCut C.n X := fun hp => by have := h.least X hp; omega
      have hcv : ∀ v, v < A.n → v ≠ e.1 → X (update p e.1 C.n v) = X (p e.2) := by
        intro v hv hve
        rw [hpo v hv hve]
        exact hcon X hnp _ _ (h.lt v hv) hq
      have hce : X (update p e.1 C.n e.1) = X C.n := by rw [update_self]
      have hsing : cutValue A.n A.wt (fun v => X (update p e.1 C.n v)) = c := by
        have hs := hA.cut_singleton he1
        rw [deg_single hee] at hs
        cases hXn : X C.n
        · have hXq : X (p e.2) = true := by cases h' : X (p e.2); exact absurd (hXn.trans h'.symm) hx; rfl
          rw [← cutValue_compl hA.wt_symm, ← hs]
          refine cutValue_congr fun u hu => ?_
          by_cases hue : u = e.1
          · subst hue; rw [hce, hXn]; simp
          · rw [hcv u hu hue, hXq]; simp [hue]
        · have hXq : X (p e.2) = false := by cases h' : X (p e.2); rfl; exact absurd (hXn.trans h'.symm) hx
          rw [← hs]
          refine cutValue_congr fun u hu => ?_
          by_cases hue : u = e.1
          · subst hue; rw [hce, hXn]; simp
          · rw [hcv u hu hue, hXq]; simp [hue]
      refine ⟨?_, hsing⟩
      have h2 := hcv e.2 ht hne
      cases hXn : X C.n
      · have hXq : X (p e.2) = true := by cases h' : X (p e.2); exact absurd (hXn.trans h'.symm) hx; rfl
        exact ⟨⟨e.2, ht, h2.trans hXq⟩, ⟨e.1, he1, hce.trans hXn⟩⟩
      · have hXq : X (p e.2) = false := by cases h' : X (p e.2); rfl; exact absurd (hXn.trans h'.symm) hx
        exact ⟨⟨e.1, he1, hce.trans hXn⟩, ⟨e.2, ht, h2.trans hXq⟩⟩
  · intro S hS hv hor
    rcases hor with hQS | hsame
    · obtain ⟨X, x1, x2⟩ := h.complete S hS hv hQS
      refine ⟨update X C.n (S e.1), ?_, ?_⟩
      · rw [g9, update_self, update_of_ne (by omega), x2 e.2 ht, if_pos (hQ S hQS), Nat.add_zero, ← x1]
        exact cutValue_congr fun u hu => update_of_ne (by omega) _ _
      · intro v hv'
        by_cases hve : v = e.1
        · subst hve; rw [update_self, update_self]
        · have := h.lt v hv'
          rw [hpo v hv' hve, update_of_ne (by omega)]
          exact x2 v hv'
    · refine ⟨fun x => if x = C.n then S e.1 else S e.2, ?_, ?_⟩
      · have hne' : S e.1 ≠ S e.2 := by
          intro heq
          have hall : ∀ u, u < A.n → S u = S e.2 := by
            intro u hu
            by_cases hue : u = e.1
            · rw [hue]; exact heq
            · exact hsame u e.2 hu ht hue hne
          obtain ⟨⟨a, ha, ha'⟩, ⟨b, hb, hb'⟩⟩ := hS
          rw [hall a ha] at ha'
          rw [hall b hb, ha'] at hb'
          cases hb'
        rw [g9, if_pos rfl, if_neg (show p e.2 ≠ C.n by omega), if_neg hne']
        have : cutValue C.n C.toGraph.wt (fun x => if x = C.n then S e.1 else S e.2) = 0 := by
          rw [cutValue_congr (T := fun _ => S e.2) (fun u hu => if_neg (by omega))]
          unfold cutValue
          refine Finset.sum_eq_zero fun u _ => Finset.sum_eq_zero fun v _ => ?_
          cases S e.2 <;> simp
        omega
      · intro v hv'
        by_cases hve : v = e.1
        · subst hve; rw [update_self]; simp
        · have := h.lt v hv'
          rw [hpo v hv' hve]
          simp only
          rw [if_neg (by omega)]
          exact hsame e.2 v ht hv' hne hve
  · have hnew : ∀ (b : Bool), cutValue C'.n C'.toGraph.wt (fun x => if x = C.n then b else !b) = c := by
      intro b
      rw [g9]
      simp only [if_true]
      rw [if_neg (show p e.2 ≠ C.n by omega), if_neg (by cases b <;> simp)]
      have : cutValue C.n C.toGraph.wt (fun x => if x = C.n then b else !b) = 0 := by
        rw [cutValue_congr (T := fun _ => !b) (fun u hu => if_neg (by omega))]
        unfold cutValue
        refine Finset.sum_eq_zero fun u _ => Finset.sum_eq_zero fun v _ => ?_
        cases b <;> simp
      omega
    intro x y hx hy hxy
    rw [g2] at hx hy
    by_cases hxn : x = C.n
    · subst hxn
      exact ⟨_, by simp, by simp [Ne.symm hxy], hnew true⟩
    · by_cases hyn : y = C.n
      · subst hyn
        exact ⟨_, by simp [hxn], by simp, hnew false⟩
      · obtain ⟨X, x1, x2, x3⟩ := h.separating x y (by omega) (by omega) hxy
        refine ⟨update X C.n (X (p e.2)), by rw [update_of_ne hxn]; exact x1, by rw [update_of_ne hyn]; exact x2, ?_⟩
        rw [g9, update_self, update_of_ne (show p e.2 ≠ C.n by omega), if_pos rfl, Nat.add_zero, ← x3]
        exact cutValue_congr fun u hu => update_of_ne (by omega) _ _

end Cactus
end VieCut
