import Verif.Proof.STCactusSpec
import Verif.Proof.PushRelabelCut
import Verif.Props.Structure

/-!
# A maximum flow whose residual components are the classes of vertices that no minimum cut separates
-/

namespace VieCut
open Finset MGraph Function Relation

namespace STCactus
open PushRelabel

/-! ### The stored flow -/

theorem storeFlow_edge (g : MGraph) (f : Nat → Nat → Int) (pid u e : Nat) :
    ((storeFlow g f pid).edge u e).target = (g.edge u e).target ∧ ((storeFlow g f pid).edge u e).weight = (g.edge u e).weight ∧
    ((storeFlow g f pid).edge u e).rev = (g.edge u e).rev := by
  unfold storeFlow
  dsimp only
  split <;> exact ⟨rfl, rfl, rfl⟩

theorem storeFlow_toGraph (g : MGraph) (f : Nat → Nat → Int) (pid : Nat) : (storeFlow g f pid).toGraph = g.toGraph := by
  unfold toGraph
  congr 1
  refine List.map_congr_left fun u _ => List.map_congr_left fun e _ => ?_
  obtain ⟨h1, h2, -⟩ := storeFlow_edge g f pid u e
  rw [h1, h2]

theorem storeFlow_valid {g : MGraph} (hg : Valid g) (f : Nat → Nat → Int) (pid : Nat) : Valid (storeFlow g f pid) := by
  rw [valid_iff] at hg ⊢
  obtain ⟨h1, h2, h3⟩ := hg
  refine ⟨fun u e hu he => ?_, fun u hu => ?_, h3⟩
  · obtain ⟨e1, e2, e3⟩ := storeFlow_edge g f pid u e
    rw [e1, e2, e3]
    obtain ⟨q1, q2, q3⟩ := storeFlow_edge g f pid (g.edge u e).target (g.edge u e).rev
    rw [q1, q2, q3]
    exact h1 u e hu he
  · show g.wdeg u = _
    rw [h2 u hu]
    exact (rowSum_congr (g := g) (g' := storeFlow g f pid) rfl (fun e _ => ⟨(storeFlow_edge g f pid u e).1, (storeFlow_edge g f pid u e).2.1⟩) _).symm

/-- The residual edges of the stored flow. -/
theorem residual_iff {g : MGraph} {f : Nat → Nat → Int} {pid src : Nat} {x : Nat → Int} (h : Preflow g src f x) {u v : Nat} (hu : u < g.n) :
    (storeFlow g f pid).Residual (fun u e => if ((storeFlow g f pid).edge u e).pid = pid then ((storeFlow g f pid).edge u e).flow else 0) u v
      ↔ REdge g f u v := by
  have hst : ∀ e, e < g.len u → (storeFlow g f pid).edge u e = { g.edge u e with flow := f u e, pid := pid } := by
    intro e he
    unfold storeFlow
    exact if_pos ⟨hu, he⟩
  constructor
  · rintro ⟨e, he, ht, hne⟩
    have he' : e < g.len u := he
    dsimp only at hne
    rw [hst e he'] at ht hne
    simp only [if_true] at hne
    exact ⟨hu, e, he', ht, lt_of_le_of_ne (h.cap u e hu he') hne⟩
  · rintro ⟨-, e, he, ht, hlt⟩
    refine ⟨e, he, ?_, ?_⟩
    · rw [hst e he]; exact ht
    · dsimp only
      rw [hst e he]
      simp only [if_true]
      exact ne_of_lt hlt

theorem reach_iff {g : MGraph} (hg : g.Consistent) {f : Nat → Nat → Int} {pid src : Nat} {x : Nat → Int} (h : Preflow g src f x) {u v : Nat}
    (hu : u < g.n) :
    ReflTransGen ((storeFlow g f pid).Residual (fun u e => if ((storeFlow g f pid).edge u e).pid = pid then ((storeFlow g f pid).edge u e).flow else 0))
      u v ↔ RReach g f u v := by
  constructor
  · intro hr
    have : RReach g f u v ∧ v < g.n := by
      induction hr with
      | refl => exact ⟨ReflTransGen.refl, hu⟩
      | tail _ hs ih =>
        have hs' := (residual_iff h ih.2).1 hs
        exact ⟨ih.1.tail hs', rreach_lt hg ih.2 (ReflTransGen.single hs')⟩
    exact this.1
  · intro hr
    have : ReflTransGen ((storeFlow g f pid).Residual (fun u e => if ((storeFlow g f pid).edge u e).pid = pid then
        ((storeFlow g f pid).edge u e).flow else 0)) u v ∧ v < g.n := by
      induction hr with
      | refl => exact ⟨ReflTransGen.refl, hu⟩
      | tail _ hs ih =>
        exact ⟨ih.1.tail ((residual_iff h ih.2).2 hs), rreach_lt hg ih.2 (ReflTransGen.single hs)⟩
    exact this.1

/-! ### Closed sets and minimum cuts -/

/-- A maximum flow between `s` and `t`: nothing is left at the other vertices, and the value is that of the minimum cut. -/
structure MaxFlow (g : MGraph) (s t c : Nat) (f : Nat → Nat → Int) (x : Nat → Int) : Prop where
  pre : Preflow g s f x
  rest : ∀ v, v < g.n → v ≠ s → v ≠ t → x v = 0
  value : x t = c

/-- The configuration of the flow computation. -/
def cfg (g : MGraph) (s t : Nat) : Cfg := { g := g, ts := [s, t], src := s, limited := false, depth := 0, sink := t, limit := 0 }

theorem cfg_ok {g : MGraph} (hg : g.Consistent) {s t : Nat} (hs : s < g.n) (ht : t < g.n) (hst : s ≠ t) : CfgOk (cfg g s t) :=
  ⟨hg, by simp [cfg, hst], by simp [cfg], by simp [cfg, hs, ht], fun h => by simp [cfg] at h, fun h => by simp [cfg] at h, fun _ _ => rfl⟩

theorem sum_outside {g : MGraph} {s t c : Nat} {f : Nat → Nat → Int} {x : Nat → Int} (h : MaxFlow g s t c f x) (ht : t < g.n) {S : Nat → Bool}
    (hs : S s = true) : ∑ v ∈ (range g.n).filter (fun u => ¬ S u = true), x v = if S t = true then 0 else (c : Int) := by
  by_cases hSt : S t = true
  · rw [if_pos hSt]
    refine Finset.sum_eq_zero fun v hv => ?_
    rw [Finset.mem_filter, Finset.mem_range] at hv
    refine h.rest v hv.1 ?_ ?_
    · rintro rfl; exact hv.2 hs
    · rintro rfl; exact hv.2 hSt
  · rw [if_neg hSt, Finset.sum_eq_single t]
    · exact h.value
    · intro v hv hvt
      rw [Finset.mem_filter, Finset.mem_range] at hv
      refine h.rest v hv.1 ?_ hvt
      rintro rfl; exact hv.2 hs
    · intro hh
      exact absurd (Finset.mem_filter.2 ⟨mem_range.2 ht, hSt⟩) hh

/-- A closed set is a minimum cut. -/
theorem closed_cut {g : MGraph} (hg : g.Consistent) {s t c : Nat} (hs : s < g.n) (ht : t < g.n) (hst : s ≠ t) {f : Nat → Nat → Int} {x : Nat → Int}
    (h : MaxFlow g s t c f x) (hmin : IsMinCut g.n g.toGraph.wt c) {X : Nat → Bool} (hX : ProperCut g.n X)
    (hcl : ∀ v, X v = true → ∀ u, X u = false → ¬ REdge g f v u) : cutValue g.n g.toGraph.wt X = c := by
  have hle := hmin.2 X hX
  have hc := cfg_ok hg hs ht hst
  by_cases hXs : X s = true
  · have e := flow_eq_cut hc (f := f) (x := x) h.pre hXs hcl
    rw [show (cfg g s t).g = g from rfl, sum_outside h ht hXs] at e
    split at e
    · have : cutValue g.n g.toGraph.wt X = 0 := by exact_mod_cast e.symm
      omega
    · exact_mod_cast e.symm
  · -- nothing flows out of a set without the source
    have e := set_flow hg h.pre (fun v => X v = true) hXs
    have hout : ∑ u ∈ (range g.n).filter (fun v => X v = true), ∑ v ∈ (range g.n).filter (fun v => ¬ X v = true), net g f v u =
        - (cutValue g.n g.toGraph.wt X : Int) := by
      rw [cut_as_net, Finset.sum_comm, ← Finset.sum_neg_distrib]
      refine Finset.sum_congr rfl fun v hv => ?_
      rw [← Finset.sum_neg_distrib]
      refine Finset.sum_congr ?_ fun u hu => ?_
      · refine Finset.filter_congr fun a _ => ?_
        simp
      · rw [Finset.mem_filter, Finset.mem_range] at hv hu
        rw [h.pre.anti v u hv.1 hu.1]
        congr 1
        refine net_saturated hu.1 (fun e he ht hlt => ?_) (fun e he => h.pre.cap u e hu.1 he)
        exact hcl u (by simpa using hu.2) v (by simpa using hv.2) ⟨hu.1, e, he, ht, hlt⟩
    rw [hout] at e
    have hnn : 0 ≤ ∑ v ∈ (range g.n).filter (fun v => X v = true), x v := Finset.sum_nonneg fun v _ => h.pre.nonneg v
    have : (cutValue g.n g.toGraph.wt X : Int) = 0 := by omega
    have : cutValue g.n g.toGraph.wt X = 0 := by exact_mod_cast this
    omega

/-- A minimum cut with `s` inside is closed. -/
theorem min_closed {g : MGraph} (hg : g.Consistent) {s t c : Nat} (hs : s < g.n) (ht : t < g.n) (hst : s ≠ t) {f : Nat → Nat → Int} {x : Nat → Int}
    (h : MaxFlow g s t c f x) {S : Nat → Bool} (hSs : S s = true) (hSt : S t = false) (hc : cutValue g.n g.toGraph.wt S = c) :
    ∀ v u, u < g.n → S v = true → S u = false → ¬ REdge g f v u := by
  intro v u hu hv hSu ⟨hvn, e, he, hte, hlt⟩
  have e1 := set_flow hg h.pre (fun u => ¬ S u = true) (by simp [hSs])
  rw [sum_outside h ht hSs, if_neg (by simp [hSt])] at e1
  have e2 := cut_as_net (g := g) g.toGraph.wt S
  rw [hc] at e2
  rw [e2] at e1
  -- all terms are equal
  have hle : ∀ a ∈ (range g.n).filter (fun u => ¬ S u = true), ∀ b ∈ (range g.n).filter (fun v => ¬ ¬ S v = true), net g f b a ≤ (g.toGraph.wt b a : Int) := by
    intro a _ b hb
    rw [Finset.mem_filter, Finset.mem_range] at hb
    exact net_le_wt hb.1 fun e he => h.pre.cap b e hb.1 he
  have h1 := (Finset.sum_eq_sum_iff_of_le (fun a ha => Finset.sum_le_sum fun b hb => hle a ha b hb)).1 e1.symm u
    (Finset.mem_filter.2 ⟨mem_range.2 hu, by simp [hSu]⟩)
  have h2 := (Finset.sum_eq_sum_iff_of_le (fun b hb => hle u (Finset.mem_filter.2 ⟨mem_range.2 hu, by simp [hSu]⟩) b hb)).1 h1 v
    (Finset.mem_filter.2 ⟨mem_range.2 hvn, by simp [hv]⟩)
  -- but one edge is not saturated
  rw [toGraph_wt _ hvn] at h2
  unfold net W rowSum at h2
  rw [Nat.cast_sum] at h2
  dsimp only at h2
  have h3 := (Finset.sum_eq_sum_iff_of_le (fun j hj => by
    split
    · exact_mod_cast h.pre.cap v j hvn (mem_range.1 hj)
    · exact Nat.cast_nonneg _)).1 h2 e (mem_range.2 he)
  rw [if_pos hte, if_pos hte] at h3
  omega

/-- The labels computed from a maximum flow are the classes `findSTCactus` needs. -/
theorem classes_of_flow {g : MGraph} (hg : g.Consistent) {s t c : Nat} (hs : s < g.n) (ht : t < g.n) {f : Nat → Nat → Int} {x : Nat → Int}
    (h : MaxFlow g s t c f x) (hmin : IsMinCut g.n g.toGraph.wt c)
    (hsep : ∀ S, ProperCut g.n S → cutValue g.n g.toGraph.wt S = c → S s ≠ S t) (pid : Nat) :
    ∃ label count sizes, sccMutable (storeFlow g f pid) (some pid) = some (label, count, sizes) ∧
      Classes (storeFlow g f pid) (fun v => (label v).getD 0) count s t c := by
  classical
  have hst : s ≠ t := by
    rintro rfl
    obtain ⟨S, h1, h2⟩ := hmin.1
    exact hsep S h1 h2 rfl
  obtain ⟨label, count, sizes, h1, h2, -, -⟩ := C21_scc_residual (storeFlow g f pid) (consistent_iff.2 (storeFlow_valid (consistent_iff.1 hg) f pid)) (some pid)
  refine ⟨label, count, sizes, h1, ?_⟩
  have hn : (storeFlow g f pid).n = g.n := rfl
  rw [hn] at h2
  have hcompl : ∀ X : Nat → Bool, cutValue g.n g.toGraph.wt (fun v => !X v) = cutValue g.n g.toGraph.wt X :=
    fun X => cutValue_compl (fun u v => (consistent_iff.1 hg).wf.wt_symm u v) X
  have hlab : ∀ u v, u < g.n → v < g.n → ((label u).getD 0 = (label v).getD 0 ↔ RReach g f u v ∧ RReach g f v u) := by
    intro u v hu hv
    obtain ⟨a, ha, -⟩ := h2.total u hu
    obtain ⟨b, hb, -⟩ := h2.total v hv
    have := h2.classes u v hu hv
    unfold Mutual at this
    rw [reach_iff hg h.pre hu, reach_iff hg h.pre hv, ha, hb] at this
    rw [ha, hb, ← this]
    simp
  refine ⟨fun u hu => ?_, fun p hp => ?_, hs, ht, ?_, ?_, ?_, ?_⟩
  · obtain ⟨a, ha, hlt⟩ := h2.total u hu
    rw [ha]; exact hlt
  · obtain ⟨u, hu, e⟩ := h2.onto p hp
    exact ⟨u, hu, by rw [e]; rfl⟩
  · rw [hn, storeFlow_toGraph]; exact hmin
  · rw [hn, storeFlow_toGraph]; exact hsep
  · rw [hn, storeFlow_toGraph]
    -- a set closed under residual edges is a union of classes
    have main : ∀ S : Nat → Bool, ProperCut g.n S → cutValue g.n g.toGraph.wt S = c → S s = true → ∀ u v, u < g.n → v < g.n →
        RReach g f u v → S u = true → S v = true := by
      intro S hS hc hSs u v hu hv hr hSu
      have hSt : S t = false := by
        have := hsep S hS hc
        rw [hSs] at this
        simpa using Ne.symm this
      have hcl := min_closed hg hs ht hst h hSs hSt hc
      have : S v = true ∧ v < g.n := by
        induction hr with
        | refl => exact ⟨hSu, hu⟩
        | tail hr' hstep ih =>
          rename_i b d
          have hb := ih (rreach_lt hg hu hr')
          have hd := rreach_lt hg hb.2 (ReflTransGen.single hstep)
          refine ⟨?_, hd⟩
          cases hSd : S d with
          | true => rfl
          | false => exact absurd hstep (hcl b d hd hb.1 hSd)
      exact this.1
    have both : ∀ S : Nat → Bool, ProperCut g.n S → cutValue g.n g.toGraph.wt S = c → S s = true → ∀ u v, u < g.n → v < g.n →
        (label u).getD 0 = (label v).getD 0 → S u = S v := by
      intro S hS hc hSs u v hu hv he
      obtain ⟨r1, r2⟩ := (hlab u v hu hv).1 he
      rw [Bool.eq_iff_iff]
      exact ⟨main S hS hc hSs u v hu hv r1, main S hS hc hSs v u hv hu r2⟩
    intro S hS hc u v hu hv he
    cases hSs : S s with
    | true => exact both S hS hc hSs u v hu hv he
    | false =>
      have := both (fun v => !S v) (by
        obtain ⟨⟨x, hx, x1⟩, ⟨y, hy, y1⟩⟩ := hS
        exact ⟨⟨y, hy, by simp [y1]⟩, ⟨x, hx, by simp [x1]⟩⟩) (by rw [hcompl]; exact hc) (by simp [hSs]) u v hu hv he
      simpa using this
  · rw [hn, storeFlow_toGraph]
    intro u v hu hv hne
    -- the vertices reachable from one of them
    have main : ∀ a b, a < g.n → b < g.n → ¬ RReach g f a b → cutValue g.n g.toGraph.wt (fun w => decide (RReach g f a w)) = c := by
      intro a b ha hb hab
      refine closed_cut hg hs ht hst h hmin ⟨⟨a, ha, decide_eq_true ReflTransGen.refl⟩, ⟨b, hb, decide_eq_false hab⟩⟩ ?_
      intro v hv w hw hvw
      exact (of_decide_eq_false hw) ((of_decide_eq_true hv).tail hvw)
    by_cases huv : RReach g f u v
    · have hvu : ¬ RReach g f v u := fun hh => hne ((hlab u v hu hv).2 ⟨huv, hh⟩)
      refine ⟨fun w => !decide (RReach g f v w), by simp [hvu], by simp [ReflTransGen.refl], ?_⟩
      rw [hcompl]
      exact main v u hv hu hvu
    · exact ⟨fun w => decide (RReach g f u w), by simp [ReflTransGen.refl], by simp [huv], main u v hu hv huv⟩

/-- The flow computation with a limit above the minimum cut ends with a maximum flow. -/
theorem maxFlow_of_main {g : MGraph} (hg : g.Consistent) {s t c limit depth : Nat} (hs : s < g.n) (ht : t < g.n)
    (hmin : IsMinCut g.n g.toGraph.wt c) (hsep : ∀ S, ProperCut g.n S → cutValue g.n g.toGraph.wt S = c → S s ≠ S t) (hlim : c < limit)
    (hd : depth ≤ g.n) (P : PQ) (K : Nat) (hL : P.Lawful g.n K) (hK : 4294967296 ≤ K) (trigger : Nat → Bool) :
    ∃ (r : PR P.σ × Bool) (N : Nat), (∀ fuel, N ≤ fuel → 
      mainLoop P { g := g, ts := [s, t], src := s, limited := true, depth := depth, sink := t, limit := limit } trigger fuel
        (globalRelabel P { g := g, ts := [s, t], src := s, limited := true, depth := depth, sink := t, limit := limit } true
          (init P { g := g, ts := [s, t], src := s, limited := true, depth := depth, sink := t, limit := limit })) = some r) ∧
      MaxFlow g s t c r.1.flow r.1.excess := by
  have hst : s ≠ t := by
    rintro rfl
    obtain ⟨S, h1, h2⟩ := hmin.1
    exact hsep S h1 h2 rfl
  have hcomplg : ∀ X : Nat → Bool, cutValue g.n g.toGraph.wt (fun v => !X v) = cutValue g.n g.toGraph.wt X :=
    fun X => cutValue_compl (fun u v => (consistent_iff.1 hg).wf.wt_symm u v) X
  -- a minimum cut with `s` inside
  obtain ⟨S0, z1, z2, z3⟩ : ∃ S : Nat → Bool, S s = true ∧ S t = false ∧ cutValue g.n g.toGraph.wt S = c := by
    obtain ⟨S, h1, h2⟩ := hmin.1
    have := hsep S h1 h2
    cases hSs : S s with
    | true => exact ⟨S, hSs, by rw [hSs] at this; simpa using Ne.symm this, h2⟩
    | false => exact ⟨fun v => !S v, by simp [hSs], by rw [hSs] at this; simpa using Ne.symm this, by rw [hcomplg]; exact h2⟩
  have hc : CfgOk { g := g, ts := [s, t], src := s, limited := true, depth := depth, sink := t, limit := limit } :=
    ⟨hg, by simp [hst], by simp, by simp [hs, ht], fun _ => ⟨by simp, Ne.symm hst⟩, fun _ => hd, fun _ _ => rfl⟩
  have hK' : ∀ d, d ≤ 2 * g.n → qkey true d ≤ K := fun d hd => by unfold qkey; simp; omega
  have h0 := PushRelabel.start_inv hc hL hK'
  obtain ⟨N, r, hr⟩ := mainLoop_terminates hc hK' trigger _ h0
  have hf := mainLoop_final hc hK' trigger N _ r h0 hr
  refine ⟨r, N, fun fuel hfu => mainLoop_mono trigger N _ _ hr fuel hfu, ?_⟩
  obtain ⟨st, b⟩ := r
  have hsinks : ∀ S : Nat → Bool, S t = false → ∀ t' ∈ ({ g := g, ts := [s, t], src := s, limited := true, depth := depth, sink := t, limit := limit } : Cfg).ts,
      t' ≠ s → S t' = false := by
    intro S hSt t' ht' hne
    have : t' = s ∨ t' = t := by simpa using ht'
    rcases this with rfl | rfl
    · exact absurd rfl hne
    · exact hSt
  cases b with
  | true =>
    exfalso
    have := final_limit hc hf (S := S0) z1 (hsinks S0 z2)
    have h2 : (limit : Int) ≤ (cutValue g.n g.toGraph.wt S0 : Nat) := this
    rw [z3] at h2
    omega
  | false =>
    obtain ⟨c1, c2, c3, c4, -⟩ := final_cut hc hf
    refine ⟨hf.inv.pre, fun v hv hvs hvt => hf.rest rfl v hv (by simp [hvs, hvt]), ?_⟩
    have hval : ((([s, t] : List Nat).filter fun t' => t' != s).map st.excess).sum = st.excess t := by
      have : (t != s) = true := by simpa using Ne.symm hst
      simp [this]
    have h3 : st.excess t = (cutValue g.n g.toGraph.wt (fun v => (sourceSet P _ st).contains v) : Nat) := hval.symm.trans c2
    have h4 := c1.min S0 z1 (hsinks S0 z2)
    have h5 := hmin.2 (fun v => (sourceSet P { g := g, ts := [s, t], src := s, limited := true, depth := depth, sink := t, limit := limit } st).contains v)
      ⟨⟨s, hs, c1.source⟩, ⟨t, ht, c1.sinks t (by simp) (Ne.symm hst)⟩⟩
    have h6 : cutValue g.n g.toGraph.wt (fun v => (sourceSet P { g := g, ts := [s, t], src := s, limited := true, depth := depth, sink := t, limit := limit } st).contains v) = c := by
      have h4' : cutValue g.n g.toGraph.wt (fun v => (sourceSet P { g := g, ts := [s, t], src := s, limited := true, depth := depth, sink := t, limit := limit } st).contains v)
        ≤ cutValue g.n g.toGraph.wt S0 := h4
      omega
    rw [h6] at h3
    exact h3

/-- Flow and rebuild. -/
theorem flowThenRebuild_spec {g : MGraph} (hg : g.Consistent) (hf : g.Fresh) (ho : g.origNodes = g.n) {s t c limit depth : Nat} (hs : s < g.n)
    (ht : t < g.n) (hmin : IsMinCut g.n g.toGraph.wt c) (hsep : ∀ S, ProperCut g.n S → cutValue g.n g.toGraph.wt S = c → S s ≠ S t)
    (hlim : c < limit) (hc : 2 * (c + 1) < 2 ^ 32) (hd : depth ≤ g.n) (P : PQ) (K : Nat) (hL : P.Lawful g.n K) (hK : 4294967296 ≤ K)
    (trigger : Nat → Bool) (pid : Nat) :
    ∃ R N, (∀ fuel, N ≤ fuel → flowThenRebuild P trigger depth fuel pid g s t limit c = some R) ∧
      RepresentsMinCuts g.toGraph R R.pos c ∧ ListsMatch R g.n ∧ 2 ≤ R.n ∧ R.lastNode = R.n ∧ R.contSize = R.n ∧ R.posSize = g.n := by
  obtain ⟨r, N, h1, h2⟩ := maxFlow_of_main hg hs ht hmin hsep hlim hd P K hL hK trigger
  obtain ⟨label, count, sizes, h3, h4⟩ := classes_of_flow hg hs ht h2 hmin hsep pid
  have hcl2 := h4.two
  obtain ⟨R, r1, r2, r3, r4, r5, r6, r7⟩ := findSTCactus_spec (storeFlow_valid (consistent_iff.1 hg) r.1.flow pid) (G := storeFlow g r.1.flow pid)
    hf ho h4 hc
  rw [storeFlow_toGraph] at r2
  refine ⟨R, N, fun fuel hfu => ?_, r2, r3, by omega, r5, r6, r7⟩
  unfold flowThenRebuild
  dsimp only
  rw [h1 fuel hfu]
  simp only [Option.bind_some]
  unfold decrementalRebuild
  rw [h3]
  exact r1

end STCactus
end VieCut
