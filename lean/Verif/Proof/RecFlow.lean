import Verif.Proof.STCactusFlow
import Verif.Proof.CactusPieces
import Verif.Model.RecursiveCactus

/-!
# The flow of the recursion: either it shows that no minimum cut separates its ends, or its components are the classes of vertices that
no minimum cut between the ends separates, in the order of these cuts
-/

namespace VieCut
open Finset MGraph Function Relation

namespace STCactus
open PushRelabel

/-- A set that no residual edge leaves is a minimum cut between source and sink. -/
theorem closed_cut_sides {g : MGraph} (hg : g.Consistent) {s t c : Nat} (hs : s < g.n) (ht : t < g.n) (hst : s ≠ t) {f : Nat → Nat → Int} {x : Nat → Int}
    (h : MaxFlow g s t c f x) (hmin : ∀ X, ProperCut g.n X → 0 < cutValue g.n g.toGraph.wt X) {X : Nat → Bool} (hX : ProperCut g.n X)
    (hcl : ∀ v, X v = true → ∀ u, X u = false → ¬ REdge g f v u) : cutValue g.n g.toGraph.wt X = c ∧ X s = true ∧ X t = false := by
  have hle := hmin X hX
  have hc := cfg_ok hg hs ht hst
  by_cases hXs : X s = true
  · have e := flow_eq_cut hc (f := f) (x := x) h.pre hXs hcl
    rw [show (cfg g s t).g = g from rfl, sum_outside h ht hXs] at e
    split at e
    · have : cutValue g.n g.toGraph.wt X = 0 := by exact_mod_cast e.symm
      omega
    · rename_i hXt
      exact ⟨by exact_mod_cast e.symm, hXs, by simpa using hXt⟩
  · -- nothing flows out of a set without the source
    have e := set_flow hg h.pre (fun v => X v = true) hXs
    have hout : ∑ u ∈ (range g.n).filter (fun v => X v = true), ∑ v ∈ (range g.n).filter (fun v => ¬ X v = true), net g f v u =
        - (cutValue g.n g.toGraph.wt X : Int) := by
      rw [cut_as_net, Finset.sum_comm, ← Finset.sum_neg_distrib]
      refine Finset.sum_congr rfl fun v hv => ?_
      rw [← Finset.sum_neg_distrib]
      refine Finset.sum_congr ?_ fun u hu => ?_
      · refine Finset.filter_congr fun a _ => ?_
        simp
      · rw [Finset.mem_filter, Finset.mem_range] at hv hu
        rw [h.pre.anti v u hv.1 hu.1]
        congr 1
        refine net_saturated hu.1 (fun e he ht hlt => ?_) (fun e he => h.pre.cap u e hu.1 he)
        exact hcl u (by simpa using hu.2) v (by simpa using hv.2) ⟨hu.1, e, he, ht, hlt⟩
    rw [hout] at e
    have hnn : 0 ≤ ∑ v ∈ (range g.n).filter (fun v => X v = true), x v := Finset.sum_nonneg fun v _ => h.pre.nonneg v
    have : (cutValue g.n g.toGraph.wt X : Int) = 0 := by omega
    have : cutValue g.n g.toGraph.wt X = 0 := by exact_mod_cast this
    omega

end STCactus

namespace RecCactus
open STCactus PushRelabel

/-- The classes of vertices that no cut of value `c` between `s` and `t` separates, in the order of these cuts. -/
structure STClasses (G : MGraph) (lab : Nat → Nat) (k s t c : Nat) : Prop where
  lt : ∀ u, u < G.n → lab u < k
  onto : ∀ p, p < k → ∃ u, u < G.n ∧ lab u = p
  src : s < G.n
  sink : t < G.n
  first : lab s = 0
  last : lab t + 1 = k
  two : 2 ≤ k
  pre : ∀ i, 0 < i → i < k → G.cv (fun v => decide (lab v < i)) = c
  same : ∀ S : Nat → Bool, G.cv S = c → S s ≠ S t → ∀ u v, u < G.n → v < G.n → lab u = lab v → S u = S v

theorem flowClasses_spec {E : Nat → Prop} {G : MGraph} {c : Nat} (hp : Piece E G c) (hc : 0 < c) {V : Env} {K : Nat} (hL : V.P.Lawful G.n K)
    (hK : 2 * G.n ≤ K) {s t : Nat} (hs : s < G.n) (ht : t < G.n) (hst : s ≠ t) {q : Int × (Nat → Nat) × Nat × List Nat}
    (hq : flowClasses V G s t = some q) :
    (q.1 > c → ∀ X, G.cv X = c → X s = X t) ∧
    (¬ q.1 > c → STClasses G q.2.1 q.2.2.1 s t c ∧
      ∀ i, i < q.2.2.1 → q.2.2.2.getD i 0 = ((range G.n).filter fun v => q.2.1 v = i).card) := by
  have hg := hp.consistent
  unfold flowClasses at hq
  dsimp only at hq
  obtain ⟨⟨st, b⟩, hr, hq⟩ := Option.bind_eq_some_iff.1 hq
  obtain ⟨⟨label, count, sizes⟩, hscc, rfl⟩ := Option.map_eq_some_iff.1 hq
  dsimp only at hscc ⊢
  have hcf : CfgOk { g := G, ts := [s, t], src := s } := ⟨hg, by simp [hst], by simp, by simp [hs, ht], by simp, by simp, fun _ _ => rfl⟩
  have hK' : ∀ d, d ≤ 2 * G.n → qkey false d ≤ K := fun d hd => by unfold qkey; simp; omega
  have hf := mainLoop_final hcf hK' V.trigger _ _ _ (PushRelabel.start_inv hcf hL hK') hr
  have hb : b = false := by
    cases b with
    | false => rfl
    | true => exact absurd (hf.limit rfl).1 (by simp)
  subst hb
  have hcompl : ∀ X : Nat → Bool, G.cv (fun v => !X v) = G.cv X :=
    fun X => cutValue_compl (fun u v => (consistent_iff.1 hg).wf.wt_symm u v) X
  have hsinks : ∀ S : Nat → Bool, S t = false → ∀ t' ∈ [s, t], t' ≠ s → S t' = false := by
    intro S hSt t' ht' hne
    have : t' = s ∨ t' = t := by simpa using ht'
    rcases this with rfl | rfl
    · exact absurd rfl hne
    · exact hSt
  obtain ⟨c1, c2, _⟩ := final_cut hcf hf
  have hval : ((([s, t] : List Nat).filter fun t' => t' != s).map st.excess).sum = st.excess t := by
    have : (t != s) = true := by simpa using Ne.symm hst
    simp [this]
  have h3 : st.excess t = (G.cv (fun v => (sourceSet V.P { g := G, ts := [s, t], src := s } st).contains v) : Nat) := hval.symm.trans c2
  set S0 : Nat → Bool := fun v => (sourceSet V.P { g := G, ts := [s, t], src := s } st).contains v with hS0
  have hmin : ∀ S : Nat → Bool, S s = true → S t = false → G.cv S0 ≤ G.cv S := fun S h1 h2 => c1.min S h1 (hsinks S h2)
  constructor
  · intro hgt X hX
    by_contra hne
    rw [h3] at hgt
    cases h1 : X s with
    | true =>
      have h2 : X t = false := by rw [h1] at hne; simpa using Ne.symm hne
      have := hmin X h1 h2
      omega
    | false =>
      have h2 : X t = true := by rw [h1] at hne; simpa using Ne.symm hne
      have := hmin (fun v => !X v) (by simp [h1]) (by simp [h2])
      rw [hcompl] at this
      omega
  · intro hle
    have hS0c : G.cv S0 = c := by
      have := hp.least S0 ⟨⟨s, hs, c1.source⟩, ⟨t, ht, c1.sinks t (by simp) (Ne.symm hst)⟩⟩
      rw [h3] at hle
      exact le_antisymm (by exact_mod_cast not_lt.1 hle) this
    have hM : MaxFlow G s t c st.flow st.excess :=
      ⟨hf.inv.pre, fun v hv hvs hvt => hf.rest rfl v hv (by simp [hvs, hvt]), by rw [h3, hS0c]⟩
    obtain ⟨label', count', sizes', k1, k2, k3, k4⟩ :=
      C21_scc_residual (storeFlow G st.flow 0) (consistent_iff.2 (storeFlow_valid (consistent_iff.1 hg) st.flow 0)) (some 0)
    rw [hscc] at k1
    simp only [Option.some.injEq, Prod.mk.injEq] at k1
    obtain ⟨rfl, rfl, rfl⟩ := k1
    have hn : (storeFlow G st.flow 0).n = G.n := rfl
    rw [hn] at k2 k4
    dsimp only at k2
    have hreach : ∀ u v, u < G.n → v < G.n → RReach G st.flow u v → (label v).getD 0 ≤ (label u).getD 0 := by
      intro u v hu hv hr
      obtain ⟨a, ha, -⟩ := k2.total u hu
      obtain ⟨b, hb, -⟩ := k2.total v hv
      rw [ha, hb]
      exact k2.order u v a b hu hv ha hb ((reach_iff hg hM.pre hu).2 hr)
    have hlab : ∀ u v, u < G.n → v < G.n → (label u).getD 0 = (label v).getD 0 → RReach G st.flow u v ∧ RReach G st.flow v u := by
      intro u v hu hv he
      obtain ⟨a, ha, -⟩ := k2.total u hu
      obtain ⟨b, hb, -⟩ := k2.total v hv
      have := k2.classes u v hu hv
      unfold Mutual at this
      rw [reach_iff hg hM.pre hu, reach_iff hg hM.pre hv, ha, hb] at this
      rw [ha, hb] at he
      exact this.1 (by simpa using he)
    have hlt : ∀ u, u < G.n → (label u).getD 0 < count := by
      intro u hu
      obtain ⟨a, ha, hlt⟩ := k2.total u hu
      rw [ha]; exact hlt
    have honto : ∀ p, p < count → ∃ u, u < G.n ∧ (label u).getD 0 = p := by
      intro p hp
      obtain ⟨u, hu, e⟩ := k2.onto p hp
      exact ⟨u, hu, by rw [e]; rfl⟩
    -- prefixes are closed
    have hpre : ∀ i, 0 < i → i < count → G.cv (fun v => decide ((label v).getD 0 < i)) = c ∧ (label s).getD 0 < i ∧ i ≤ (label t).getD 0 := by
      intro i h0 hi
      obtain ⟨a, ha, ha'⟩ := honto 0 (by omega)
      obtain ⟨b, hb, hb'⟩ := honto i hi
      -- vertices outside of the graph are left out
      have hcut : G.cv (fun v => decide (v < G.n ∧ (label v).getD 0 < i)) = G.cv (fun v => decide ((label v).getD 0 < i)) := by
        unfold MGraph.cv cutValue
        refine Finset.sum_congr rfl fun u hu => Finset.sum_congr rfl fun v hv => ?_
        simp only [mem_range.1 hu, mem_range.1 hv, true_and]
      obtain ⟨r1, r2, r3⟩ := closed_cut_sides hg hs ht hst hM (fun X hX => lt_of_lt_of_le hc (hp.least X hX))
        (X := fun v => decide (v < G.n ∧ (label v).getD 0 < i)) ⟨⟨a, ha, by simp [ha, ha', h0]⟩, ⟨b, hb, by simp [hb']⟩⟩ (by
          intro v hv u hu hedge
          have hv := of_decide_eq_true hv
          have hu := of_decide_eq_false hu
          have hun := rreach_lt hg hv.1 (ReflTransGen.single hedge)
          have := hreach v u hv.1 hun (ReflTransGen.single hedge)
          exact hu ⟨hun, by omega⟩)
      refine ⟨hcut ▸ r1, ?_, ?_⟩
      · exact (of_decide_eq_true r2).2
      · have := of_decide_eq_false r3
        simp only [ht, true_and, not_lt] at this
        exact this
    have hsame : ∀ S : Nat → Bool, G.cv S = c → S s = true → S t = false → ∀ u v, u < G.n → v < G.n →
        (label u).getD 0 = (label v).getD 0 → S u = S v := by
      intro S hS hSs hSt
      have hcl := min_closed hg hs ht hst hM hSs hSt hS
      have main : ∀ u v, u < G.n → RReach G st.flow u v → S u = true → S v = true := by
        intro u v hu hr hSu
        have : S v = true ∧ v < G.n := by
          induction hr with
          | refl => exact ⟨hSu, hu⟩
          | tail hr' hstep ih =>
            rename_i b d
            have hd := rreach_lt hg ih.2 (ReflTransGen.single hstep)
            refine ⟨?_, hd⟩
            cases hSd : S d with
            | true => rfl
            | false => exact absurd hstep (hcl b d hd ih.1 hSd)
        exact this.1
      intro u v hu hv he
      obtain ⟨r1, r2⟩ := hlab u v hu hv he
      rw [Bool.eq_iff_iff]
      exact ⟨main u v hu r1, main v u hv r2⟩
    have htwo : 2 ≤ count := by
      by_contra hn2
      have hall : (label s).getD 0 = (label t).getD 0 := by
        have := hlt s hs
        have := hlt t ht
        omega
      have h1 : S0 s = true := c1.source
      have h2 : S0 t = false := c1.sinks t (by simp) (Ne.symm hst)
      have := hsame S0 hS0c h1 h2 s t hs ht hall
      rw [h1, h2] at this
      simp at this
    refine ⟨⟨hlt, honto, hs, ht, ?_, ?_, htwo, fun i h0 hi => (hpre i h0 hi).1, ?_⟩, ?_⟩
    · have := (hpre 1 (by omega) (by omega)).2.1
      omega
    · have := (hpre (count - 1) (by omega) (by omega)).2.2
      have := hlt t ht
      omega
    · intro S hS hne u v hu hv he
      cases h1 : S s with
      | true => exact hsame S hS h1 (by rw [h1] at hne; simpa using Ne.symm hne) u v hu hv he
      | false =>
        have h2 : S t = true := by rw [h1] at hne; simpa using Ne.symm hne
        have := hsame (fun v => !S v) (by rw [hcompl]; exact hS) (by simp [h1]) (by simp [h2]) u v hu hv he
        simpa using this
    · intro i hi
      rw [k4 i hi]
      congr 1
      refine Finset.filter_congr fun v hv => ?_
      obtain ⟨a, ha, -⟩ := k2.total v (mem_range.1 hv)
      rw [ha]
      simp

end RecCactus
end VieCut
