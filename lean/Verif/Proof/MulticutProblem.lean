import Verif.Spec.MulticutProblem
import Verif.Proof.Multicut
import Verif.Proof.MutableContract
import Mathlib.Algebra.BigOperators.Ring.Finset

namespace VieCut
open Finset

/-! ### Quotients -/

theorem wsum_quotient {n k : Nat} {w w' : Nat → Nat → Nat} {φ : Nat → Nat} (hφ : ∀ u, u < n → φ u < k)
    (hw : ∀ p q, p < k → q < k → p ≠ q →
      w' p q = ∑ u ∈ range n, ∑ v ∈ range n, if φ u = p ∧ φ v = q then w u v else 0)
    (a : Nat → Nat → Nat) (ha : ∀ p, a p p = 0) :
    wsum k w' a = wsum n w (fun u v => a (φ u) (φ v)) := by
  unfold wsum
  have h1 : ∀ p ∈ range k, ∀ q ∈ range k, a p q * w' p q
      = ∑ u ∈ range n, ∑ v ∈ range n, if φ u = p ∧ φ v = q then a (φ u) (φ v) * w u v else 0 := by
    intro p hp q hq
    by_cases h : p = q
    · subst h
      rw [ha, Nat.zero_mul]
      symm
      refine Finset.sum_eq_zero fun u _ => Finset.sum_eq_zero fun v _ => ?_
      by_cases huv : φ u = p ∧ φ v = p
      · rw [if_pos huv, huv.1, huv.2, ha, Nat.zero_mul]
      · rw [if_neg huv]
    · rw [hw p q (Finset.mem_range.1 hp) (Finset.mem_range.1 hq) h, Finset.mul_sum]
      refine Finset.sum_congr rfl fun u _ => ?_
      rw [Finset.mul_sum]
      refine Finset.sum_congr rfl fun v _ => ?_
      by_cases huv : φ u = p ∧ φ v = q
      · rw [if_pos huv, if_pos huv, huv.1, huv.2]
      · rw [if_neg huv, if_neg huv, Nat.mul_zero]
  rw [Finset.sum_congr rfl fun p hp => Finset.sum_congr rfl (h1 p hp)]
  calc _ = ∑ p ∈ range k, ∑ u ∈ range n, ∑ v ∈ range n, ∑ q ∈ range k,
          (if φ u = p ∧ φ v = q then a (φ u) (φ v) * w u v else 0) := by
        refine Finset.sum_congr rfl fun p _ => ?_
        rw [Finset.sum_comm]
        refine Finset.sum_congr rfl fun u _ => ?_
        rw [Finset.sum_comm]
    _ = ∑ u ∈ range n, ∑ v ∈ range n, ∑ p ∈ range k, ∑ q ∈ range k,
          (if φ u = p ∧ φ v = q then a (φ u) (φ v) * w u v else 0) := by
        rw [Finset.sum_comm]
        refine Finset.sum_congr rfl fun u _ => ?_
        rw [Finset.sum_comm]
    _ = _ := by
        refine Finset.sum_congr rfl fun u hu => Finset.sum_congr rfl fun v hv => ?_
        rw [Finset.sum_eq_single (φ u), Finset.sum_eq_single (φ v)]
        · simp
        · intro q _ hq; simp [Ne.symm hq]
        · intro h; exact absurd (Finset.mem_range.2 (hφ v (by simpa using hv))) h
        · intro p _ hp
          refine Finset.sum_eq_zero fun q _ => ?_
          simp [Ne.symm hp]
        · intro h; exact absurd (Finset.mem_range.2 (hφ u (by simpa using hu))) h

theorem multicut_quotient {G H : Graph} {φ : Nat → Nat} (hG : G.WF) (hc : IsContraction G H φ) (f : Nat → Nat) :
    multicutValue H.n H.wt f = multicutValue G.n G.wt (fun u => f (φ u)) := by
  have h1 := two_multicut (n := H.n) hc.wf.wt_symm f
  have h2 := two_multicut (n := G.n) hG.wt_symm (fun u => f (φ u))
  have h3 := wsum_quotient hc.lt hc.wt (fun p q => ind (f p ≠ f q)) (fun p => ind_neg (by simp))
  omega

theorem isMinMulticut_unique {n : Nat} {w : Nat → Nat → Nat} {ts : List Nat} {c d : Nat} (h1 : IsMinMulticut n w ts c)
    (h2 : IsMinMulticut n w ts d) : c = d := by
  obtain ⟨⟨f, hf, e1⟩, h1⟩ := h1
  obtain ⟨⟨g, hg, e2⟩, h2⟩ := h2
  have := h1 g hg
  have := h2 f hf
  omega

/-- Contracting safe classes keeps the terminals apart and does not change the optimum. -/
theorem isMinMulticut_contract {G H : Graph} {φ cls : Nat → Nat} {ts : List Nat} (hG : G.WF) (hc : IsContraction G H φ)
    (hts : ∀ t ∈ ts, t < G.n) (hnd : ts.Nodup) (hs : MergeSafe G.n G.wt ts cls)
    (hk : ∀ u v, u < G.n → v < G.n → φ u = φ v → cls u = cls v) :
    (ts.map φ).Nodup ∧ ∀ c, IsMinMulticut G.n G.wt ts c ↔ IsMinMulticut H.n H.wt (ts.map φ) c := by
  have hinj : ∀ s ∈ ts, ∀ t ∈ ts, φ s = φ t → s = t := by
    intro s hs' t ht he
    obtain ⟨f', h1, _, h3⟩ := hs (fun x => x) (fun s _ t _ h => h)
    by_contra hne
    exact h1 s hs' t ht hne (h3 s t (hts s hs') (hts t ht) (hk s t (hts s hs') (hts t ht) he))
  have hdown : ∀ f, Separates ts f → ∃ g, Separates (ts.map φ) g ∧ multicutValue H.n H.wt g ≤ multicutValue G.n G.wt f := by
    intro f hf
    obtain ⟨f', h1, h2, h3⟩ := hs f hf
    classical
    let g : Nat → Nat := fun p => if h : ∃ u, u < G.n ∧ φ u = p then f' h.choose else 0
    have hg : ∀ u, u < G.n → g (φ u) = f' u := by
      intro u hu
      have hex : ∃ u', u' < G.n ∧ φ u' = φ u := ⟨u, hu, rfl⟩
      show (if h : ∃ u', u' < G.n ∧ φ u' = φ u then f' h.choose else 0) = f' u
      rw [dif_pos hex]
      have := hex.choose_spec
      exact h3 _ _ this.1 hu (hk _ _ this.1 hu this.2)
    refine ⟨g, ?_, ?_⟩
    · intro a ha b hb hne
      obtain ⟨s, hs', rfl⟩ := List.mem_map.1 ha
      obtain ⟨t, ht, rfl⟩ := List.mem_map.1 hb
      rw [hg s (hts s hs'), hg t (hts t ht)]
      exact h1 s hs' t ht (fun e => hne (by rw [e]))
    · rw [multicut_quotient hG hc g, multicut_congr (g := f')]
      · exact h2
      · intro u v hu hv; rw [hg u hu, hg v hv]
  have hup : ∀ g, Separates (ts.map φ) g → Separates ts (fun u => g (φ u)) := by
    intro g hg s hs' t ht hne
    exact hg _ (List.mem_map_of_mem hs') _ (List.mem_map_of_mem ht) (fun e => hne (hinj s hs' t ht e))
  refine ⟨(List.nodup_map_iff_inj_on hnd).2 (fun s hs' t ht e => hinj s hs' t ht e), fun c => ⟨?_, ?_⟩⟩
  · rintro ⟨⟨f, hf, e⟩, hm⟩
    obtain ⟨g, hg, hle⟩ := hdown f hf
    have h1 := hm _ (hup g hg)
    rw [← multicut_quotient hG hc g] at h1
    refine ⟨⟨g, hg, by omega⟩, fun g' hg' => ?_⟩
    have := hm _ (hup g' hg')
    rwa [← multicut_quotient hG hc g'] at this
  · rintro ⟨⟨g, hg, e⟩, hm⟩
    refine ⟨⟨_, hup g hg, by rw [← multicut_quotient hG hc g, e]⟩, fun f hf => ?_⟩
    obtain ⟨g', hg', hle⟩ := hdown f hf
    exact (hm g' hg').trans hle

theorem multicut_add (n : Nat) (a b : Nat → Nat → Nat) (f : Nat → Nat) :
    multicutValue n (fun u v => a u v + b u v) f = multicutValue n a f + multicutValue n b f := by
  unfold multicutValue
  rw [← Finset.sum_add_distrib]
  refine Finset.sum_congr rfl fun v _ => ?_
  rw [← Finset.sum_add_distrib]
  refine Finset.sum_congr rfl fun u _ => ?_
  by_cases c : f u ≠ f v
  · simp only [if_pos c]
  · simp only [if_neg c]

theorem multicut_wcongr {n : Nat} {a b : Nat → Nat → Nat} (h : ∀ u v, u < n → v < n → a u v = b u v) (f : Nat → Nat) :
    multicutValue n a f = multicutValue n b f := by
  unfold multicutValue
  refine Finset.sum_congr rfl fun v hv => Finset.sum_congr rfl fun u hu => ?_
  have hv' := Finset.mem_range.1 hv
  have hu' := Finset.mem_range.1 hu
  rw [h u v (by omega) hv']

/-- Weight of a single edge. -/
theorem multicut_edge {n s t k : Nat} (hs : s < n) (ht : t < n) (hne : s ≠ t) (f : Nat → Nat) :
    multicutValue n (fun a b => if (a = s ∧ b = t) ∨ (a = t ∧ b = s) then k else 0) f = if f s ≠ f t then k else 0 := by
  have key : ∀ s t, s < t → t < n →
      multicutValue n (fun a b => if (a = s ∧ b = t) ∨ (a = t ∧ b = s) then k else 0) f = if f s ≠ f t then k else 0 := by
    intro s t hst ht
    unfold multicutValue
    rw [Finset.sum_eq_single t, Finset.sum_eq_single s]
    · simp
    · intro u hu hne'
      have : ¬ ((u = s ∧ t = t) ∨ (u = t ∧ t = s)) := by
        have := Finset.mem_range.1 hu; omega
      dsimp only
      rw [if_neg this, ite_self]
    · intro h; exact absurd (Finset.mem_range.2 hst) h
    · intro v hv hne'
      refine Finset.sum_eq_zero fun u hu => ?_
      have : ¬ ((u = s ∧ v = t) ∨ (u = t ∧ v = s)) := by
        have := Finset.mem_range.1 hu; omega
      dsimp only
      rw [if_neg this, ite_self]
    · intro h; exact absurd (Finset.mem_range.2 ht) h
  rcases Nat.lt_or_gt_of_ne hne with h | h
  · exact key s t h ht
  · have h2 := key t s h hs
    have e1 : (fun a b => if (a = s ∧ b = t) ∨ (a = t ∧ b = s) then k else 0) =
        (fun a b => if (a = t ∧ b = s) ∨ (a = s ∧ b = t) then k else 0) := by
      funext a b; simp only [or_comm]
    rw [e1, h2]
    simp [ne_comm]

/-- Shifting the value of every solution by the same amount. -/
theorem optimum_shift {n k D c : Nat} {w w' : Nat → Nat → Nat} {ts : List Nat}
    (h : ∀ f, Separates ts f → multicutValue n w f = multicutValue n w' f + k) :
    (∃ d, IsMinMulticut n w ts d ∧ c = D + d) ↔ ∃ d, IsMinMulticut n w' ts d ∧ c = (D + k) + d := by
  constructor
  · rintro ⟨d, ⟨⟨f, hf, e⟩, hm⟩, rfl⟩
    have := h f hf
    refine ⟨multicutValue n w' f, ⟨⟨f, hf, rfl⟩, fun g hg => ?_⟩, by omega⟩
    have h1 := hm g hg
    have h2 := h g hg
    omega
  · rintro ⟨d, ⟨⟨f, hf, e⟩, hm⟩, rfl⟩
    have := h f hf
    refine ⟨multicutValue n w f, ⟨⟨f, hf, rfl⟩, fun g hg => ?_⟩, by omega⟩
    have h1 := hm g hg
    have h2 := h g hg
    omega

namespace Problem
open MGraph

variable {ots : List Nat} {p : Problem}

/-! ### The invariant in terms of the graph model's own invariants -/

theorem Ok.valid (h : Ok ots p) : Valid p.graph := consistent_iff.1 h.consistent

theorem Ok.located (h : Ok ots p) : Located p.graph := by
  refine ⟨⟨?_, ?_, fun q hq => (h.known q hq).2.1⟩, fun v hv => (h.found v hv).1⟩
  · intro q hq v hv
    have hvs := (h.known q hq).2.2 v hv
    refine ⟨hvs, ?_⟩
    by_contra hne
    exact (h.found v hvs).2.2 q hq (Ne.symm hne) hv
  · intro v hv _
    exact List.count_pos_iff.1 (by rw [(h.found v hv).2.1]; decide)

theorem Ok.hasRep (h : Ok ots p) : HasRep p.graph := fun q hq => (h.known q hq).1

theorem Ok.of (hv : Valid p.graph) (hs : MGraph.Simple p.graph []) (hL : Located p.graph) (hr : HasRep p.graph)
    (hm : ∀ o ∈ ots, p.mapped o < p.graph.posSize) (ha : (p.spots ots).Nodup) : Ok ots p :=
  ⟨consistent_iff.2 hv, noParallel_of_simple hv hs, fun _ hv => hL.foundOnce hv,
    fun q hq => ⟨hr q hq, hL.inv.nodup q hq, fun v hv => (hL.inv.back q hq v hv).1⟩, hm, ha⟩

theorem Ok.spot_lt (h : Ok ots p) : ∀ t ∈ p.spots ots, t < p.graph.n := by
  intro t ht
  obtain ⟨o, ho, rfl⟩ := List.mem_map.1 ht
  exact (h.found _ (h.mapped o ho)).1

theorem hasRep_of_surj {g H : MGraph} {ψ : Nat → Nat} (hL : Located g) (hr : HasRep g) (hH : Located H)
    (hp : H.posSize = g.posSize) (hc : IsContraction g.toGraph H.toGraph ψ)
    (hpos : ∀ v, v < g.posSize → H.pos v = ψ (g.pos v)) : HasRep H := by
  intro q hq hnil
  obtain ⟨u, hu, rfl⟩ := hc.surj q (by rw [toGraph_n]; exact hq)
  rw [toGraph_n] at hu
  obtain ⟨h1, h2⟩ := rep_pos hL hr hu
  have h3 := hpos _ h1
  rw [h2] at h3
  have h4 := hH.inv.mem (g.rep u) (by rw [hp]; exact h1) (by rw [h3]; exact hq)
  rw [h3, hnil] at h4
  simp at h4

/-- Contracting safe classes. -/
theorem contract_ok (h : Ok ots p) {rev : List (List Nat)} {ord : Nat → List Nat → List Nat} (ho : IsOrder ord)
    (h1 : ∀ c ∈ rev, (∀ q ∈ c, q < p.graph.n) ∧ c.Nodup) (h2 : rev.Pairwise (fun c' c => ∀ q ∈ c', q ∉ c))
    {cls : Nat → Nat} (hcls : ∀ c ∈ rev, ∀ u ∈ c, ∀ v ∈ c, cls u = cls v)
    (hs : MergeSafe p.graph.n p.graph.toGraph.wt (p.spots ots) cls) {p' : Problem}
    (hg : p'.graph = p.graph.contractVertexsets rev ord) (hm : p'.mapped = p.mapped) (hd : p'.deleted = p.deleted) :
    Ok ots p' ∧ (∀ c, Optimum ots p c ↔ Optimum ots p' c) ∧ ∃ ψ : Nat → Nat,
      IsContraction p.graph.toGraph p'.graph.toGraph ψ ∧ (∀ o ∈ ots, p'.at' o = ψ (p.at' o)) ∧
      ∀ u v, u < p.graph.n → v < p.graph.n → (ψ u = ψ v ↔ u = v ∨ ∃ c ∈ rev, u ∈ c ∧ v ∈ c) := by
  have hL := h.located
  have hr := h.hasRep
  have h0 : CVInv p.graph p.graph [] id := by
    refine ⟨h.valid, hL, rfl, isContraction_refl h.valid.wf, fun _ _ => rfl, ?_, fun h => h⟩
    intro p q _ _; simp
  obtain ⟨ψ, hI⟩ := CVInv.loop hL hr ho rev p.graph [] id 0 h0 h1 (by simp) h2
  rw [List.nil_append] at hI
  change CVInv p.graph (p.graph.contractVertexsets rev ord) rev ψ at hI
  rw [← hg] at hI
  have hspots : p'.spots ots = (p.spots ots).map ψ := by
    unfold spots
    rw [List.map_map]
    refine List.map_congr_left fun o ho' => ?_
    show p'.graph.pos (p'.mapped o) = ψ (p.graph.pos (p.mapped o))
    rw [hm, hI.pos _ (h.mapped o ho')]
  have hn : p.graph.toGraph.n = p.graph.n := toGraph_n _
  have key := isMinMulticut_contract (cls := cls) (ts := p.spots ots) h.valid.wf hI.con
    (fun t ht => by rw [hn]; exact h.spot_lt t ht) h.apart (by rw [hn]; exact hs) (by
      intro u v hu hv he
      rw [hn] at hu hv
      rcases (hI.ker u v hu hv).1 he with rfl | ⟨c, hc, h3, h4⟩
      · rfl
      · exact hcls c hc u h3 v h4)
  rw [toGraph_n, toGraph_n, ← hspots] at key
  refine ⟨Ok.of hI.valid (hI.simple (simple_of_noParallel h.simple)) hI.loc
    (hasRep_of_surj hL hr hI.loc hI.psize hI.con hI.pos) ?_ key.1, ?_, ψ, hI.con, ?_, hI.ker⟩
  · intro o ho'; rw [hm, hI.psize]; exact h.mapped o ho'
  · intro c
    unfold Optimum
    rw [hd]
    constructor
    · rintro ⟨d, h3, rfl⟩; exact ⟨d, (key.2 d).1 h3, rfl⟩
    · rintro ⟨d, h3, rfl⟩; exact ⟨d, (key.2 d).2 h3, rfl⟩
  · intro o ho'
    show p'.graph.pos (p'.mapped o) = ψ (p.graph.pos (p.mapped o))
    rw [hm, hI.pos _ (h.mapped o ho')]

end Problem
end VieCut
