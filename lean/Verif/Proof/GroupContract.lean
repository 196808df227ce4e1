import Verif.Proof.BranchBound

/-!
# Merging the vertices of each terminal area
-/

namespace VieCut
open Finset Function

namespace Problem
open MGraph

/-- Disjoint blocks are the bases, except those with one vertex. -/
theorem isoSpec_disjoint (bs : List (List Nat)) (A : List Nat) (hd : bs.Pairwise fun b c => ∀ x ∈ b, x ∉ c)
    (hA : ∀ b ∈ bs, ∀ x ∈ b, x ∉ A) : isoSpec bs A = bs.map fun b => if b.length > 1 then b else [] := by
  induction bs generalizing A with
  | nil => rfl
  | cons b bs ih =>
    obtain ⟨h1, h2⟩ := List.pairwise_cons.1 hd
    have hf : b.filter (fun x => decide (x ∉ A)) = b :=
      List.filter_eq_self.2 fun x hx => by simpa using hA b List.mem_cons_self x hx
    unfold isoSpec
    rw [hf, List.map_cons]
    split
    · rw [ih _ h2]
      intro c hc x hx hmem
      rcases List.mem_append.1 hmem with h | h
      · exact hA c (List.mem_cons_of_mem _ hc) x hx h
      · exact h1 c hc x h hx
    · rw [ih _ h2 fun c hc => hA c (List.mem_cons_of_mem _ hc)]

end Problem

namespace BB
open Problem MGraph

/-- Vertices in the same block. -/
def SameBlock (blocks : List (List Nat)) (u v : Nat) : Prop := ∃ b ∈ blocks, u ∈ b ∧ v ∈ b

/-- The first problem after its terminal areas have been contracted. -/
theorem group_contract {g : MGraph} (hg : Consistent g) (hs : g.NoParallel) (hf : MGraph.Fresh g) {ots : List Nat}
    (hn : ots.Nodup) (hlt : ∀ o ∈ ots, o < g.n) {blocks : List (List Nat)} (hb : ∀ b ∈ blocks, b.Nodup ∧ ∀ x ∈ b, x < g.n)
    (hd : blocks.Pairwise fun b c => ∀ x ∈ b, x ∉ c)
    (hsep : ∀ s ∈ ots, ∀ t ∈ ots, s ≠ t → ¬ SameBlock blocks s t) {ord : Nat → List Nat → List Nat} (ho : IsOrder ord)
    {p : Problem} (hpg : p.graph = g) (hpm : p.mapped = id) (hpd : p.deleted = 0) :
    Ok ots (p.contractIsolatingBlocks ord blocks) ∧
    Lift g.toGraph (SameBlock blocks) (p.contractIsolatingBlocks ord blocks) ∧
    ∀ c, Optimum ots (p.contractIsolatingBlocks ord blocks) c ↔ IsMinTogether g.n g.toGraph.wt ots (SameBlock blocks) c := by
  subst hpg
  have hat : ∀ o, o < p.graph.n → p.at' o = o := fun o ho => by
    show p.graph.pos (p.mapped o) = o
    rw [hpm]; exact (hf.2 o ho).1
  have hsp : p.spots ots = ots := by
    conv_rhs => rw [← List.map_id ots]
    exact List.map_congr_left fun o ho => hat o (hlt o ho)
  have hL : Located p.graph := hf.located
  have hr : HasRep p.graph := by
    intro v hv
    show p.graph.cont v ≠ []
    rw [(hf.2 v hv).2]; simp
  have hmap : ∀ o, o < p.graph.n → p.mapped o < p.graph.posSize := by
    intro o ho
    rw [hpm, hf.1]; exact ho
  have h : Ok ots p := Ok.of (consistent_iff.1 hg) (simple_of_noParallel hs) hL hr (fun o ho => hmap o (hlt o ho))
    (by rw [hsp]; exact hn)
  set q := p.contractIsolatingBlocks ord blocks with hq
  have hbase : (isoBases blocks).1 = blocks.map fun b => if b.length > 1 then b else [] := by
    rw [isoBases_eq _ fun b hb' => (hb b hb').1]
    exact isoSpec_disjoint _ _ hd (by simp)
  have h0 : CVInv p.graph p.graph [] id := by
    refine ⟨h.valid, hL, rfl, isContraction_refl h.valid.wf, fun _ _ => rfl, ?_, fun h => h⟩
    intro p q _ _; simp
  obtain ⟨ψ, hI⟩ := CVInv.loop hL hr ho (isoBases blocks).1 p.graph [] id 0 h0 (by
      rw [hbase]
      intro c hc
      obtain ⟨b, hb', rfl⟩ := List.mem_map.1 hc
      split
      · exact ⟨(hb b hb').2, (hb b hb').1⟩
      · exact ⟨by simp, List.nodup_nil⟩) (by simp) (by
      rw [hbase]
      refine List.pairwise_map.2 (hd.imp fun {b c} hbc x hx => ?_)
      split at hx
      · split
        · exact hbc x hx
        · simp
      · simp at hx)
  rw [List.nil_append] at hI
  change CVInv p.graph q.graph _ ψ at hI
  have hker : ∀ u v, u < p.graph.n → v < p.graph.n → (ψ u = ψ v ↔ u = v ∨ SameBlock blocks u v) := by
    intro u v hu hv
    rw [hI.ker u v hu hv, hbase]
    constructor
    · rintro (h | ⟨c, hc, h1, h2⟩)
      · exact Or.inl h
      · obtain ⟨b, hb', rfl⟩ := List.mem_map.1 hc
        split at h1
        · rename_i hl
          rw [if_pos hl] at h2
          exact Or.inr ⟨b, hb', h1, h2⟩
        · simp at h1
    · rintro (h | ⟨b, hb', h1, h2⟩)
      · exact Or.inl h
      · by_cases hl : b.length > 1
        · exact Or.inr ⟨b, List.mem_map.2 ⟨b, hb', if_pos hl⟩, h1, h2⟩
        · left
          match b, hl, h1, h2 with
          | [x], _, h1, h2 => rw [List.mem_singleton] at h1 h2; rw [h1, h2]
          | x :: y :: l, hl, _, _ => simp at hl
  have hqat : ∀ o, o < p.graph.n → q.at' o = ψ o := by
    intro o ho
    show q.graph.pos (p.mapped o) = ψ o
    rw [hI.pos _ (hmap o ho)]
    exact congrArg ψ (hat o ho)
  have hqs : q.spots ots = ots.map ψ := List.map_congr_left fun o ho => hqat o (hlt o ho)
  have hinj : ∀ s ∈ ots, ∀ t ∈ ots, ψ s = ψ t → s = t := by
    intro s hs' t ht he
    rcases (hker s t (hlt s hs') (hlt t ht)).1 he with h | h
    · exact h
    · by_contra hne
      exact hsep s hs' t ht hne h
  have hquot : ∀ f : Nat → Nat, multicutValue q.graph.n q.graph.toGraph.wt f =
      multicutValue p.graph.n p.graph.toGraph.wt (fun u => f (ψ u)) := by
    intro f
    have := multicut_quotient h.valid.wf hI.con f
    rwa [toGraph_n, toGraph_n] at this
  have hlt' : ∀ u v, SameBlock blocks u v → u < p.graph.n ∧ v < p.graph.n := by
    rintro u v ⟨b, hb', h1, h2⟩
    exact ⟨(hb b hb').2 u h1, (hb b hb').2 v h2⟩
  have hsame : ∀ u v, SameBlock blocks u v → ψ u = ψ v := fun u v huv =>
    (hker u v (hlt' u v huv).1 (hlt' u v huv).2).2 (Or.inr huv)
  have hfac : ∀ F : Nat → Nat, (∀ u v, SameBlock blocks u v → F u = F v) →
      ∃ f : Nat → Nat, ∀ u, u < p.graph.n → f (ψ u) = F u := by
    intro F hF
    classical
    refine ⟨fun x => if h : ∃ u, u < p.graph.n ∧ ψ u = x then F (Classical.choose h) else 0, fun u hu => ?_⟩
    have hex : ∃ u', u' < p.graph.n ∧ ψ u' = ψ u := ⟨u, hu, rfl⟩
    have hc := Classical.choose_spec hex
    simp only [dif_pos hex]
    rcases (hker _ u hc.1 hu).1 hc.2 with h | h
    · rw [h]
    · exact hF _ _ h
  have hsepq : ∀ f : Nat → Nat, Separates (ots.map ψ) f ↔ Separates ots (fun u => f (ψ u)) := by
    intro f
    constructor
    · intro hf s hs' t ht hne
      exact hf _ (List.mem_map_of_mem hs') _ (List.mem_map_of_mem ht) fun e => hne (hinj s hs' t ht e)
    · intro hf x hx y hy hne
      obtain ⟨s, hs', rfl⟩ := List.mem_map.1 hx
      obtain ⟨t, ht, rfl⟩ := List.mem_map.1 hy
      exact hf s hs' t ht fun e => hne (by rw [e])
  refine ⟨?_, ⟨?_, ?_, ?_⟩, ?_⟩
  · refine Ok.of hI.valid (hI.simple (simple_of_noParallel hs)) hI.loc
      (hasRep_of_surj hL hr hI.loc hI.psize hI.con hI.pos) ?_ ?_
    · intro o ho'
      show p.mapped o < q.graph.posSize
      rw [hI.psize]; exact hmap o (hlt o ho')
    · rw [hqs]
      exact (List.nodup_map_iff_inj_on hn).2 fun s hs' t ht e => hinj s hs' t ht e
  · intro o ho'
    rw [toGraph_n] at ho'
    show p.mapped o < q.graph.posSize
    rw [hI.psize]; exact hmap o ho'
  · intro f
    unfold cost
    rw [hquot, toGraph_n]
    refine Nat.le_trans (Nat.le_of_eq ?_) (Nat.le_add_left _ _)
    refine multicut_congr fun u v hu hv => ?_
    rw [hqat u hu, hqat v hv]
  · intro u v huv
    obtain ⟨hu, hv⟩ := hlt' u v huv
    rw [toGraph_n, hqat u hu, hqat v hv]
    exact ⟨hu, hv, hsame u v huv⟩
  · intro c
    have hqd : q.deleted = 0 := hpd
    unfold Optimum
    rw [hqd, hqs]
    constructor
    · rintro ⟨d, ⟨⟨f, h1, h2⟩, h3⟩, hcd⟩
      have hcd : c = d := by omega
      subst hcd
      refine ⟨⟨fun u => f (ψ u), (hsepq f).1 h1, fun u v huv => congrArg f (hsame u v huv), by rw [← hquot]; exact h2⟩, ?_⟩
      intro F hF hFR
      obtain ⟨f', hf'⟩ := hfac F hFR
      have e : multicutValue p.graph.n p.graph.toGraph.wt (fun u => f' (ψ u)) = multicutValue p.graph.n p.graph.toGraph.wt F :=
        multicut_congr fun u v hu hv => by rw [hf' u hu, hf' v hv]
      rw [← e, ← hquot]
      refine h3 f' ((hsepq f').2 fun s hs' t ht hne => ?_)
      show f' (ψ s) ≠ f' (ψ t)
      rw [hf' s (hlt s hs'), hf' t (hlt t ht)]
      exact hF s hs' t ht hne
    · rintro ⟨⟨F, h1, h2, h3⟩, h4⟩
      refine ⟨c, ⟨?_, ?_⟩, by omega⟩
      · obtain ⟨f', hf'⟩ := hfac F h2
        refine ⟨f', (hsepq f').2 fun s hs' t ht hne => ?_, ?_⟩
        · show f' (ψ s) ≠ f' (ψ t)
          rw [hf' s (hlt s hs'), hf' t (hlt t ht)]
          exact h1 s hs' t ht hne
        · rw [hquot, ← h3]
          exact multicut_congr fun u v hu hv => by rw [hf' u hu, hf' v hv]
      · intro f hf'
        rw [hquot]
        exact h4 _ ((hsepq f).1 hf') fun u v huv => by rw [hsame u v huv]

end BB
end VieCut
