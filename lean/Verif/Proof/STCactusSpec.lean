import Verif.Proof.STCactusBuild
import Verif.Spec.Cactus

/-!
# The cuts represented by the result of `findSTCactus`
-/

namespace VieCut
open Finset MGraph Function

namespace STCactus

variable {k s t c : Nat} {lab : Nat → Nat} {G : MGraph}

theorem foldl_congr_mem {α β : Type} {f g : β → α → β} : ∀ (l : List α) (b : β), (∀ b, ∀ a ∈ l, f b a = g b a) → l.foldl f b = l.foldl g b := by
  intro l
  induction l with
  | nil => intro b _; rfl
  | cons a l ih =>
    intro b h
    rw [List.foldl_cons, List.foldl_cons, h b a List.mem_cons_self]
    exact ih _ fun b a ha => h b a (List.mem_cons_of_mem _ ha)

/-- The members of the components. -/
theorem components_eq (hf : G.Fresh) (ho : G.origNodes = G.n) :
    ∃ cont pos, components lab G k = { setOriginalNodes (MGraph.start k) G.n with cont := cont, pos := pos } ∧
      (∀ p, p < k → cont p = (List.range G.n).filter (fun v => lab v == p)) ∧ ∀ v, v < G.n → pos v = lab v := by
  have key : ∀ j, j ≤ G.n → ∃ cont pos, (List.range j).foldl (fun h n => if G.pos n < G.n then addMember h (lab (G.pos n)) n else h)
      { setOriginalNodes (MGraph.start k) G.n with
        cont := fun p => if p < k then [] else (setOriginalNodes (MGraph.start k) G.n).cont p } =
      { setOriginalNodes (MGraph.start k) G.n with cont := cont, pos := pos } ∧
      (∀ p, p < k → cont p = (List.range j).filter (fun v => lab v == p)) ∧ ∀ v, v < j → pos v = lab v := by
    intro j
    induction j with
    | zero =>
      intro _
      refine ⟨_, _, rfl, fun p hp => ?_, fun v hv => absurd hv (by omega)⟩
      simp [hp]
    | succ j ih =>
      intro hj
      obtain ⟨cont, pos, h1, h2, h3⟩ := ih (by omega)
      have hp : G.pos j = j := (hf.2 j (by omega)).1
      rw [List.range_succ, List.foldl_append, h1]
      simp only [List.foldl_cons, List.foldl_nil]
      rw [hp, if_pos (by omega)]
      refine ⟨update cont (lab j) (cont (lab j) ++ [j]), update pos j (lab j), rfl, fun p hpk => ?_, fun v hv => ?_⟩
      · rw [List.filter_append]
        by_cases e : p = lab j
        · subst e
          rw [update_self, h2 _ hpk]
          simp
        · rw [update_of_ne e, h2 p hpk]
          have : (lab j == p) = false := by simpa using fun hh => e hh.symm
          simp [this]
      · by_cases e : v = j
        · subst e; rw [update_self]
        · rw [update_of_ne e]; exact h3 v (by omega)
  unfold components
  dsimp only
  rw [ho]
  exact key G.n (le_refl _)

theorem valid_empty {g : MGraph} (h0 : ∀ u, g.len u = 0) (hw : ∀ u, g.wdeg u = 0) (he : g.numEdges = 0) : Valid g := by
  refine ⟨fun u e h => absurd h.2.2 (by rw [h0]; omega), fun u _ _ => ?_, ?_⟩
  · rw [hw]; unfold rowSum; rw [h0]; simp
  · rw [he]; exact (Finset.sum_eq_zero fun u _ => h0 u).symm

/-- The contracted graph. -/
theorem contract_spec (hG : Valid G) (hf : G.Fresh) (ho : G.origNodes = G.n) (hlab : ∀ u, u < G.n → lab u < k) (hk : k ≤ G.n) :
    Pairs k (contract lab G k) (classW G.n G.toGraph.wt lab) ∧ (contract lab G k).origNodes = G.n ∧
    (∀ p, p < k → (contract lab G k).cont p = (List.range G.n).filter (fun v => lab v == p)) ∧
    ∀ v, v < G.n → (contract lab G k).pos v = lab v := by
  obtain ⟨cont, pos, h1, h2, h3⟩ := components_eq (lab := lab) (k := k) hf ho
  have hkeep : keeps (addWeights lab G (allPairs (components lab G k))) = keeps (components lab G k) :=
    (addWeights_keeps _ _ _).trans (allPairs_keeps _)
  have htab := addWeights_table (lab := lab) hG hlab (allPairs_table (k := k) (h := components lab G k)
    (by rw [h1]; exact valid_empty (fun _ => rfl) (fun _ => rfl) rfl) (by rw [h1]; rfl) (by rw [h1]; intro _; rfl)
    (by rw [h1]; intro _ _; rfl))
  have hW : ∀ u v, u < v → v < k → classW G.n G.W lab v u = classW G.n G.toGraph.wt lab v u := by
    intro u v _ _
    unfold classW
    refine Finset.sum_congr rfl fun a ha => Finset.sum_congr rfl fun b _ => ?_
    rw [toGraph_wt _ (mem_range.1 ha)]
  have hsymm : ∀ u v, classW G.n G.toGraph.wt lab u v = classW G.n G.toGraph.wt lab v u := by
    intro u v
    unfold classW
    rw [Finset.sum_comm]
    refine Finset.sum_congr rfl fun a ha => Finset.sum_congr rfl fun b hb => ?_
    rw [toGraph_wt _ (mem_range.1 ha), toGraph_wt _ (mem_range.1 hb), hG.W_symm (mem_range.1 ha) (by simp) (mem_range.1 hb) (by simp)]
    simp only [and_comm]
  have hp := (htab.congr hW).pairs fun u v _ _ => hsymm u v
  unfold keeps at hkeep
  simp only [Prod.mk.injEq] at hkeep
  obtain ⟨e1, e2, e3, e4, e5, e6, e7⟩ := hkeep
  unfold contract
  refine ⟨⟨hp.n, hp.edge, hp.inj, hp.all⟩, ?_, fun p hpk => ?_, fun v hv => ?_⟩
  · show (addWeights lab G (allPairs (components lab G k))).origNodes = G.n
    rw [e6, h1]; rfl
  · show (addWeights lab G (allPairs (components lab G k))).cont p = _
    rw [e4, h1]; exact h2 p hpk
  · show (addWeights lab G (allPairs (components lab G k))).pos v = _
    rw [e2, h1]; exact h3 v hv

/-- A chain with two vertices outside a member has positive value. -/
theorem chain_pos {W : Nat → Nat → Nat} (hC : ChainCuts k W s t c) (hk : 3 ≤ k) : 0 < c := by
  have hm := first_mem hC (by omega)
  obtain ⟨x, y, hx, hy, hxy, hxs, hys⟩ : ∃ x y, x < k ∧ y < k ∧ x ≠ y ∧ x ≠ s ∧ y ≠ s := by
    by_cases h0 : s = 0
    · exact ⟨1, 2, by omega, by omega, by omega, by omega, by omega⟩
    · by_cases h1 : s = 1
      · exact ⟨0, 2, by omega, by omega, by omega, by omega, by omega⟩
      · exact ⟨0, 1, by omega, by omega, by omega, by omega, by omega⟩
  obtain ⟨b, hb, hb1, hb2⟩ := hC.next (Or.inr hm) hx hy hxy (by simp [hxs]) (by simp [hys])
  have hle := link_le_cut (k := k) (W := W) (fun v => decide (v ∈ [s])) hb hb1
  rw [hm.val] at hle
  by_cases hxb : x = b
  · have := hC.heaviest hm hb hb1 hb2 hy (by simp [hys]) (by omega)
    omega
  · have := hC.heaviest hm hb hb1 hb2 hx (by simp [hxs]) hxb
    omega

/-- What the routine needs: the labels are the classes of vertices that no minimum cut separates, and all minimum cuts separate `s` from
`t`. -/
structure Classes (G : MGraph) (lab : Nat → Nat) (k s t c : Nat) : Prop where
  lt : ∀ u, u < G.n → lab u < k
  onto : ∀ p, p < k → ∃ u, u < G.n ∧ lab u = p
  src : s < G.n
  sink : t < G.n
  min : IsMinCut G.n G.toGraph.wt c
  sep : ∀ S, ProperCut G.n S → cutValue G.n G.toGraph.wt S = c → S s ≠ S t
  same : ∀ S, ProperCut G.n S → cutValue G.n G.toGraph.wt S = c → ∀ u v, u < G.n → v < G.n → lab u = lab v → S u = S v
  split : ∀ u v, u < G.n → v < G.n → lab u ≠ lab v → ∃ S : Nat → Bool, S u = true ∧ S v = false ∧ cutValue G.n G.toGraph.wt S = c

theorem Classes.le (H : Classes G lab k s t c) : k ≤ G.n := by
  have : range k ⊆ (range G.n).image lab := by
    intro p hp
    obtain ⟨u, hu, he⟩ := H.onto p (mem_range.1 hp)
    exact Finset.mem_image.2 ⟨u, mem_range.2 hu, he⟩
  have := (Finset.card_le_card this).trans Finset.card_image_le
  simpa using this

theorem Classes.quot (H : Classes G lab k s t c) (T : Nat → Bool) :
    cutValue k (classW G.n G.toGraph.wt lab) T = cutValue G.n G.toGraph.wt (fun v => T (lab v)) :=
  cutValue_quotient H.lt (fun _ _ _ _ _ => rfl) T

theorem Classes.proper (H : Classes G lab k s t c) {T : Nat → Bool} : ProperCut k T ↔ ProperCut G.n (fun v => T (lab v)) := by
  constructor
  · rintro ⟨⟨x, hx, x1⟩, ⟨y, hy, y1⟩⟩
    obtain ⟨u, hu, rfl⟩ := H.onto x hx
    obtain ⟨v, hv, rfl⟩ := H.onto y hy
    exact ⟨⟨u, hu, x1⟩, ⟨v, hv, y1⟩⟩
  · rintro ⟨⟨x, hx, x1⟩, ⟨y, hy, y1⟩⟩
    exact ⟨⟨_, H.lt x hx, x1⟩, ⟨_, H.lt y hy, y1⟩⟩

/-- A minimum cut as a set of classes. -/
theorem Classes.lift (H : Classes G lab k s t c) {S : Nat → Bool} (hS : ProperCut G.n S) (hc : cutValue G.n G.toGraph.wt S = c) :
    ∃ T : Nat → Bool, (∀ v, v < G.n → T (lab v) = S v) ∧ cutValue k (classW G.n G.toGraph.wt lab) T = c ∧ ProperCut k T := by
  classical
  have hT : ∀ v, v < G.n → (fun p => decide (∃ u, u < G.n ∧ lab u = p ∧ S u = true)) (lab v) = S v := by
    intro v hv
    dsimp only
    cases h : S v with
    | true => exact decide_eq_true ⟨v, hv, rfl, h⟩
    | false =>
      refine decide_eq_false ?_
      rintro ⟨u, hu, e1, e2⟩
      have := H.same S hS hc u v hu hv e1
      rw [e2, h] at this; cases this
  refine ⟨fun p => decide (∃ u, u < G.n ∧ lab u = p ∧ S u = true), hT, ?_, ?_⟩
  · rw [H.quot, ← hc]
    exact cutValue_congr hT
  · exact H.proper.2 (hS.congr fun v hv => (hT v hv).symm)

theorem Classes.chain (hG : Valid G) (H : Classes G lab k s t c) : ChainCuts k (classW G.n G.toGraph.wt lab) (lab s) (lab t) c := by
  refine ⟨?_, H.lt s H.src, H.lt t H.sink, fun X hX => ?_, fun X hX hc => ?_, fun x y hx hy hxy => ?_⟩
  · intro u v
    unfold classW
    rw [Finset.sum_comm]
    refine Finset.sum_congr rfl fun a ha => Finset.sum_congr rfl fun b hb => ?_
    rw [toGraph_wt _ (mem_range.1 ha), toGraph_wt _ (mem_range.1 hb), hG.W_symm (mem_range.1 ha) (by simp) (mem_range.1 hb) (by simp)]
    simp only [and_comm]
  · rw [H.quot]
    exact H.min.2 _ (H.proper.1 hX)
  · rw [H.quot] at hc
    exact H.sep _ (H.proper.1 hX) hc
  · obtain ⟨u, hu, rfl⟩ := H.onto x hx
    obtain ⟨v, hv, rfl⟩ := H.onto y hy
    obtain ⟨S, s1, s2, s3⟩ := H.split u v hu hv hxy
    obtain ⟨T, t1, t2, t3⟩ := H.lift ⟨⟨u, hu, s1⟩, ⟨v, hv, s2⟩⟩ s3
    exact ⟨T, by rw [t1 u hu, s1], by rw [t1 v hv, s2], t2⟩

theorem Classes.two (H : Classes G lab k s t c) : 2 ≤ k := by
  obtain ⟨S, hS, hc⟩ := H.min.1
  obtain ⟨T, t1, t2, ⟨⟨x, hx, x1⟩, ⟨y, hy, y1⟩⟩⟩ := H.lift hS hc
  have : x ≠ y := by rintro rfl; rw [x1] at y1; cases y1
  omega

/-- The result of `findSTCactus` represents all minimum cuts. -/
theorem findSTCactus_spec (hG : Valid G) (hf : G.Fresh) (ho : G.origNodes = G.n) (H : Classes G lab k s t c) (hK : 2 * (c + 1) < 2 ^ 32) :
    ∃ R, findSTCactus c lab G s k = some R ∧ RepresentsMinCuts G.toGraph R R.pos c ∧ ListsMatch R G.n ∧ R.n = k ∧ R.lastNode = R.n ∧
      R.contSize = R.n ∧ R.posSize = G.n := by
  have hC := H.chain hG
  have hk := H.two
  obtain ⟨p1, p2, p3, p4⟩ := contract_spec (k := k) hG hf ho H.lt H.le
  have hmemc : ∀ p v, p < k → (v ∈ (contract lab G k).cont p ↔ v < G.n ∧ lab v = p) := by
    intro p v hp
    rw [p3 p hp, List.mem_filter, List.mem_range]
    simp
  have hD : Disjoint k (contract lab G k) := by
    intro x y v hx hy h1 h2
    rw [hmemc x v hx] at h1
    rw [hmemc y v hy] at h2
    rw [← h1.2, ← h2.2]
  have hs : (contract lab G k).pos ((G.cont s).headD 0) = lab s := by
    rw [(hf.2 s H.src).2]
    exact p4 s H.src
  obtain ⟨l, o, hl, hO, hfind⟩ := findSTCactus_eq p1 hD hs hC hk hK
  obtain ⟨cont, pos, s1, s2, s3⟩ := hO.st
  have hst : Valid o.st := by rw [s1]; exact valid_empty (fun _ => rfl) (fun _ => rfl) rfl
  have hn : o.st.n = k := by rw [s1]; rfl
  have h0 : ∀ u, o.st.len u = 0 := by rw [s1]; intro _; rfl
  obtain ⟨a1, a2, a3, a4, a5, a6, a7, a8⟩ := pathTo_spec (c := c) hst h0 (k - 1) (by rw [hn]; omega)
  have hsimple := path_simple (c := c) hst h0 (j := k - 1) (by rw [hn]; omega)
  rw [hn] at a2 a7
  -- positions
  have hidx : ∀ x, x < k → ∃ i, ∃ hi : i < l.length, l[i] = x := by
    intro x hx
    obtain ⟨i, hi, he⟩ := List.getElem_of_mem (hO.chain.full_mem hl hx)
    exact ⟨i, hi, he⟩
  have hpos : ∀ v i (hi : i < l.length), v < G.n → lab v = l[i] → (pathTo c o.st (k - 1)).pos v = i := by
    intro v i hi hv he
    rw [a3, s1]
    refine s3 v i hi ?_
    rw [hmemc _ _ (hO.chain.lt _ (List.getElem_mem hi))]
    exact ⟨hv, he⟩
  have hposlt : ∀ v, v < G.n → (pathTo c o.st (k - 1)).pos v < k ∧ ∃ hi : (pathTo c o.st (k - 1)).pos v < l.length,
      l[(pathTo c o.st (k - 1)).pos v] = lab v := by
    intro v hv
    obtain ⟨i, hi, he⟩ := hidx (lab v) (H.lt v hv)
    have hp := hpos v i hi hv he.symm
    refine ⟨by rw [hp]; omega, by rw [hp]; exact hi, ?_⟩
    simp only [hp]; exact he
  -- a prefix of the path stands for a prefix of the order
  have hpre : ∀ i v, v < G.n → (decide ((pathTo c o.st (k - 1)).pos v < i) = decide (lab v ∈ l.take i)) := by
    intro i v hv
    obtain ⟨q1, q2, q3⟩ := hposlt v hv
    rw [decide_eq_decide]
    constructor
    · intro h
      rw [← q3]
      rw [List.mem_take_iff_getElem]
      exact ⟨_, by omega, rfl⟩
    · intro h
      rw [List.mem_take_iff_getElem] at h
      obtain ⟨j, hj, he⟩ := h
      have hjl : j < l.length := by omega
      have : l[j] = l[(pathTo c o.st (k - 1)).pos v] := by rw [q3]; exact he
      have := (List.Nodup.getElem_inj_iff hO.chain.nodup).1 this
      omega
  have hprefc : ∀ i, 1 ≤ i → i < k → cutValue G.n G.toGraph.wt (fun v => decide (lab v ∈ l.take i)) = c := by
    intro i i1 i2
    have := (hO.chain.mem i i1 i2 (by omega)).val
    rw [H.quot] at this
    exact this
  have hprep : ∀ i, 1 ≤ i → i < k → ProperCut G.n (fun v => decide (lab v ∈ l.take i)) := by
    intro i i1 i2
    have := hC.proper (hO.chain.mem i i1 i2 (by omega))
    exact H.proper.1 this
  have hpathpre : ∀ i, 1 ≤ i → i < k → ∀ X : Nat → Bool, (∀ v, v < k → X v = decide (v < i)) →
      cutValue k (pathTo c o.st (k - 1)).toGraph.wt X = c := by
    intro i i1 i2 X hX
    rw [a7]
    have := prefix_sum (k := k - 1) (c := c) (i := i - 1) (by omega) (X := X) (by
      intro v hv
      rw [hX v (by omega)]
      congr 1
      rw [show i - 1 + 1 = i by omega])
    exact this
  have hwsymm : ∀ u v, u < k → v < k → (pathTo c o.st (k - 1)).toGraph.wt u v = (pathTo c o.st (k - 1)).toGraph.wt v u := by
    intro u v hu hv
    rw [toGraph_wt _ (by rw [a2]; exact hu), toGraph_wt _ (by rw [a2]; exact hv), a1.W_symm (by rw [a2]; exact hu) (by simp) (by rw [a2]; exact hv) (by simp)]
  have hcompl : ∀ X : Nat → Bool, cutValue k (pathTo c o.st (k - 1)).toGraph.wt (fun v => !X v) = cutValue k (pathTo c o.st (k - 1)).toGraph.wt X := by
    intro X
    rw [a7, a7]
    refine Finset.sum_congr rfl fun i _ => ?_
    by_cases h : X i = X (i + 1) <;> simp [h]
  have hgcompl : ∀ X : Nat → Bool, cutValue G.n G.toGraph.wt (fun v => !X v) = cutValue G.n G.toGraph.wt X := by
    intro X
    exact cutValue_compl (fun u v => hG.wf.wt_symm u v) X
  -- a cut of weight `c` of the path is a prefix or the complement of one
  have hsound : ∀ X, ProperCut k X → cutValue k (pathTo c o.st (k - 1)).toGraph.wt X = c →
      ∃ i, 1 ≤ i ∧ i < k ∧ ((∀ v, v < k → X v = decide (v < i)) ∨ (∀ v, v < k → X v = !decide (v < i))) := by
    intro X hX hc
    obtain ⟨i, hi, hne⟩ := proper_step hX
    refine ⟨i + 1, by omega, by omega, prefix_of_step hne (by omega) fun j hj hne' => ?_⟩
    rcases Nat.lt_or_ge k 3 with h3 | h3
    · omega
    · rw [a7] at hc
      exact (one_step (chain_pos hC h3) hi hne hc hj hne').symm
  have hRn : (pathTo c o.st (k - 1)).finishConstruction.n = k := a2
  have hRwt : (pathTo c o.st (k - 1)).finishConstruction.toGraph.wt = (pathTo c o.st (k - 1)).toGraph.wt := rfl
  have hRpos : (pathTo c o.st (k - 1)).finishConstruction.pos = (pathTo c o.st (k - 1)).pos := rfl
  have hRv : Valid (pathTo c o.st (k - 1)).finishConstruction := ⟨a1.pv, a1.wdeg, a1.num⟩
  have hRs : (pathTo c o.st (k - 1)).finishConstruction.NoParallel := hsimple
  have hRc : (pathTo c o.st (k - 1)).finishConstruction.cont = (pathTo c o.st (k - 1)).cont := rfl
  refine ⟨_, hfind, ⟨consistent_iff.2 hRv, hRs, ?_, ?_, ?_, ?_, ?_⟩, ?_, ?_, ?_, ?_, ?_⟩
  · intro v hv
    rw [toGraph_n] at hv
    rw [hRn, hRpos]
    exact (hposlt v hv).1
  · intro X hX
    rw [hRn] at hX ⊢
    rw [hRwt, a7]
    obtain ⟨i, hi, hne⟩ := proper_step hX
    exact step_le hi hne
  · intro X hX hc
    rw [hRn] at hX hc
    rw [hRwt] at hc
    rw [toGraph_n, hRpos]
    obtain ⟨i, i1, i2, h | h⟩ := hsound X hX hc
    · have he : ∀ v, v < G.n → decide (lab v ∈ l.take i) = X ((pathTo c o.st (k - 1)).pos v) := by
        intro v hv
        rw [h _ (hposlt v hv).1, hpre i v hv]
      exact ⟨(hprep i i1 i2).congr he, by rw [← cutValue_congr he]; exact hprefc i i1 i2⟩
    · have he : ∀ v, v < G.n → (!decide (lab v ∈ l.take i)) = X ((pathTo c o.st (k - 1)).pos v) := by
        intro v hv
        rw [h _ (hposlt v hv).1, hpre i v hv]
      refine ⟨ProperCut.congr he ?_, by rw [← cutValue_congr he, hgcompl]; exact hprefc i i1 i2⟩
      obtain ⟨⟨x, hx, x1⟩, ⟨y, hy, y1⟩⟩ := hprep i i1 i2
      exact ⟨⟨y, hy, by simpa using y1⟩, ⟨x, hx, by simpa using x1⟩⟩
  · intro S hS hc
    rw [toGraph_n] at hS hc ⊢
    rw [hRn, hRwt, hRpos]
    -- the source side
    have main : ∀ S : Nat → Bool, ProperCut G.n S → cutValue G.n G.toGraph.wt S = c → S s = true →
        ∃ X, cutValue k (pathTo c o.st (k - 1)).toGraph.wt X = c ∧ ∀ v, v < G.n → X ((pathTo c o.st (k - 1)).pos v) = S v := by
      intro S hS hc hs1
      obtain ⟨T, t1, t2, t3⟩ := H.lift hS hc
      have ht1 : S t = false := by
        have := H.sep S hS hc
        rw [hs1] at this
        simpa using Ne.symm this
      obtain ⟨i, i1, i2, hi⟩ := hO.chain.prefix hC hl (S := T) ⟨by rw [t1 s H.src]; exact hs1, by rw [t1 t H.sink]; exact ht1, t2⟩
      refine ⟨fun v => decide (v < i), hpathpre i i1 i2 _ fun _ _ => rfl, fun v hv => ?_⟩
      refine (hpre i v hv).trans ?_
      rw [← hi _ (H.lt v hv)]
      exact t1 v hv
    cases hs1 : S s with
    | true => exact main S hS hc hs1
    | false =>
      obtain ⟨X, x1, x2⟩ := main (fun v => !S v) (by
        obtain ⟨⟨x, hx, x1⟩, ⟨y, hy, y1⟩⟩ := hS
        exact ⟨⟨y, hy, by simp [y1]⟩, ⟨x, hx, by simp [x1]⟩⟩) (by rw [hgcompl]; exact hc) (by simp [hs1])
      refine ⟨fun v => !X v, by rw [hcompl]; exact x1, fun v hv => ?_⟩
      show (!X _) = S v
      rw [x2 v hv]; simp
  · intro x y hx hy hxy
    rw [hRn] at hx hy ⊢
    rw [hRwt]
    rcases Nat.lt_or_gt_of_ne hxy with h | h
    · exact ⟨fun v => decide (v < y), by simp [h], by simp, hpathpre y (by omega) hy _ fun _ _ => rfl⟩
    · refine ⟨fun v => !decide (v < x), by simp, by simp [h], ?_⟩
      rw [hcompl]
      exact hpathpre x (by omega) hx _ fun _ _ => rfl
  · intro q hq
    rw [hRn] at hq
    rw [hRc, hRpos, a4]
    have hq2 : o.st.cont q = (contract lab G k).cont (l[q]'(by omega)) := by rw [s1]; exact s2 q (by omega)
    rw [hq2]
    rw [p3 _ (hO.chain.lt _ (List.getElem_mem _))]
    refine List.filter_congr fun v hv => ?_
    rw [List.mem_range] at hv
    obtain ⟨q1, q2, q3⟩ := hposlt v hv
    rw [Bool.eq_iff_iff, beq_iff_eq, beq_iff_eq]
    constructor
    · intro h; exact hpos v q (by omega) hv h
    · intro h; rw [← q3]; simp only [h]
  · exact a2
  · rfl
  · show (pathTo c o.st (k - 1)).contSize = (pathTo c o.st (k - 1)).n
    rw [a6, a2, s1]; rfl
  · show (pathTo c o.st (k - 1)).posSize = G.n
    rw [a5, s1]
    exact p2

end STCactus
end VieCut
