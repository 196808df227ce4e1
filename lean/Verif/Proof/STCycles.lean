import Verif.Proof.ChainAll
import Verif.Proof.TurnOrder
import Verif.Proof.RecSplit

/-!
# `findSTCactus` gives a cactus of the minimum cuts that do not cut the components
-/

namespace VieCut
open Finset MGraph Function

namespace STCactus
open RecCactus

variable {k s t c : Nat} {lab : Nat → Nat} {G : MGraph}

/-- A list of the graph names every vertex that has a position in it. -/
def Listed (G : MGraph) : Prop := ∀ e, e < G.origNodes → G.pos e < G.n → e ∈ G.cont (G.pos e)

/-- The members of the components. -/
theorem components_gen (lab : Nat → Nat) (G : MGraph) (k : Nat) :
    ∃ cont pos, components lab G k = { setOriginalNodes (MGraph.start k) G.origNodes with cont := cont, pos := pos } ∧
      (∀ p, p < k → cont p = (List.range G.origNodes).filter (fun v => decide (G.pos v < G.n) && lab (G.pos v) == p)) ∧
      ∀ v, v < G.origNodes → G.pos v < G.n → pos v = lab (G.pos v) := by
  have key : ∀ j, j ≤ G.origNodes → ∃ cont pos, (List.range j).foldl (fun h n => if G.pos n < G.n then addMember h (lab (G.pos n)) n else h)
      { setOriginalNodes (MGraph.start k) G.origNodes with
        cont := fun p => if p < k then [] else (setOriginalNodes (MGraph.start k) G.origNodes).cont p } =
      { setOriginalNodes (MGraph.start k) G.origNodes with cont := cont, pos := pos } ∧
      (∀ p, p < k → cont p = (List.range j).filter (fun v => decide (G.pos v < G.n) && lab (G.pos v) == p)) ∧
      ∀ v, v < j → G.pos v < G.n → pos v = lab (G.pos v) := by
    intro j
    induction j with
    | zero =>
      intro _
      refine ⟨_, _, rfl, fun p hp => ?_, fun v hv => absurd hv (by omega)⟩
      simp [hp]
    | succ j ih =>
      intro hj
      obtain ⟨cont, pos, h1, h2, h3⟩ := ih (by omega)
      rw [List.range_succ, List.foldl_append, h1]
      simp only [List.foldl_cons, List.foldl_nil]
      by_cases hn : G.pos j < G.n
      · rw [if_pos hn]
        refine ⟨update cont (lab (G.pos j)) (cont (lab (G.pos j)) ++ [j]), update pos j (lab (G.pos j)), rfl, fun p hpk => ?_, fun v hv hvn => ?_⟩
        · rw [List.filter_append]
          by_cases e : p = lab (G.pos j)
          · subst e
            rw [update_self, h2 _ hpk]
            simp [hn]
          · rw [update_of_ne e, h2 p hpk]
            have : (lab (G.pos j) == p) = false := by simpa using fun hh => e hh.symm
            simp [this]
        · by_cases e : v = j
          · subst e; rw [update_self]
          · rw [update_of_ne e]; exact h3 v (by omega) hvn
      · rw [if_neg hn]
        refine ⟨cont, pos, rfl, fun p hpk => ?_, fun v hv hvn => ?_⟩
        · rw [List.filter_append, h2 p hpk]
          simp [hn]
        · by_cases e : v = j
          · subst e; exact absurd hvn hn
          · exact h3 v (by omega) hvn
  unfold components
  dsimp only
  exact key _ (le_refl _)

/-- The contracted graph. -/
theorem contract_gen (hG : Valid G) (hlab : ∀ u, u < G.n → lab u < k) :
    Table k (contract lab G k) (classW G.n G.toGraph.wt lab) ∧ (∀ u v, classW G.n G.toGraph.wt lab u v = classW G.n G.toGraph.wt lab v u) ∧
    (∀ p, p < k → (contract lab G k).cont p = (List.range G.origNodes).filter (fun v => decide (G.pos v < G.n) && lab (G.pos v) == p)) ∧
    ∀ v, v < G.origNodes → G.pos v < G.n → (contract lab G k).pos v = lab (G.pos v) := by
  obtain ⟨cont, pos, h1, h2, h3⟩ := components_gen lab G k
  have hkeep : keeps (addWeights lab G (allPairs (components lab G k))) = keeps (components lab G k) :=
    (addWeights_keeps _ _ _).trans (allPairs_keeps _)
  have htab := addWeights_table (lab := lab) hG hlab (allPairs_table (k := k) (h := components lab G k)
    (by rw [h1]; exact valid_empty (fun _ => rfl) (fun _ => rfl) rfl) (by rw [h1]; rfl) (by rw [h1]; intro _; rfl)
    (by rw [h1]; intro _ _; rfl))
  have hW : ∀ u v, u < v → v < k → classW G.n G.W lab v u = classW G.n G.toGraph.wt lab v u := by
    intro u v _ _
    unfold classW
    refine Finset.sum_congr rfl fun a ha => Finset.sum_congr rfl fun b _ => ?_
    rw [toGraph_wt _ (mem_range.1 ha)]
  have hsymm : ∀ u v, classW G.n G.toGraph.wt lab u v = classW G.n G.toGraph.wt lab v u := by
    intro u v
    unfold classW
    rw [Finset.sum_comm]
    refine Finset.sum_congr rfl fun a ha => Finset.sum_congr rfl fun b hb => ?_
    rw [toGraph_wt _ (mem_range.1 ha), toGraph_wt _ (mem_range.1 hb), hG.W_symm (mem_range.1 ha) (by simp) (mem_range.1 hb) (by simp)]
    simp only [and_comm]
  have hp := htab.congr hW
  unfold keeps at hkeep
  simp only [Prod.mk.injEq] at hkeep
  obtain ⟨e1, e2, e3, e4, e5, e6, e7⟩ := hkeep
  unfold contract
  refine ⟨⟨⟨hp.valid.pv, hp.valid.wdeg, hp.valid.num⟩, hp.n, hp.cnt, hp.low, hp.up, hp.wt⟩, hsymm, fun p hpk => ?_, fun v hv hn => ?_⟩
  · show (addWeights lab G (allPairs (components lab G k))).cont p = _
    rw [e4, h1]; exact h2 p hpk
  · show (addWeights lab G (allPairs (components lab G k))).pos v = _
    rw [e2, h1]; exact h3 v hv hn

variable {E : Nat → Prop}

theorem stClasses_quot (H : STClasses G lab k s t c) (T : Nat → Bool) :
    cutValue k (classW G.n G.toGraph.wt lab) T = G.cv (fun v => T (lab v)) :=
  cutValue_quotient H.lt (fun _ _ _ _ _ => rfl) T

theorem stClasses_prefixes (hp : Piece E G c) (H : STClasses G lab k s t c) (hs : ∀ u v, classW G.n G.toGraph.wt lab u v = classW G.n G.toGraph.wt lab v u) :
    Prefixes k (classW G.n G.toGraph.wt lab) c := by
  refine ⟨hs, H.two, fun X hX => ?_, fun i h1 h2 => ?_⟩
  · rw [stClasses_quot H]
    refine hp.least _ ?_
    obtain ⟨⟨x, hx, x1⟩, ⟨y, hy, y1⟩⟩ := hX
    obtain ⟨u, hu, rfl⟩ := H.onto x hx
    obtain ⟨v, hv, rfl⟩ := H.onto y hy
    exact ⟨⟨u, hu, x1⟩, ⟨v, hv, y1⟩⟩
  · rw [stClasses_quot H]
    exact H.pre i h1 h2

theorem stClasses_adj (H : STClasses G lab k s t c) (h : 0 < G.W s t) : 0 < classW G.n G.toGraph.wt lab 0 (k - 1) := by
  unfold classW
  have h1 : G.toGraph.wt s t ≤ ∑ v ∈ range G.n, if lab s = 0 ∧ lab v = k - 1 then G.toGraph.wt s v else 0 := by
    have := Finset.single_le_sum (f := fun v => if lab s = 0 ∧ lab v = k - 1 then G.toGraph.wt s v else 0) (fun _ _ => Nat.zero_le _) (mem_range.2 H.sink)
    have hl := H.last
    rw [if_pos ⟨H.first, by omega⟩] at this
    exact this
  have h2 := Finset.single_le_sum (f := fun u => ∑ v ∈ range G.n, if lab u = 0 ∧ lab v = k - 1 then G.toGraph.wt u v else 0) (fun _ _ => Nat.zero_le _)
    (mem_range.2 H.src)
  rw [toGraph_wt _ H.src] at h1
  omega

theorem even_of_single {W : Nat → Nat → Nat} (h : Prefixes k W c) {a : Nat} (h0 : 0 < a) (h1 : a + 1 < k) (hv : ival k W a a = c) : 2 * (c / 2) = c := by
  have := cut_insert (k := k) h.symm (fun v => decide (v < a)) (b := a) (by omega) (by simp)
  rw [h.pre a h0 (by omega)] at this
  have e1 : cutValue k W (fun v => decide (v = a)) = c := by
    rw [← hv]
    refine cutValue_congr fun v _ => decide_eq_decide.2 (by omega)
  have e2 : cutValue k W (fun v => decide (v < a) || decide (v = a)) = c := by
    rw [← h.pre (a + 1) (by omega) h1]
    refine cutValue_congr fun v _ => ?_
    rw [Bool.eq_iff_iff]; simp only [Bool.or_eq_true, decide_eq_true_eq]; omega
  rw [e1, e2] at this
  omega

theorem mem_flat {els : List (Nat × Nat)} {v : Nat} (h : v ∈ flat els) : ∃ x ∈ els, v ∈ elem x := List.mem_flatMap.1 h

theorem findSTCactus_cycles (hp : Piece E G c) (hc : 0 < c) (hK : 2 * (c + 1) < 2 ^ 32) (hl : Listed G) (H : STClasses G lab k s t c) (hst : 0 < G.W s t) :
    ∃ R, findSTCactus c lab G s k = some R ∧ CactusOf E (SplitR G E c fun u v => lab u = lab v) R c ∧ R.contSize = R.n := by
  have hG := hp.valid
  obtain ⟨p1, hsy, p3, p4⟩ := contract_gen (k := k) hG H.lt
  have hP := stClasses_prefixes hp H hsy
  have hadj := stClasses_adj H hst
  have hk := H.two
  set W := classW G.n G.toGraph.wt lab with hW
  obtain ⟨m, hT⟩ := exists_turn (W := W) hk
  have hmemc : ∀ p v, p < k → (v ∈ (contract lab G k).cont p ↔ E v ∧ lab (G.pos v) = p) := by
    intro p v hpk
    rw [p3 p hpk, List.mem_filter, List.mem_range]
    simp only [Bool.and_eq_true, decide_eq_true_eq, beq_iff_eq]
    constructor
    · rintro ⟨h1, h2, h3⟩
      exact ⟨((hp.held.mem _ v h2).1 (hl v h1 h2)).1, h3⟩
    · rintro ⟨h1, h2⟩
      exact ⟨hp.known v h1, hp.held.lt v h1, h2⟩
  have hD : Disjoint k (contract lab G k) := by
    intro x y v hx hy h1 h2
    rw [hmemc x v hx] at h1
    rw [hmemc y v hy] at h2
    rw [← h1.2, ← h2.2]
  have hs0 : (contract lab G k).pos ((G.cont s).headD 0) = 0 := by
    obtain ⟨h1, h2⟩ := hp.head_elem H.src
    rw [p4 _ (hp.known _ h1) (hp.held.lt _ h1), h2]
    exact H.first
  have hO := order_turn p1 hD hP hadj hT hK
  have hpairs := p1.pairs fun u v _ _ => hsy u v
  obtain ⟨els, hlay, hels⟩ := layout_spec hpairs hP hc hadj hT hO.rev hO.map
  have hgood := hP.turn_good hadj hT
  set W' : Nat → Nat → Nat := fun u v => W (turn m k u) (turn m k v) with hW'
  have hP' := hgood.toPrefixes
  obtain ⟨cont, pos, s1, s2, s3⟩ := hO.st
  set st0 := (order c (contract lab G k) 0).st with hst0
  have hev : ∀ z ∈ els, 0 < z.2 → 2 * (c / 2) = c := by
    intro z hz hz2
    obtain ⟨r1, r2, r3, -⟩ := hels.run z hz hz2
    exact even_of_single hP' r1 (by omega) (r3 z.1 (le_refl _) (by omega))
  have hn0 : st0.n = k := by rw [s1]; rfl
  have hlen0 : ∀ u, st0.len u = 0 := by rw [s1]; intro _; rfl
  have hval0 : Valid st0 := by rw [s1]; exact valid_empty (fun _ => rfl) (fun _ => rfl) rfl
  have hcnt0 : ∀ u v, st0.cnt u v = 0 := by intro u v; unfold cnt rowSum; rw [hlen0 u]; simp
  have hb0 : BGraph k c st0 [] st0 := by
    refine ⟨⟨hval0, fun u v _ _ _ _ => by rw [hcnt0]; omega, fun u b _ hb => by rw [hlen0] at hb; omega, fun v _ _ x => hcnt0 v x⟩,
      by rw [hn0, s1], by rw [hn0, s1]; rfl, by omega, rfl, fun _ _ => rfl, fun p h1 h2 => by omega, fun X => ?_, by simp [verts], ?_, fun p h1 h2 => by omega⟩
    · rw [cv_W]
      unfold cutValue
      refine Finset.sum_eq_zero fun u hu => Finset.sum_eq_zero fun v _ => ?_
      unfold MGraph.W rowSum
      rw [hlen0 u]; simp
    · intro v hv
      simp [verts] at hv
      omega
  have hflat : flat (els ++ [(k - 1, 0)]) = List.range k := by
    rw [flat_append, hels.flat]
    have : k = (k - 1) + 1 := by omega
    rw [this, List.range_succ]
    simp [flat]
  obtain ⟨segs, hB, hfilt, hend, hcyc, hall⟩ := build_chain hflat hels.head hk hev hb0
  have hfind : findSTCactus c lab G s k = some (((List.range ((lay (els ++ [(k - 1, 0)])).A.length + (lay (els ++ [(k - 1, 0)])).B.length - 1)).foldl
        (buildStep c (lay (els ++ [(k - 1, 0)]))) { st := st0, previous := 0, a := 0, b := 0 }).st).finishConstruction := by
    unfold findSTCactus
    dsimp only
    rw [hs0, hlay]
    rfl
  set Q := ((List.range ((lay (els ++ [(k - 1, 0)])).A.length + (lay (els ++ [(k - 1, 0)])).B.length - 1)).foldl
        (buildStep c (lay (els ++ [(k - 1, 0)]))) { st := st0, previous := 0, a := 0, b := 0 }).st with hQ
  have hCh : ChainOf k c Q.n W' segs := by
    refine ⟨hgood, ?_, hB.nodup, hfilt, hend, hB.lt, ?_, ?_, ?_⟩
    · intro y hy hy1
      obtain ⟨z, hz, hz2, -⟩ := hcyc y hy hy1
      exact hev z hz hz2
    · intro v hv
      by_cases hvk : v < k
      · have : v ∈ List.range k := List.mem_range.2 hvk
        rw [← hfilt] at this
        exact (List.mem_filter.1 this).1
      · exact List.mem_cons_of_mem _ (hB.empt v (by omega) hv)
    · intro y hy hy1
      obtain ⟨z, hz, hz2, e⟩ := hcyc y hy hy1
      obtain ⟨r1, r2, r3, r4⟩ := hels.run z hz hz2
      exact ⟨z.1, z.2, e, r1, r2, r3, r4⟩
    · intro v v1 v2 hv
      have : v ∈ flat els := by rw [hels.flat]; exact List.mem_range.2 v2
      obtain ⟨x, hx, hvx⟩ := mem_flat this
      unfold elem at hvx
      by_cases hx2 : x.2 = 0
      · rw [if_pos hx2] at hvx
        have hvx : v = x.1 := by simpa using hvx
        subst hvx
        exact absurd hv (hels.single x hx hx2 v1 v2)
      · rw [if_neg hx2] at hvx
        obtain ⟨y, hy, e⟩ := hall x hx (by omega)
        exact ⟨y, hy, by rw [e]; exact hvx⟩
  have hRwt : ∀ X, cutValue Q.finishConstruction.n Q.finishConstruction.toGraph.wt X = cost c X 0 segs := hB.cv
  have hRv : Valid Q.finishConstruction := ⟨hB.e.valid.pv, hB.e.valid.wdeg, hB.e.valid.num⟩
  have hQn : Q.finishConstruction.n = Q.n := rfl
  have hcompl : ∀ X : Nat → Bool, cost c (fun v => !X v) 0 segs = cost c X 0 segs := by
    intro X
    rw [← hRwt, ← hRwt]
    exact cutValue_compl (fun u v => hRv.wf.wt_symm u v) X
  have hGcompl : ∀ X : Nat → Bool, G.cv (fun v => !X v) = G.cv X := fun X => cutValue_compl (fun u v => hG.wf.wt_symm u v) X
  have htl : ∀ i, i < k → turn m k i < k := fun i hi => turn_lt hT.pos hT.le hi
  have htt : ∀ i, i < k → turn m k (turn m k i) = i := fun i hi => turn_turn hT.le hi
  -- where the elements are
  have hpos : ∀ e, E e → Q.pos e = turn m k (lab (G.pos e)) := by
    intro e he
    have h1 := H.lt _ (hp.held.lt e he)
    rw [hB.pos, s1]
    refine s3 e _ (htl _ h1) ?_
    rw [htt _ h1, hmemc _ _ h1]
    exact ⟨he, rfl⟩
  have hposlt : ∀ e, E e → Q.pos e < k := fun e he => by rw [hpos e he]; exact htl _ (H.lt _ (hp.held.lt e he))
  -- cuts of the classes
  have hquot : ∀ X : Nat → Bool, cutValue k W' X = G.cv (fun v => X (turn m k (lab v))) := by
    intro X
    rw [hW', cutValue_turn hT.pos hT.le]
    exact stClasses_quot H (fun v => X (turn m k v))
  have hnk := hB.nk
  refine ⟨_, hfind, ⟨consistent_iff.2 hRv, noParallel_of_simple hRv hB.e.simple, rfl, ?_, ⟨?_, ?_, ?_⟩, hB.e.allw, ?_, ?_, ?_⟩, ?_⟩
  · show Q.n ≤ Q.contSize
    rw [hB.size]
  · intro e he
    show Q.pos e < Q.n
    have := hposlt e he; omega
  · intro p e hpn
    show e ∈ Q.cont p ↔ E e ∧ Q.pos e = p
    by_cases hpk : p < k
    · rw [hB.cont p hpk, s1]
      have : ({ resizePositions (MGraph.start k) (contract lab G k).origNodes with lastNode := k, cont := cont, pos := pos } : MGraph).cont p =
        (contract lab G k).cont (turn m k p) := s2 p hpk
      rw [this, hmemc _ _ (htl p hpk)]
      constructor
      · rintro ⟨h1, h2⟩
        refine ⟨h1, ?_⟩
        rw [hpos e h1, h2, htt p hpk]
      · rintro ⟨h1, h2⟩
        refine ⟨h1, ?_⟩
        rw [hpos e h1] at h2
        rw [← h2, htt _ (H.lt _ (hp.held.lt e h1))]
    · rw [hB.conte p (by omega) hpn]
      constructor
      · intro hh; simp at hh
      · rintro ⟨h1, h2⟩
        have := hposlt e h1; omega
  · intro p hpn
    show (Q.cont p).Nodup
    by_cases hpk : p < k
    · rw [hB.cont p hpk, s1]
      have : ({ resizePositions (MGraph.start k) (contract lab G k).origNodes with lastNode := k, cont := cont, pos := pos } : MGraph).cont p =
        (contract lab G k).cont (turn m k p) := s2 p hpk
      rw [this, p3 _ (htl p hpk)]
      exact List.nodup_range.filter _
    · rw [hB.conte p (by omega) hpn]; exact List.nodup_nil
  · intro X hX
    rw [hRwt]
    exact hCh.least hc hX
  · intro f
    constructor
    · rintro ⟨X, h1, h2, h3⟩
      rw [hRwt] at h2
      have h4 := hCh.value hc h2
      rw [hquot] at h4
      refine ⟨fun v => X (turn m k (lab v)), Piece.proper_of_val (w := G.toGraph.wt) ?_, h4, fun u v hu hv huv => by
        show X (turn m k (lab u)) = X (turn m k (lab v))
        rw [huv], fun e he => ?_⟩
      · have : cutValue G.n G.toGraph.wt (fun v => X (turn m k (lab v))) = c := h4
        omega
      · rw [← h3 e he]
        show _ = X (Q.pos e)
        rw [hpos e he]
    · rintro ⟨S, h1, h2, h3, h4⟩
      -- a cut of the chain for the side without the first class
      have main : ∀ S : Nat → Bool, ProperCut G.n S → G.cv S = c → (∀ u v, u < G.n → v < G.n → lab u = lab v → S u = S v) → S s = false →
          ∃ X, cost c X 0 segs = c ∧ ∀ e, E e → X (Q.pos e) = S (G.pos e) := by
        intro S h1 h2 h3 h0
        classical
        have hY : ∀ v, v < G.n → (fun p => decide (∃ u, u < G.n ∧ turn m k (lab u) = p ∧ S u = true)) (turn m k (lab v)) = S v := by
          intro v hv
          dsimp only
          cases h : S v with
          | true => exact decide_eq_true ⟨v, hv, rfl, h⟩
          | false =>
            refine decide_eq_false ?_
            rintro ⟨u, hu, e1, e2⟩
            have e3 : lab u = lab v := by
              rw [← htt _ (H.lt u hu), ← htt _ (H.lt v hv), e1]
            rw [h3 u v hu hv e3, h] at e2
            cases e2
        have hv : cutValue k W' (fun p => decide (∃ u, u < G.n ∧ turn m k (lab u) = p ∧ S u = true)) = c := by
          rw [hquot, ← h2]
          exact cutValue_congr hY
        obtain ⟨X, x1, x2⟩ := hCh.lift (Piece.proper_of_val (by rw [hv]; omega)) hv (by
          have := hY s H.src
          rw [H.first] at this
          have ht0 : turn m k 0 = 0 := if_pos (by have := hT.pos; omega)
          rw [ht0] at this
          exact this.trans h0)
        refine ⟨X, x2, fun e he => ?_⟩
        rw [x1 _ (hposlt e he), hpos e he]
        exact hY _ (hp.held.lt e he)
      cases h0 : S s with
      | false =>
        obtain ⟨X, x1, x2⟩ := main S h1 h2 h3 h0
        refine ⟨X, Piece.proper_of_val (w := Q.finishConstruction.toGraph.wt) (by rw [hRwt, x1]; omega), by rw [hRwt]; exact x1, fun e he => ?_⟩
        rw [← h4 e he]; exact x2 e he
      | true =>
        obtain ⟨X, x1, x2⟩ := main (fun v => !S v) (by
          obtain ⟨⟨x, hx, x1⟩, ⟨y, hy, y1⟩⟩ := h1
          exact ⟨⟨y, hy, by simp [y1]⟩, ⟨x, hx, by simp [x1]⟩⟩) (by rw [hGcompl]; exact h2) (fun u v hu hv huv => by
            show (!S u) = (!S v)
            rw [h3 u v hu hv huv]) (by simp [h0])
        have x3 : cost c (fun v => !X v) 0 segs = c := by rw [hcompl]; exact x1
        refine ⟨fun v => !X v, Piece.proper_of_val (w := Q.finishConstruction.toGraph.wt) (by rw [hRwt, x3]; omega), by rw [hRwt]; exact x3, fun e he => ?_⟩
        rw [← h4 e he]
        show (!X (Q.pos e)) = _
        rw [x2 e he]; simp
  · intro x y hx hy hxy
    obtain ⟨X, h1, h2⟩ := hCh.separate hx hy hxy
    cases h : X x with
    | true =>
      refine ⟨X, h, ?_, by rw [hRwt]; exact h2⟩
      rw [h] at h1; simpa using Ne.symm h1
    | false =>
      refine ⟨fun v => !X v, by simp [h], ?_, by rw [hRwt, hcompl]; exact h2⟩
      rw [h] at h1
      have : X y = true := by simpa using Ne.symm h1
      simp [this]
  · exact hB.size

end STCactus
end VieCut
