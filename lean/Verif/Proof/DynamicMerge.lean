import Verif.Proof.DynamicPath
import Verif.Props.MutableGraph

/-! Contraction of a set of cactus vertices, and the effect of an edge on the cut values. -/

namespace VieCut
open Finset

/-- The value of a cut after the weight `k` was added between `s` and `t`. -/
theorem cutValue_add {n s t k : Nat} {w w' : Nat → Nat → Nat} (hst : s ≠ t) (hs : s < n) (ht : t < n)
    (h : ∀ u v, u < n → w' u v = w u v + (if (u = s ∧ v = t) ∨ (u = t ∧ v = s) then k else 0)) (S : Nat → Bool) :
    cutValue n w' S = cutValue n w S + (if S s = S t then 0 else k) := by
  have e1 : cutValue n w' S = cutValue n w S +
      ∑ u ∈ range n, ∑ v ∈ range n, (if S u = true ∧ S v = false then (if (u = s ∧ v = t) ∨ (u = t ∧ v = s) then k else 0) else 0) := by
    unfold cutValue
    rw [← Finset.sum_add_distrib]
    refine Finset.sum_congr rfl fun u hu => ?_
    rw [← Finset.sum_add_distrib]
    refine Finset.sum_congr rfl fun v _ => ?_
    rw [h u v (mem_range.1 hu)]
    split <;> simp
  rw [e1]
  congr 1
  have e2 : ∀ u v, (if S u = true ∧ S v = false then (if (u = s ∧ v = t) ∨ (u = t ∧ v = s) then k else 0) else 0) =
      (if u = s then if v = t then (if S s = true ∧ S t = false then k else 0) else 0 else 0) +
      (if u = t then if v = s then (if S t = true ∧ S s = false then k else 0) else 0 else 0) := by
    intro u v
    by_cases c1 : u = s
    · have c2 : u ≠ t := by rintro rfl; exact hst c1.symm
      subst c1
      by_cases c3 : v = t
      · subst c3; simp [c2]
      · simp [c2, c3]
    · by_cases c2 : u = t
      · subst c2
        by_cases c3 : v = s
        · subst c3; simp [c1]
        · simp [c1, c3]
      · simp [c1, c2]
  simp only [e2, Finset.sum_add_distrib]
  have e3 : ∀ a b c, a < n → b < n → (∑ u ∈ range n, ∑ v ∈ range n, if u = a then if v = b then c else 0 else 0) = c := by
    intro a b c ha hb
    rw [Finset.sum_eq_single a]
    · simp [hb]
    · intro u _ hu; simp [hu]
    · intro h; exact absurd (mem_range.2 ha) h
  rw [e3 s t _ hs ht, e3 t s _ ht hs]
  cases S s <;> cases S t <;> simp

namespace Dyn
open MGraph

/-- `C'` is `C` after the vertices of `P` were merged. -/
structure Merged (C C' : MGraph) (P : List Nat) (φ : Nat → Nat) : Prop where
  consistent : C'.Consistent
  simple : C'.NoParallel
  located : Located C'
  size : C'.posSize = C.posSize
  lt : ∀ u, u < C.n → φ u < C'.n
  surj : ∀ p, p < C'.n → ∃ u, u < C.n ∧ φ u = p
  cut : ∀ X, cutValue C'.n C'.toGraph.wt X = cutValue C.n C.toGraph.wt (fun u => X (φ u))
  pos : ∀ v, v < C.posSize → C'.pos v = φ (C.pos v)
  ker : ∀ u v, u < C.n → v < C.n → (φ u = φ v ↔ u = v ∨ (u ∈ P ∧ v ∈ P))

theorem Merged.refl {C : MGraph} (h1 : C.Consistent) (h2 : C.NoParallel) (h3 : Located C) {P : List Nat} (hP : ∀ u ∈ P, ∀ v ∈ P, u = v) :
    Merged C C P id :=
  ⟨h1, h2, h3, rfl, fun _ h => h, fun p hp => ⟨p, hp, rfl⟩, fun _ => rfl, fun _ _ => rfl,
    fun u v _ _ => ⟨Or.inl, fun h => h.elim id fun h => hP u h.1 v h.2⟩⟩

theorem Merged.of_op {C : MGraph} (h1 : C.Consistent) (h2 : C.NoParallel) (h3 : Located C) (o : MGraph.Op) (ho : o.Legal C) {S : List Nat}
    (hS : o.mergeSet C = some S) : ∃ φ, Merged C (o.apply C) S φ := by
  obtain ⟨φ, h⟩ := MGraph.Op.contracted (consistent_iff.1 h1) o ho hS
  refine ⟨φ, consistent_iff.2 h.valid, C07_contract_no_parallel C h1 h2 o S hS ho, h3.contracted h, h.posSize, ?_, ?_, ?_, ?_, h.ker⟩
  · intro u hu
    have := h.con.lt u (by rwa [toGraph_n])
    rwa [toGraph_n] at this
  · intro p hp
    obtain ⟨u, hu, e⟩ := h.con.surj p (by rwa [toGraph_n])
    exact ⟨u, by rwa [toGraph_n] at hu, e⟩
  · intro X
    have hw := h.con.wt
    rw [toGraph_n, toGraph_n] at hw
    refine cutValue_quotient ?_ hw X
    intro u hu
    have := h.con.lt u (by rwa [toGraph_n])
    rwa [toGraph_n] at this
  · intro v hv
    exact (h.pos h3.inv).2 v hv (h3.live v hv)

/-- A further contraction of the vertices `x` and `y`, where `x` is the merged set. -/
theorem Merged.trans {C C1 C2 : MGraph} {P : List Nat} {φ ψ : Nat → Nat} (hl : Located C) (h : Merged C C1 P φ) {h' x : Nat} (hh : h' ∈ P)
    (hhn : h' < C.n) (hx : x < C.n) (hxP : x ∉ P) (k : Merged C1 C2 [φ h', φ x] ψ) : Merged C C2 (x :: P) (fun u => ψ (φ u)) := by
  refine ⟨k.consistent, k.simple, k.located, k.size.trans h.size, fun u hu => k.lt _ (h.lt u hu), ?_, ?_, ?_, ?_⟩
  · intro p hp
    obtain ⟨q, hq, e⟩ := k.surj p hp
    obtain ⟨u, hu, e'⟩ := h.surj q hq
    exact ⟨u, hu, by rw [e', e]⟩
  · intro X
    rw [k.cut, h.cut]
  · intro v hv
    rw [k.pos v (by rw [h.size]; exact hv), h.pos v hv]
  · intro u v hu hv
    rw [k.ker _ _ (h.lt u hu) (h.lt v hv)]
    -- which vertices are mapped to the two contracted ones
    have a1 : ∀ u, u < C.n → (φ u = φ h' ↔ u ∈ P) := by
      intro u hu
      rw [h.ker u h' hu hhn]
      constructor
      · rintro (rfl | h)
        · exact hh
        · exact h.1
      · exact fun hu => Or.inr ⟨hu, hh⟩
    have a2 : ∀ u, u < C.n → (φ u = φ x ↔ u = x) := by
      intro u hu
      rw [h.ker u x hu hx]
      constructor
      · rintro (rfl | h)
        · rfl
        · exact absurd h.2 hxP
      · exact Or.inl
    simp only [List.mem_cons, List.not_mem_nil, or_false]
    rw [a1 u hu, a1 v hv, a2 u hu, a2 v hv, h.ker u v hu hv]
    tauto

theorem Merged.congr {C C' : MGraph} {P Q : List Nat} {φ : Nat → Nat} (h : Merged C C' P φ) (hPQ : ∀ v, v ∈ P ↔ v ∈ Q) : Merged C C' Q φ :=
  { h with ker := fun u v hu hv => by rw [h.ker u v hu hv, hPQ u, hPQ v] }

theorem contractInto_merged {C : MGraph} (h1 : C.Consistent) (h2 : C.NoParallel) (h3 : Located C) {h v : Nat} (hh : C.pos h < C.n)
    (hv : C.pos v < C.n) (hne : C.pos h ≠ C.pos v) : ∃ φ, Merged C (contractInto h C v) [C.pos h, C.pos v] φ := by
  unfold contractInto
  dsimp only
  cases hf : (List.range (C.len (C.pos v))).find? (fun e => decide ((C.edge (C.pos v) e).target = C.pos h)) with
  | none =>
    have hno := List.find?_eq_none.1 hf
    refine Merged.of_op h1 h2 h3 (.contractSparseTargetNoEdge (C.pos h) (C.pos v)) ⟨hh, hv, hne, ?_⟩ rfl
    intro e he ht
    have b := h1.back _ e hh he
    have c := h1.partner _ e hh he
    rw [ht] at b c
    refine hno (C.edge (C.pos h) e).rev (List.mem_range.2 c) ?_
    simpa using b.1
  | some e =>
    have he : e < C.len (C.pos v) := List.mem_range.1 (List.mem_of_find?_eq_some hf)
    have ht : (C.edge (C.pos v) e).target = C.pos h := by simpa using List.find?_some hf
    have b := h1.back _ e hv he
    have c := h1.partner _ e hv he
    rw [ht] at b c
    obtain ⟨φ, h⟩ := Merged.of_op h1 h2 h3 (.contractEdgeSparseTarget (C.pos h) (C.edge (C.pos v) e).rev) ⟨hh, c, h2⟩
      (S := [C.pos h, C.pos v]) (by simp only [Op.mergeSet, b.1])
    exact ⟨φ, h⟩

theorem altScan_spec {C : MGraph} : ∀ (P : List Nat) (high : Option Nat) (k : Nat) (r : Option Nat), altScan C P high k = some r →
    (∀ v ∈ P, C.cont v ≠ []) ∧ (r = high ∨ ∃ h ∈ P, r = some h)
  | [], high, k, r, h => by
    simp only [altScan, Option.some.injEq] at h
    exact ⟨by simp, Or.inl h.symm⟩
  | v :: P, high, k, r, h => by
    unfold altScan at h
    split at h
    · cases h
    · rename_i hc
      split at h
      · cases h
      · dsimp only at h
        by_cases hk : 1 < (if 10 < C.len v then k + 1 else k)
        · rw [if_pos hk] at h; cases h
        · rw [if_neg hk] at h
          obtain ⟨i1, i2⟩ := altScan_spec P _ _ r h
          refine ⟨?_, ?_⟩
          · intro u hu
            rcases List.mem_cons.1 hu with rfl | hu
            · intro hn; rw [hn] at hc; simp at hc
            · exact i1 u hu
          · rcases i2 with i2 | ⟨a, ha, i2⟩
            · by_cases hl : 100 < C.len v
              · rw [if_pos hl] at i2
                exact Or.inr ⟨v, List.mem_cons_self, i2⟩
              · rw [if_neg hl] at i2
                exact Or.inl i2
            · exact Or.inr ⟨a, List.mem_cons_of_mem _ ha, i2⟩

theorem rep_spec {C : MGraph} (h3 : Located C) {v : Nat} (hv : v < C.n) (hc : C.cont v ≠ []) :
    (C.cont v).headD 0 < C.posSize ∧ C.pos ((C.cont v).headD 0) = v := by
  refine h3.inv.back v hv _ ?_
  cases h : C.cont v with
  | nil => exact absurd h hc
  | cons a l => simp

theorem foldInto_merged {C : MGraph} (h3 : Located C) {h : Nat} (hh : h < C.n) (hhc : C.cont h ≠ []) :
    ∀ (todo S : List Nat) (C1 : MGraph) (φ : Nat → Nat), Merged C C1 S φ → h ∈ S → todo.Nodup → (∀ v ∈ todo, v ∉ S) →
      (∀ v ∈ todo, v < C.n ∧ C.cont v ≠ []) →
      ∃ ψ, Merged C ((todo.map fun v => (C.cont v).headD 0).foldl (contractInto ((C.cont h).headD 0)) C1) (todo.reverse ++ S) ψ
  | [], S, C1, φ, hM, _, _, _, _ => ⟨φ, hM⟩
  | x :: todo, S, C1, φ, hM, hS, hnd, hnS, hlt => by
    obtain ⟨hx, hxc⟩ := hlt x List.mem_cons_self
    have hxS := hnS x List.mem_cons_self
    obtain ⟨r1, r2⟩ := rep_spec h3 hh hhc
    obtain ⟨r3, r4⟩ := rep_spec h3 hx hxc
    have p1 : C1.pos ((C.cont h).headD 0) = φ h := by rw [hM.pos _ r1, r2]
    have p2 : C1.pos ((C.cont x).headD 0) = φ x := by rw [hM.pos _ r3, r4]
    have hne : φ h ≠ φ x := by
      intro e
      rcases (hM.ker h x hh hx).1 e with rfl | e
      · exact hxS hS
      · exact hxS e.2
    obtain ⟨ψ, k⟩ := contractInto_merged hM.consistent hM.simple hM.located (h := (C.cont h).headD 0) (v := (C.cont x).headD 0)
      (by rw [p1]; exact hM.lt h hh) (by rw [p2]; exact hM.lt x hx) (by rw [p1, p2]; exact hne)
    rw [p1, p2] at k
    have m := hM.trans h3 hS hh hx hxS k
    obtain ⟨χ, hχ⟩ := foldInto_merged h3 hh hhc todo (x :: S) _ _ m (List.mem_cons_of_mem _ hS) (List.nodup_cons.1 hnd).2
      (by
        intro v hv hm
        rcases List.mem_cons.1 hm with rfl | hm
        · exact (List.nodup_cons.1 hnd).1 hv
        · exact hnS v (List.mem_cons_of_mem _ hv) hm)
      (fun v hv => hlt v (List.mem_cons_of_mem _ hv))
    refine ⟨χ, ?_⟩
    have e : (x :: todo).reverse ++ S = todo.reverse ++ (x :: S) := by simp
    rw [e]
    exact hχ

/-- Both ways of contracting a vertex set merge exactly its vertices. -/
theorem contractSet_merged {C : MGraph} (h1 : C.Consistent) (h2 : C.NoParallel) (h3 : Located C) {P : List Nat} (hnd : P.Nodup)
    (hlt : ∀ v ∈ P, v < C.n) : ∃ φ, Merged C (contractSet C P) P φ := by
  have hdef : ∃ φ, Merged C (C.contractVertexSet P) P φ := Merged.of_op h1 h2 h3 (.contractVertexSet P) hnd rfl
  unfold contractSet
  cases ha : altScan C P none 0 with
  | none => exact hdef
  | some r =>
    cases r with
    | none => exact hdef
    | some h =>
      dsimp only
      obtain ⟨hc, hr⟩ := altScan_spec P none 0 _ ha
      have hh : h ∈ P := by
        rcases hr with hr | ⟨a, ha, hr⟩
        · cases hr
        · simp only [Option.some.injEq] at hr
          rw [hr]; exact ha
      obtain ⟨φ, hφ⟩ := foldInto_merged h3 (hlt h hh) (hc h hh) (P.filter fun v => decide (v ≠ h)) [h] C id
        (Merged.refl h1 h2 h3 (by simp)) (by simp) (hnd.filter _) (by intro v hv; simpa using (List.mem_filter.1 hv).2)
        (fun v hv => ⟨hlt v (List.mem_filter.1 hv).1, hc v (List.mem_filter.1 hv).1⟩)
      refine ⟨φ, hφ.congr ?_⟩
      intro v
      simp only [List.mem_append, List.mem_reverse, List.mem_filter, decide_eq_true_eq, List.mem_cons, List.not_mem_nil, or_false]
      constructor
      · rintro (h | rfl)
        · exact h.1
        · exact hh
      · intro hv
        by_cases e : v = h
        · exact Or.inr e
        · exact Or.inl ⟨hv, e⟩

theorem Shape.located {C : MGraph} {n : Nat} (h : Shape C n) : Located C := by
  refine ⟨⟨?_, ?_, fun p hp => (h.members p hp).1⟩, fun v hv => (h.found v (h.size ▸ hv)).1⟩
  · intro p hp v hv
    have hvn := (h.members p hp).2 v hv
    refine ⟨by rw [h.size]; exact hvn, ?_⟩
    by_contra hne
    exact (h.found v hvn).2.2 p hp (Ne.symm hne) hv
  · intro v hv _
    have := (h.found v (h.size ▸ hv)).2.1
    exact List.count_pos_iff.1 (by omega)

theorem Shape.of_located {C : MGraph} {n : Nat} (h1 : C.Consistent) (h2 : C.NoParallel) (h3 : Located C) (hn : C.posSize = n)
    (h2n : 2 ≤ C.n) : Shape C n :=
  ⟨h1, h2, h2n, hn, fun v hv => h3.foundOnce (hn ▸ hv), fun p hp => ⟨h3.inv.nodup p hp, fun v hv => hn ▸ (h3.inv.back p hp v hv).1⟩⟩

theorem Shape.pos_lt {C : MGraph} {n v : Nat} (h : Shape C n) (hv : v < n) : C.pos v < C.n := (h.found v hv).1

/-- Merging a proper subset keeps at least two vertices. -/
theorem Merged.shape {C C' : MGraph} {P : List Nat} {φ : Nat → Nat} {n : Nat} (h : Shape C n) (hM : Merged C C' P φ) (hnd : P.Nodup)
    (hlt : ∀ v ∈ P, v < C.n) (hlen : P.length ≠ C.n) : Shape C' n := by
  refine Shape.of_located hM.consistent hM.simple hM.located (hM.size.trans h.size) ?_
  have hsub : P ⊆ List.range C.n := fun v hv => List.mem_range.2 (hlt v hv)
  have hle : P.length ≤ C.n := by simpa using (List.subperm_of_subset hnd hsub).length_le
  obtain ⟨u, hu, huP⟩ : ∃ u, u < C.n ∧ u ∉ P := by
    by_contra hcon
    have : List.range C.n ⊆ P := fun v hv => by_contra fun h => hcon ⟨v, List.mem_range.1 hv, h⟩
    have := (List.subperm_of_subset List.nodup_range this).length_le
    rw [List.length_range] at this
    omega
  obtain ⟨v, hv, hne⟩ : ∃ v, v < C.n ∧ v ≠ u := by
    have := h.two
    by_cases h0 : u = 0
    · exact ⟨1, by omega, by omega⟩
    · exact ⟨0, by omega, by omega⟩
  have hφ : φ v ≠ φ u := by
    intro e
    rcases (hM.ker v u hv hu).1 e with e | e
    · exact hne e
    · exact huP e.2
  have a := hM.lt u hu
  have b := hM.lt v hv
  omega

theorem Merged.proper {C C' : MGraph} {P : List Nat} {φ : Nat → Nat} (hM : Merged C C' P φ) {X : Nat → Bool} (h : ProperCut C'.n X) :
    ProperCut C.n (fun u => X (φ u)) := by
  obtain ⟨⟨u, hu, h1⟩, ⟨v, hv, h2⟩⟩ := h
  obtain ⟨a, ha, rfl⟩ := hM.surj u hu
  obtain ⟨b, hb, rfl⟩ := hM.surj v hv
  exact ⟨⟨a, ha, h1⟩, ⟨b, hb, h2⟩⟩

theorem Merged.inside {C C' : MGraph} {P : List Nat} {φ : Nat → Nat} (hM : Merged C C' P φ) (X : Nat → Bool) {v : Nat} (hv : v < C.posSize) :
    inside C' X v = inside C (fun u => X (φ u)) v := by
  unfold Dyn.inside
  rw [hM.pos v hv]

end Dyn
end VieCut
