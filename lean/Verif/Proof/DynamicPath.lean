import Verif.Spec.Dynamic
import Verif.Proof.MutableHistory
import Verif.Proof.Cut

/-! `findPath` returns a list of distinct vertices that contains both ends, if the graph is connected. -/

namespace VieCut
namespace Dyn
open Function

/-- The vertices found so far, the last one first.  `s` and `t` are the roots. -/
inductive Tree (s t : Nat) (par : Parents) : List Nat → Prop
  | base : s ≠ t → par s = some (s, s, true) → par t = some (t, t, true) → Tree s t par [t, s]
  | step {v p r : Nat} {f : Bool} {L : List Nat} : Tree s t par L → v ∉ L → p ∈ L → par v = some (p, r, f) →
      ((par p).map (·.2.1)) = some r → Tree s t par (v :: L)

theorem Tree.root {s t : Nat} {par : Parents} {L : List Nat} (h : Tree s t par L) :
    ∀ v ∈ L, ((par v).map (·.2.1)) = some s ∨ ((par v).map (·.2.1)) = some t := by
  induction h with
  | base h0 h1 h2 =>
    intro v hv
    simp only [List.mem_cons, List.not_mem_nil, or_false] at hv
    rcases hv with rfl | rfl
    · right; rw [h2]; rfl
    · left; rw [h1]; rfl
  | step _ hn hp hpar hr ih =>
    intro v hv
    rcases List.mem_cons.1 hv with rfl | hv
    · have := ih _ hp
      rw [hr] at this
      rw [hpar]
      exact this
    · exact ih v hv

theorem Tree.grow {s t : Nat} {par : Parents} {L : List Nat} (h : Tree s t par L) {v : Nat} (hv : v ∉ L) (x) :
    Tree s t (update par v x) L := by
  induction h with
  | base h0 h1 h2 =>
    simp only [List.mem_cons, List.not_mem_nil, or_false, not_or] at hv
    exact .base h0 (by rw [update_of_ne (Ne.symm hv.2)]; exact h1) (by rw [update_of_ne (Ne.symm hv.1)]; exact h2)
  | @step u p r f L h hn hp hpar hr ih =>
    simp only [List.mem_cons, not_or] at hv
    refine .step (ih hv.2) hn hp (by rw [update_of_ne (Ne.symm hv.1)]; exact hpar) ?_
    rw [update_of_ne]
    · exact hr
    · rintro rfl; exact hv.2 hp

theorem Tree.two_le {s t : Nat} {par : Parents} {L : List Nat} (h : Tree s t par L) : 2 ≤ L.length := by
  induction h with
  | base => simp
  | step _ _ _ _ _ ih => simp; omega

theorem Tree.mem_root {s t : Nat} {par : Parents} {L : List Nat} (h : Tree s t par L) : s ∈ L ∧ t ∈ L := by
  induction h with
  | base => simp
  | step _ _ _ _ _ ih => exact ⟨List.mem_cons_of_mem _ ih.1, List.mem_cons_of_mem _ ih.2⟩

theorem mem_insertNew {v x : Nat} {acc : List Nat} : x ∈ insertNew v acc ↔ x = v ∨ x ∈ acc := by
  unfold insertNew
  split
  · constructor
    · exact Or.inr
    · rintro (rfl | h)
      · assumption
      · exact h
  · exact List.mem_cons

theorem nodup_insertNew {v : Nat} {acc : List Nat} (h : acc.Nodup) : (insertNew v acc).Nodup := by
  unfold insertNew
  split
  · exact h
  · exact List.nodup_cons.2 ⟨by assumption, h⟩

theorem walk_spec {s t : Nat} {par : Parents} {L : List Nat} (h : Tree s t par L) {goal : Nat} (hf : flag par goal = true) :
    ∀ (fuel cur : Nat) (onT : Bool) (acc : List Nat), L.length ≤ fuel → cur ∈ L → ((par cur).map (·.2.1)) = some goal → acc.Nodup →
      (walk par goal fuel cur onT acc).Nodup ∧ acc ⊆ walk par goal fuel cur onT acc ∧
      (∀ x ∈ walk par goal fuel cur onT acc, x ∈ acc ∨ x ∈ L) ∧ ((cur = goal → goal ∈ acc) → goal ∈ walk par goal fuel cur onT acc) := by
  induction h with
  | base h0 h1 h2 =>
    intro fuel cur onT acc hl hc hr ha
    cases fuel with
    | zero => simp at hl
    | succ fuel =>
      have hcg : cur = goal := by
        simp only [List.mem_cons, List.not_mem_nil, or_false] at hc
        rcases hc with rfl | rfl
        · rw [h2] at hr; simpa using hr
        · rw [h1] at hr; simpa using hr
      subst hcg
      unfold walk
      rw [if_pos rfl]
      exact ⟨ha, List.Subset.refl _, fun x hx => Or.inl hx, fun h => h rfl⟩
  | @step u p r f L h hn hp hpar hr ih =>
    intro fuel cur onT acc hl hc hrt ha
    simp only [List.length_cons] at hl
    rcases List.mem_cons.1 hc with rfl | hc'
    · cases fuel with
      | zero => omega
      | succ fuel =>
        unfold walk
        by_cases hg : cur = goal
        · rw [if_pos hg]
          subst hg
          exact ⟨ha, List.Subset.refl _, fun x hx => Or.inl hx, fun h => h rfl⟩
        · rw [if_neg hg]
          dsimp only
          have hpp : ((par cur).map (·.1)).getD 0 = p := by rw [hpar]; rfl
          rw [hpp]
          have hrg : r = goal := by
            rw [hpar] at hrt
            simpa using hrt
          set acc' := (if (onT || flag par p) = true then insertNew p acc else acc) with hacc'
          have ha' : acc'.Nodup := by
            rw [hacc']; split
            · exact nodup_insertNew ha
            · exact ha
          have hsub : acc ⊆ acc' := by
            rw [hacc']; split
            · intro x hx; exact mem_insertNew.2 (Or.inr hx)
            · exact List.Subset.refl _
          have hmem : ∀ x ∈ acc', x = p ∨ x ∈ acc := by
            intro x hx
            rw [hacc'] at hx
            split at hx
            · exact mem_insertNew.1 hx
            · exact Or.inr hx
          obtain ⟨i1, i2, i3, i4⟩ := ih fuel p (flag par p) acc' (by omega) hp (by rw [hr, hrg]) ha'
          refine ⟨i1, fun x hx => i2 (hsub hx), ?_, ?_⟩
          · intro x hx
            rcases i3 x hx with hx | hx
            · rcases hmem x hx with rfl | hx
              · exact Or.inr (List.mem_cons_of_mem _ hp)
              · exact Or.inl hx
            · exact Or.inr (List.mem_cons_of_mem _ hx)
          · intro _
            refine i4 fun hpg => ?_
            rw [hacc', hpg, hf]
            simp only [Bool.or_true, if_true]
            exact mem_insertNew.2 (Or.inl rfl)
    · obtain ⟨i1, i2, i3, i4⟩ := ih fuel cur onT acc (by omega) hc' hrt ha
      exact ⟨i1, i2, fun x hx => (i3 x hx).imp id (List.mem_cons_of_mem _), i4⟩

theorem Tree.flags {s t : Nat} {par : Parents} {L : List Nat} (h : Tree s t par L) :
    s ≠ t ∧ par s = some (s, s, true) ∧ par t = some (t, t, true) := by
  induction h with
  | base h0 h1 h2 => exact ⟨h0, h1, h2⟩
  | step _ _ _ _ _ ih => exact ih

theorem Tree.nodup {s t : Nat} {par : Parents} {L : List Nat} (h : Tree s t par L) : L.Nodup := by
  induction h with
  | base h0 h1 h2 => simp [Ne.symm h0]
  | step _ hn _ _ _ ih => exact List.nodup_cons.2 ⟨hn, ih⟩

/-- State of the search between two dequeue operations: `L` the vertices found, all below `n`. -/
structure Found (s t n : Nat) (par : Parents) (L : List Nat) : Prop where
  tree : Tree s t par L
  lt : ∀ v ∈ L, v < n
  new : ∀ v, v ∉ L → par v = none

theorem scan_spec {s t n : Nat} (mincut u root : Nat) : ∀ (es : List (Nat × Nat)) (par : Parents) (q L : List Nat),
    Found s t n par L → u ∈ L → (par u).map (·.2.1) = some root → (∀ e ∈ es, e.1 < n) →
    (∀ par' tgt, scan mincut u root es par q = .inl (par', tgt) →
      ∃ L' r, Found s t n par' L' ∧ u ∈ L' ∧ tgt ∈ L' ∧ (par' u).map (·.2.1) = some root ∧ (par' tgt).map (·.2.1) = some r ∧ r ≠ root) ∧
    (∀ par' q', scan mincut u root es par q = .inr (par', q') →
      ∃ new, Found s t n par' (new ++ L) ∧ q' = q ++ new.reverse ∧ (∀ v ∈ L, par' v = par v) ∧
        ∀ e ∈ es, e.1 ∈ new ++ L ∧ (par' e.1).map (·.2.1) = some root)
  | [], par, q, L, hF, hu, hr, _ => by
    constructor
    · intro par' tgt h; simp [scan] at h
    · intro par' q' h
      simp only [scan, Sum.inr.injEq, Prod.mk.injEq] at h
      obtain ⟨rfl, rfl⟩ := h
      exact ⟨[], by simpa using hF, by simp, fun _ _ => rfl, by simp⟩
  | (tgt, wgt) :: es, par, q, L, hF, hu, hr, hlt => by
    unfold scan
    cases hp : par tgt with
    | some r =>
      have hm : tgt ∈ L := by
        by_contra hm
        rw [hF.new tgt hm] at hp
        cases hp
      by_cases hne : r.2.1 ≠ root
      · simp only [if_pos hne]
        constructor
        · intro par' tgt' h
          simp only [Sum.inl.injEq, Prod.mk.injEq] at h
          obtain ⟨rfl, rfl⟩ := h
          exact ⟨L, r.2.1, hF, hu, hm, hr, by rw [hp]; rfl, hne⟩
        · intro par' q' h; cases h
      · simp only [if_neg hne]
        obtain ⟨i1, i2⟩ := scan_spec mincut u root es par q L hF hu hr (fun e he => hlt e (List.mem_cons_of_mem _ he))
        refine ⟨i1, ?_⟩
        intro par' q' h
        obtain ⟨new, j1, j2, j3, j4⟩ := i2 par' q' h
        refine ⟨new, j1, j2, j3, ?_⟩
        intro e he
        rcases List.mem_cons.1 he with rfl | he
        · refine ⟨List.mem_append_right _ hm, ?_⟩
          rw [j3 _ hm, hp]
          simpa using not_not.1 hne
        · exact j4 e he
    | none =>
      dsimp only
      have hm : tgt ∉ L := by
        intro hm
        rcases hF.tree.root _ hm with h | h <;> rw [hp] at h <;> simp at h
      have hut : u ≠ tgt := by rintro rfl; exact hm hu
      set par1 := update par tgt (some (u, root, decide (wgt = mincut))) with hpar1
      have hu1 : par1 u = par u := by rw [hpar1, update_of_ne hut]
      have hF1 : Found s t n par1 (tgt :: L) := by
        refine ⟨.step (hF.tree.grow hm _) hm hu (update_self _ _ _) (by rw [hu1]; exact hr), ?_, ?_⟩
        · intro v hv
          rcases List.mem_cons.1 hv with rfl | hv
          · exact hlt _ List.mem_cons_self
          · exact hF.lt v hv
        · intro v hv
          simp only [List.mem_cons, not_or] at hv
          rw [hpar1, update_of_ne hv.1]
          exact hF.new v hv.2
      obtain ⟨i1, i2⟩ := scan_spec mincut u root es par1 (q ++ [tgt]) (tgt :: L) hF1 (List.mem_cons_of_mem _ hu)
        (by rw [hu1]; exact hr) (fun e he => hlt e (List.mem_cons_of_mem _ he))
      refine ⟨i1, ?_⟩
      intro par' q' h
      obtain ⟨new, j1, j2, j3, j4⟩ := i2 par' q' h
      have e1 : (new ++ [tgt]) ++ L = new ++ tgt :: L := by simp
      refine ⟨new ++ [tgt], by rw [e1]; exact j1, by rw [j2]; simp, ?_, ?_⟩
      · intro v hv
        rw [j3 v (List.mem_cons_of_mem _ hv), hpar1, update_of_ne]
        rintro rfl; exact hm hv
      · intro e he
        rw [e1]
        rcases List.mem_cons.1 he with rfl | he
        · refine ⟨by simp, ?_⟩
          rw [j3 tgt List.mem_cons_self, hpar1, update_self]
          rfl
        · exact j4 e he

theorem bfs_spec {s t : Nat} {C : MGraph} (hC : C.Consistent) (mincut : Nat)
    (hconn : ∀ X, ProperCut C.n X → 0 < cutValue C.n C.toGraph.wt X) :
    ∀ (fuel : Nat) (par : Parents) (q L D : List Nat), Found s t C.n par L → L.Perm (D ++ q) →
      (∀ v ∈ D, ∀ e ∈ C.toGraph.edges v, e.1 ∈ L ∧ (par e.1).map (·.2.1) = (par v).map (·.2.1)) → C.n + 1 ≤ fuel + D.length →
      ∃ par' n tgt L' a b, bfs C mincut fuel par q = some (par', n, tgt) ∧ Found s t C.n par' L' ∧ n ∈ L' ∧ tgt ∈ L' ∧
        (par' n).map (·.2.1) = some a ∧ (par' tgt).map (·.2.1) = some b ∧ a ≠ b := by
  have hwf := (MGraph.consistent_iff.1 hC).wf
  intro fuel
  induction fuel with
  | zero =>
    intro par q L D hF hp _ hf
    have h1 : L.length ≤ C.n := by
      have : L ⊆ List.range C.n := fun v hv => List.mem_range.2 (hF.lt v hv)
      simpa using (List.subperm_of_subset hF.tree.nodup this).length_le
    have h2 := hp.length_eq
    rw [List.length_append] at h2
    omega
  | succ fuel ih =>
    intro par q L D hF hp hD hf
    cases q with
    | nil =>
      exfalso
      rw [List.append_nil] at hp
      obtain ⟨hst, hs, ht⟩ := hF.tree.flags
      -- the vertices of root `s` have no edge to other vertices
      have hpos := hconn (fun v => decide ((par v).map (·.2.1) = some s)) ⟨⟨s, hF.lt s hF.tree.mem_root.1, by simp [hs]⟩,
        ⟨t, hF.lt t hF.tree.mem_root.2, by simp [ht, Ne.symm hst]⟩⟩
      refine absurd hpos (Nat.not_lt.2 (Nat.le_of_eq ?_))
      unfold cutValue
      refine Finset.sum_eq_zero fun u hu => Finset.sum_eq_zero fun v hv => ?_
      split
      · rename_i hc
        simp only [decide_eq_true_eq, decide_eq_false_iff_not] at hc
        have hul : u ∈ L := by
          by_contra h
          rw [hF.new u h] at hc
          simp at hc
        unfold Graph.wt
        have : ((C.toGraph.edges u).filter fun e => e.1 == v) = [] := by
          rw [List.filter_eq_nil_iff]
          intro e he hev
          have hev : e.1 = v := by simpa using hev
          have := (hD u (hp.mem_iff.1 hul) e he).2
          rw [hev] at this
          exact hc.2 (this.trans hc.1)
        rw [this]; rfl
      · rfl
    | cons u q =>
      have huL : u ∈ L := hp.mem_iff.2 (by simp)
      have hun := hF.lt u huL
      obtain ⟨root, hroot⟩ : ∃ r, (par u).map (·.2.1) = some r := by
        rcases hF.tree.root u huL with h | h
        · exact ⟨s, h⟩
        · exact ⟨t, h⟩
      have hlt : ∀ e ∈ C.toGraph.edges u, e.1 < C.n := by
        intro e he
        have := hwf.tgt_lt u e he
        rwa [MGraph.toGraph_n] at this
      obtain ⟨i1, i2⟩ := scan_spec mincut u root (C.toGraph.edges u) par q L hF huL hroot hlt
      unfold bfs
      rw [hroot]
      simp only [Option.getD_some]
      cases hsc : scan mincut u root (C.toGraph.edges u) par q with
      | inl x =>
        obtain ⟨par', tgt⟩ := x
        obtain ⟨L', r, k1, k2, k3, k4, k5, k6⟩ := i1 par' tgt hsc
        exact ⟨par', u, tgt, L', root, r, rfl, k1, k2, k3, k4, k5, Ne.symm k6⟩
      | inr x =>
        obtain ⟨par', q'⟩ := x
        obtain ⟨new, k1, k2, k3, k4⟩ := i2 par' q' hsc
        refine ih par' q' (new ++ L) (D ++ [u]) k1 ?_ ?_ (by simp; omega)
        · rw [k2]
          have h1 : (new ++ L).Perm (new.reverse ++ (D ++ (u :: q))) := List.Perm.append (List.reverse_perm new).symm hp
          refine h1.trans ?_
          have h2 : D ++ [u] ++ (q ++ new.reverse) = (D ++ (u :: q)) ++ new.reverse := by simp
          rw [h2]
          exact List.perm_append_comm
        · intro v hv e he
          rcases List.mem_append.1 hv with hv | hv
          · obtain ⟨a, b⟩ := hD v hv e he
            have hvL : v ∈ L := hp.mem_iff.2 (List.mem_append_left _ hv)
            exact ⟨List.mem_append_right _ a, by rw [k3 _ a, k3 _ hvL]; exact b⟩
          · have : v = u := by simpa using hv
            subst this
            obtain ⟨a, b⟩ := k4 e he
            exact ⟨a, by rw [b, k3 _ huL, hroot]⟩

/-- `findPath` between two different vertices of a connected graph. -/
theorem findPath_spec {C : MGraph} (hC : C.Consistent) {s t : Nat} (hs : s < C.n) (ht : t < C.n) (hst : s ≠ t) (mincut : Nat)
    (hconn : ∀ X, ProperCut C.n X → 0 < cutValue C.n C.toGraph.wt X) :
    (findPath C s t mincut).Nodup ∧ (∀ v ∈ findPath C s t mincut, v < C.n) ∧ s ∈ findPath C s t mincut ∧ t ∈ findPath C s t mincut := by
  unfold findPath
  dsimp only
  set par0 : Parents := update (update (fun _ => none) s (some (s, s, true))) t (some (t, t, true)) with hpar0
  have hF0 : Found s t C.n par0 [t, s] := by
    refine ⟨.base hst (by rw [hpar0, update_of_ne hst, update_self]) (by rw [hpar0, update_self]), ?_, ?_⟩
    · intro v hv
      simp only [List.mem_cons, List.not_mem_nil, or_false] at hv
      rcases hv with rfl | rfl <;> assumption
    · intro v hv
      simp only [List.mem_cons, List.not_mem_nil, or_false, not_or] at hv
      rw [hpar0, update_of_ne hv.1, update_of_ne hv.2]
  obtain ⟨par, n, tgt, L, a, b, h1, hF, hn, htg, ha, hb, hab⟩ := bfs_spec hC mincut hconn (C.n + 1) par0 [s, t] [t, s] [] hF0
    (by simpa using List.Perm.swap s t []) (by simp) (by simp)
  rw [h1]
  dsimp only
  obtain ⟨_, fs, ft⟩ := hF.tree.flags
  have hfs : flag par s = true := by unfold flag; rw [fs]; rfl
  have hft : flag par t = true := by unfold flag; rw [ft]; rfl
  have hlen : L.length ≤ C.n := by
    have : L ⊆ List.range C.n := fun v hv => List.mem_range.2 (hF.lt v hv)
    simpa using (List.subperm_of_subset hF.tree.nodup this).length_le
  have hne : n ≠ tgt := by
    rintro rfl
    rw [ha] at hb
    exact hab (by simpa using hb)
  set acc := insertNew n [tgt] with hacc
  have hacc1 : acc.Nodup := nodup_insertNew (by simp)
  have hacc2 : n ∈ acc ∧ tgt ∈ acc := ⟨mem_insertNew.2 (Or.inl rfl), mem_insertNew.2 (Or.inr (by simp))⟩
  have hacc3 : ∀ x ∈ acc, x ∈ L := by
    intro x hx
    rcases mem_insertNew.1 hx with rfl | hx
    · exact hn
    · have : x = tgt := by simpa using hx
      exact this ▸ htg
  -- the two ends, in the order `s`, `t`
  have key : ∀ x y on1 on2, x ∈ L → y ∈ L → x ∈ acc → y ∈ acc → (par x).map (·.2.1) = some s → (par y).map (·.2.1) = some t →
      (walk par t C.n y on2 (walk par s C.n x on1 acc)).Nodup ∧
      (∀ v ∈ walk par t C.n y on2 (walk par s C.n x on1 acc), v < C.n) ∧
      s ∈ walk par t C.n y on2 (walk par s C.n x on1 acc) ∧ t ∈ walk par t C.n y on2 (walk par s C.n x on1 acc) := by
    intro x y on1 on2 hx hy hxa hya hrx hry
    obtain ⟨i1, i2, i3, i4⟩ := walk_spec hF.tree hfs C.n x on1 acc hlen hx hrx hacc1
    obtain ⟨j1, j2, j3, j4⟩ := walk_spec hF.tree hft C.n y on2 _ hlen hy hry i1
    refine ⟨j1, ?_, j2 (i4 fun h => h ▸ hxa), j4 fun h => i2 (h ▸ hya)⟩
    intro v hv
    rcases j3 v hv with h | h
    · rcases i3 v h with h | h
      · exact hF.lt v (hacc3 v h)
      · exact hF.lt v h
    · exact hF.lt v h
  rw [ha, Option.getD_some]
  by_cases hs' : a = s
  · rw [if_pos hs', if_pos hs']
    refine key _ _ _ _ hn htg hacc2.1 hacc2.2 (by rw [ha, hs']) ?_
    rcases hF.tree.root tgt htg with h | h
    · rw [hb] at h
      exact absurd (hs'.trans (by simpa using h.symm)) hab
    · exact h
  · rw [if_neg hs', if_neg hs']
    have hat : a = t := by
      rcases hF.tree.root n hn with h | h
      · rw [ha] at h; exact absurd (by simpa using h) hs'
      · rw [ha] at h; simpa using h
    refine key _ _ _ _ htg hn hacc2.2 hacc2.1 ?_ (by rw [ha, hat])
    rcases hF.tree.root tgt htg with h | h
    · exact h
    · rw [hb] at h
      exact absurd (hat.trans (by simpa using h.symm)) hab

end Dyn
end VieCut
