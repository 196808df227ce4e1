import Verif.Model.PRTests
import Verif.Proof.UnionFind
import Verif.Proof.Cut
import Verif.Spec.Contraction
import Verif.Proof.Contract

/-! # Soundness of the Padberg-Rinaldi tests -/

namespace VieCut
open Finset Function Graph

/-! ### Moving one vertex across a cut -/

/-- Weight from `u` to the other side of `S`. -/
def crossing (G : Graph) (S : Nat → Bool) (u : Nat) : Nat :=
  ∑ v ∈ range G.n, if S v ≠ S u then G.wt u v else 0

theorem cut_flip {G : Graph} (hG : G.WF) (S : Nat → Bool) {u : Nat} (hu : u < G.n) :
    cutValue G.n G.wt (update S u (!S u)) + 2 * crossing G S u = cutValue G.n G.wt S + G.deg u := by
  have hr : range G.n = insert u ((range G.n).erase u) := (insert_erase (mem_range.2 hu)).symm
  have hni : u ∉ (range G.n).erase u := by simp
  have hsy : ∀ a ∈ (range G.n).erase u, G.wt a u = G.wt u a := fun a _ => hG.wt_symm a u
  have e1 : cutValue G.n G.wt S = inner G.wt S ((range G.n).erase u) +
      ∑ a ∈ (range G.n).erase u, if S a ≠ S u then G.wt a u else 0 := by
    rw [← inner_range, hr, inner_insert hni hsy, ← hr]
  have e2 : cutValue G.n G.wt (update S u (!S u)) = inner G.wt S ((range G.n).erase u) +
      ∑ a ∈ (range G.n).erase u, if S a = S u then G.wt a u else 0 := by
    rw [← inner_range, hr, inner_insert hni hsy, ← hr]
    congr 1
    · unfold inner
      refine Finset.sum_congr rfl fun x hx => Finset.sum_congr rfl fun y hy => ?_
      rw [update_of_ne (mem_erase.1 hx).1, update_of_ne (mem_erase.1 hy).1]
    · refine Finset.sum_congr rfl fun x hx => ?_
      rw [update_of_ne (mem_erase.1 hx).1, update_self]
      cases S x <;> cases S u <;> simp
  have e3 : crossing G S u = ∑ a ∈ (range G.n).erase u, if S a ≠ S u then G.wt a u else 0 := by
    unfold crossing
    rw [← Finset.add_sum_erase _ _ (mem_range.2 hu)]
    simp only [ne_eq, not_true_eq_false, if_false, Nat.zero_add]
    exact Finset.sum_congr rfl fun a _ => by rw [hG.wt_symm u a]
  have e4 : G.deg u = (∑ a ∈ (range G.n).erase u, if S a ≠ S u then G.wt a u else 0) +
      ∑ a ∈ (range G.n).erase u, if S a = S u then G.wt a u else 0 := by
    rw [hG.deg_eq, ← Finset.add_sum_erase _ _ (mem_range.2 hu), hG.wt_self, Nat.zero_add, ← Finset.sum_add_distrib]
    refine Finset.sum_congr rfl fun a _ => ?_
    rw [hG.wt_symm u a]
    by_cases h : S a = S u <;> simp [h]
  omega

/-- A set containing only `u`, or everything but `u`, has cut value `deg u`. -/
theorem flip_proper {G : Graph} (hG : G.WF) {S : Nat → Bool} (hS : ProperCut G.n S) {u : Nat} (hu : u < G.n)
    (hlt : cutValue G.n G.wt S ≠ G.deg u) : ProperCut G.n (update S u (!S u)) := by
  obtain ⟨⟨a, ha, ha'⟩, ⟨b, hb, hb'⟩⟩ := hS
  by_contra hnp
  apply hlt
  rw [← hG.cut_singleton hu]
  cases hSu : S u with
  | true =>
    have hall : ∀ x, x < G.n → x ≠ u → S x = false := by
      intro x hx hxu
      by_contra hc
      apply hnp
      refine ⟨⟨x, hx, ?_⟩, ⟨b, hb, ?_⟩⟩
      · rw [update_of_ne hxu]; simpa using hc
      · rw [update_of_ne]
        · exact hb'
        · rintro rfl; rw [hb'] at hSu; cases hSu
    refine cutValue_congr fun x hx => ?_
    by_cases hxu : x = u
    · simp [hxu, hSu]
    · simp [hxu, hall x hx hxu]
  | false =>
    have hall : ∀ x, x < G.n → x ≠ u → S x = true := by
      intro x hx hxu
      by_contra hc
      apply hnp
      refine ⟨⟨a, ha, ?_⟩, ⟨x, hx, ?_⟩⟩
      · rw [update_of_ne]
        · exact ha'
        · rintro rfl; rw [ha'] at hSu; cases hSu
      · rw [update_of_ne hxu]; simpa using hc
    rw [← cutValue_compl (fun a b => hG.wt_symm a b)]
    refine cutValue_congr fun x hx => ?_
    by_cases hxu : x = u
    · simp [hxu, hSu]
    · simp [hxu, hall x hx hxu]

theorem crossing_ge1 {G : Graph} {S : Nat → Bool} {u v : Nat} (hv : v < G.n) (h : S v ≠ S u) :
    G.wt u v ≤ crossing G S u := by
  have := Finset.single_le_sum (f := fun v => if S v ≠ S u then G.wt u v else 0) (fun _ _ => Nat.zero_le _)
    (mem_range.2 hv)
  simpa [h, crossing] using this

theorem crossing_ge2 {G : Graph} {S : Nat → Bool} {u v x : Nat} (hv : v < G.n) (hx : x < G.n) (hvx : v ≠ x)
    (h : S v ≠ S u) (h' : S x ≠ S u) : G.wt u v + G.wt u x ≤ crossing G S u := by
  have := Finset.sum_le_sum_of_subset (f := fun v => if S v ≠ S u then G.wt u v else 0)
    (s := {v, x}) (t := range G.n) (by intro y hy; simp at hy; rcases hy with rfl | rfl <;> simpa)
  rw [Finset.sum_pair hvx] at this
  simpa [h, h', crossing] using this

/-- The cut separates `n` from `t`, hence every other vertex from one of them. -/
theorem cut_ge_star {G : Graph} (hG : G.WF) {S : Nat → Bool} {n t : Nat} (hn : n < G.n) (ht : t < G.n)
    (hnt : n ≠ t) (hS : S n ≠ S t) :
    G.wt n t + ∑ x ∈ ((range G.n).erase n).erase t, min (G.wt n x) (G.wt t x) ≤ cutValue G.n G.wt S := by
  wlog hSn : S n = true generalizing n t
  · have hSt : S t = true := by
      cases h1 : S t
      · cases h2 : S n
        · rw [h1, h2] at hS; exact absurd rfl hS
        · exact absurd h2 hSn
      · rfl
    have := this ht hn (Ne.symm hnt) (Ne.symm hS) hSt
    rw [hG.wt_symm n t, erase_right_comm]
    refine le_trans (le_of_eq ?_) this
    congr 1
    exact Finset.sum_congr rfl fun x _ => min_comm _ _
  have hSt : S t = false := by
    cases h1 : S t
    · rfl
    · rw [h1, hSn] at hS; exact absurd rfl hS
  have hrow : ∀ u ∈ range G.n,
      (if S u = true then G.wt u t else 0) +
        (if u = n then ∑ x ∈ (range G.n).erase t, (if S x = false then G.wt n x else 0) else 0) ≤
      ∑ v ∈ range G.n, if S u = true ∧ S v = false then G.wt u v else 0 := by
    intro u hu
    rw [← Finset.add_sum_erase _ _ (mem_range.2 ht)]
    refine Nat.add_le_add ?_ ?_
    · by_cases h : S u = true <;> simp [h, hSt]
    · by_cases h : u = n
      · subst h
        simp [hSn]
      · simp [h]
  have h2 := Finset.sum_le_sum hrow
  rw [Finset.sum_add_distrib, Finset.sum_ite_eq' (range G.n) n, if_pos (mem_range.2 hn)] at h2
  refine le_trans ?_ h2
  have hn' : n ∈ (range G.n).erase t := mem_erase.2 ⟨hnt, mem_range.2 hn⟩
  rw [← Finset.add_sum_erase _ (fun u => if S u = true then G.wt u t else 0) (mem_range.2 hn)]
  simp only [hSn, if_true]
  rw [Nat.add_assoc]
  refine Nat.add_le_add_left ?_ _
  have ht' : t ∈ (range G.n).erase n := mem_erase.2 ⟨Ne.symm hnt, mem_range.2 ht⟩
  have hA : ∑ u ∈ ((range G.n).erase n).erase t, (if S u = true then G.wt u t else 0) ≤
      ∑ u ∈ (range G.n).erase n, (if S u = true then G.wt u t else 0) :=
    Finset.sum_le_sum_of_subset (erase_subset _ _)
  have hB : ∑ x ∈ ((range G.n).erase n).erase t, (if S x = false then G.wt n x else 0) ≤
      ∑ x ∈ (range G.n).erase t, (if S x = false then G.wt n x else 0) :=
    Finset.sum_le_sum_of_subset (erase_subset_erase _ (erase_subset _ _))
  refine le_trans ?_ (Nat.add_le_add hA hB)
  rw [← Finset.sum_add_distrib]
  refine Finset.sum_le_sum fun x _ => ?_
  cases h : S x
  · simp
  · simp [hG.wt_symm x t]

/-! ### Weights of single edges -/

theorem edge_le_wt {G : Graph} {u : Nat} {e : Nat × Nat} (he : e ∈ G.edges u) : e.2 ≤ G.wt u e.1 := by
  unfold Graph.wt
  exact List.single_le_sum (by simp) _ (List.mem_map_of_mem (List.mem_filter.2 ⟨he, by simp⟩))

theorem wt_le_deg {G : Graph} (hG : G.WF) (u v : Nat) : G.wt u v ≤ G.deg u := by
  by_cases hv : v < G.n
  · rw [hG.deg_eq]
    exact Finset.single_le_sum (f := fun v => G.wt u v) (fun _ _ => Nat.zero_le _) (mem_range.2 hv)
  · rw [hG.wt_of_ge_right (by omega)]; exact Nat.zero_le _

theorem lt_n_of_edge {G : Graph} {u : Nat} {e : Nat × Nat} (he : e ∈ G.edges u) : u < G.n := by
  by_contra h
  rw [edges_of_ge (by omega)] at he
  simp at he

/-! ### Partitions -/

/-- The partition of `u` only merges vertices on the same side of `S`. -/
def Respects (u : UF) (S : Nat → Bool) : Prop := ∀ a b, u.root a = u.root b → S a = S b

theorem exists_rep {u : UF} (h : u.Inv) : ∃ ps, u.Rep ps := by
  refine ⟨(List.range u.size).map (fun x => (x, u.root x)), h, ?_⟩
  have hout : ∀ a, u.size ≤ a → u.root a = a := fun a ha => UF.rootOf_root (h.out a ha)
  have hl : ∀ a, Linked ((List.range u.size).map (fun x => (x, u.root x))) a (u.root a) := by
    intro a
    by_cases ha : a < u.size
    · exact Linked.of_mem (List.mem_map.2 ⟨a, by simpa using ha, rfl⟩)
    · rw [hout a (by omega)]; exact Linked.refl _ _
  intro a b
  constructor
  · intro e
    have h1 := hl a
    rw [e] at h1
    exact h1.trans (hl b).symm
  · intro e
    refine Linked.least (r := fun a b => u.root a = u.root b) ⟨fun _ => rfl, Eq.symm, Eq.trans⟩ ?_ e
    intro x y hxy
    obtain ⟨z, _, hz⟩ := List.mem_map.1 hxy
    simp only [Prod.mk.injEq] at hz
    obtain ⟨rfl, rfl⟩ := hz
    exact (UF.root_root h z).symm

theorem union_root {u : UF} (hu : u.Inv) {l r : Nat} (hl : l < u.size) (hr : r < u.size) :
    (u.union l r).2.Inv ∧ (u.union l r).2.size = u.size ∧
    ∀ a b, (u.union l r).2.root a = (u.union l r).2.root b ↔
      (if u.root a = u.root l then u.root r else u.root a) = (if u.root b = u.root l then u.root r else u.root b) := by
  obtain ⟨ps, hps⟩ := exists_rep hu
  obtain ⟨h1, _, h3⟩ := UF.union_spec hps hl hr
  refine ⟨h1.inv, h3, fun a b => ?_⟩
  rw [h1.iff, UF.linked_cons_iff hps.iff]

theorem Respects.union {u : UF} (hu : u.Inv) {l r : Nat} (hl : l < u.size) (hr : r < u.size) {S : Nat → Bool}
    (h : Respects u S) (hlr : S l = S r) : Respects (u.union l r).2 S := by
  intro a b hab
  rw [(union_root hu hl hr).2.2] at hab
  split at hab <;> split at hab <;> rename_i h1 h2
  · rw [h _ _ h1, h _ _ h2]
  · rw [h _ _ h1, hlr, h _ _ hab]
  · rw [h _ _ h2, hlr, h _ _ hab]
  · exact h _ _ hab

theorem Respects.find {u : UF} (hu : u.Inv) {S : Nat → Bool} (h : Respects u S) (x : Nat) :
    Respects (u.find x).2 S := by
  intro a b hab
  rw [UF.find_root hu, UF.find_root hu] at hab
  exact h a b hab

theorem respects_init (n : Nat) (S : Nat → Bool) : Respects (UF.mk' n) S := by
  intro a b hab
  have : ∀ x, (UF.mk' n).root x = x := fun x => UF.rootOf_root (by simp [UF.mk'])
  rw [this, this] at hab
  rw [hab]

/-! ### Tests 1 and 2 -/

/-- A minimum cut below the bound does not separate `n` and `t` when `2 w(n,t) > deg n`. -/
theorem heavy_same {G : Graph} (hG : G.WF) {S : Nat → Bool} (hS : ProperCut G.n S)
    (hmin : ∀ T, ProperCut G.n T → cutValue G.n G.wt S ≤ cutValue G.n G.wt T) {n t : Nat} (hn : n < G.n) (ht : t < G.n)
    (hd : cutValue G.n G.wt S < G.deg n) (hw : G.deg n < 2 * G.wt n t) : S n = S t := by
  by_contra hne
  have h1 := crossing_ge1 (G := G) ht (Ne.symm hne)
  have h2 := cut_flip hG S hn
  have h3 := hmin _ (flip_proper hG hS hn (by omega))
  omega

/-- A cut below the weight of an edge does not separate its ends. -/
theorem edge_same {G : Graph} (hG : G.WF) {S : Nat → Bool} {n t : Nat} (hn : n < G.n) (ht : t < G.n) (hnt : n ≠ t)
    (hw : cutValue G.n G.wt S < G.wt n t) : S n = S t := by
  by_contra hne
  have := cut_ge_star hG hn ht hnt hne
  omega

/-- State invariant of `prTests12` with respect to one minimum cut. -/
structure PR12Inv (G : Graph) (S : Nat → Bool) (s : PR12) : Prop where
  inv : s.uf.Inv
  size : s.uf.size = G.n
  resp : Respects s.uf S

theorem PR12Inv.mark {G : Graph} {S : Nat → Bool} {s : PR12} (h : PR12Inv G S s) {n t a b : Nat} (ha : a < G.n)
    (hb : b < G.n) (hab : S a = S b) : PR12Inv G S (s.mark n t a b) := by
  have ha' : a < s.uf.size := by rw [h.size]; exact ha
  have hb' : b < s.uf.size := by rw [h.size]; exact hb
  obtain ⟨h1, h2, _⟩ := union_root h.inv ha' hb'
  exact ⟨h1, h2.trans h.size, h.resp.union h.inv ha' hb' hab⟩

theorem PR12Inv.edge {G : Graph} (hG : G.WF) (h32 : ∀ u, u < G.n → G.deg u < 2 ^ 32) {S : Nat → Bool}
    (hS : ProperCut G.n S) (hmin : ∀ T, ProperCut G.n T → cutValue G.n G.wt S ≤ cutValue G.n G.wt T) {limit : Nat}
    {all : Bool} (hlim : cutValue G.n G.wt S < limit) (hdeg : all = true ∨ ∀ u, u < G.n → limit ≤ G.deg u)
    {s : PR12} (h : PR12Inv G S s) {n : Nat} {e : Nat × Nat} (he : e ∈ G.edges n) :
    PR12Inv G S (pr12Edge G limit all n s e) := by
  have hn := lt_n_of_edge he
  have ht := hG.tgt_lt n e he
  have hnt := hG.no_loop n e he
  have hw := edge_le_wt he
  have hwd := wt_le_deg hG n e.1
  have e1 : u32 (G.deg n) = G.deg n := Nat.mod_eq_of_lt (h32 n hn)
  have e2 : u32 (G.deg e.1) = G.deg e.1 := Nat.mod_eq_of_lt (h32 _ ht)
  have e3 : u64 (2 * e.2) = 2 * e.2 := Nat.mod_eq_of_lt (by have := h32 n hn; omega)
  unfold pr12Edge
  simp only [e1, e2, e3]
  have hf1 : PR12Inv G S { s with uf := (s.uf.find e.1).2 } :=
    ⟨UF.find_inv h.inv _, h.size, h.resp.find h.inv _⟩
  have hf2 : PR12Inv G S { s with uf := ((s.uf.find e.1).2.find n).2 } :=
    ⟨UF.find_inv hf1.inv _, h.size, hf1.resp.find hf1.inv _⟩
  have r1 : (s.uf.find e.1).1 = s.uf.root e.1 := UF.find_fst h.inv _
  have r2 : ((s.uf.find e.1).2.find n).1 = s.uf.root n := by rw [UF.find_fst hf1.inv, UF.find_root h.inv]
  have rlt : ∀ x, x < G.n → s.uf.root x < G.n := by
    intro x hx; rw [← h.size]; exact UF.root_lt h.inv (by rw [h.size]; exact hx)
  have rS : ∀ x, S (s.uf.root x) = S x := fun x => h.resp _ _ (UF.root_root h.inv x)
  have hs2 : PR12Inv G S (if e.2 ≥ limit then
      PR12.mark { s with uf := ((s.uf.find e.1).2.find n).2 } n e.1 ((s.uf.find e.1).2.find n).1 (s.uf.find e.1).1
      else { s with uf := ((s.uf.find e.1).2.find n).2 }) := by
    split
    · rename_i hge
      refine hf2.mark (by rw [r2]; exact rlt n hn) (by rw [r1]; exact rlt _ ht) ?_
      rw [r1, r2, rS, rS]
      exact edge_same hG hn ht (Ne.symm hnt) (by omega)
    · exact hf2
  generalize (if e.2 ≥ limit then _ else _ : PR12) = s2 at hs2
  split
  · rename_i hall
    have hdn : limit ≤ G.deg n ∧ limit ≤ G.deg e.1 := by
      rcases hdeg with h1 | h1
      · subst h1; simpa using hall
      · exact ⟨h1 n hn, h1 _ ht⟩
    have hs3 : ∀ (c : Bool) (s2 : PR12), PR12Inv G S s2 →
        PR12Inv G S (if (decide (2 * e.2 > G.deg n) && c) = true then s2.mark n e.1 n e.1 else s2) := by
      intro c s2 hs2
      split
      · rename_i hc
        rw [Bool.and_eq_true, decide_eq_true_eq] at hc
        exact hs2.mark hn ht (heavy_same hG hS hmin hn ht (by omega) (by omega))
      · exact hs2
    have hs4 : ∀ (c : Bool) (s2 : PR12), PR12Inv G S s2 →
        PR12Inv G S (if (decide (2 * e.2 > G.deg e.1) && c) = true then s2.mark n e.1 n e.1 else s2) := by
      intro c s2 hs2
      split
      · rename_i hc
        rw [Bool.and_eq_true, decide_eq_true_eq] at hc
        refine hs2.mark hn ht (heavy_same hG hS hmin ht hn (by omega) ?_).symm
        rw [hG.wt_symm]; omega
      · exact hs2
    exact hs4 _ _ (hs3 _ _ hs2)
  · exact hs2

theorem foldl_inv {α β : Type} {P : β → Prop} {f : β → α → β} (l : List α) (hf : ∀ s x, x ∈ l → P s → P (f s x)) :
    ∀ s, P s → P (l.foldl f s) := by
  induction l with
  | nil => intro s hs; exact hs
  | cons a l ih =>
    intro s hs
    exact ih (fun s x hx => hf s x (by simp [hx])) _ (hf s a (by simp) hs)

theorem prTests12_spec {G : Graph} (hG : G.WF) (h32 : ∀ u, u < G.n → G.deg u < 2 ^ 32) {S : Nat → Bool}
    (hS : ProperCut G.n S) (hmin : ∀ T, ProperCut G.n T → cutValue G.n G.wt S ≤ cutValue G.n G.wt T) {limit : Nat}
    {all : Bool} (hlim : cutValue G.n G.wt S < limit) (hdeg : all = true ∨ ∀ u, u < G.n → limit ≤ G.deg u) :
    Respects (prTests12 G limit all) S := by
  have : PR12Inv G S ((List.range G.n).foldl (fun s n => (G.edges n).foldl (pr12Edge G limit all n) s)
    { uf := UF.mk' G.n, contracted := fun _ => false }) := by
    refine foldl_inv _ (fun s n _ hs => ?_) _ ⟨UF.init_inv _, rfl, respects_init _ _⟩
    exact foldl_inv _ (fun s e he hs => hs.edge hG h32 hS hmin hlim hdeg he) _ hs
  exact this.resp

/-- For every input the result is a valid partition of the vertices. -/
theorem prTests12_inv {G : Graph} (hG : G.WF) (limit : Nat) (all : Bool) :
    (prTests12 G limit all).Inv ∧ (prTests12 G limit all).size = G.n := by
  have hmark : ∀ (s : PR12) (n t a b : Nat), s.uf.Inv ∧ s.uf.size = G.n → a < G.n → b < G.n →
      (s.mark n t a b).uf.Inv ∧ (s.mark n t a b).uf.size = G.n := by
    intro s n t a b h ha hb
    obtain ⟨h1, h2, _⟩ := union_root h.1 (l := a) (r := b) (by rw [h.2]; exact ha) (by rw [h.2]; exact hb)
    exact ⟨h1, h2.trans h.2⟩
  refine foldl_inv (P := fun s : PR12 => s.uf.Inv ∧ s.uf.size = G.n) _ (fun s n _ hs => ?_) _ ⟨UF.init_inv _, rfl⟩
  refine foldl_inv (P := fun s : PR12 => s.uf.Inv ∧ s.uf.size = G.n) _ (fun s e he h => ?_) _ hs
  have hn := lt_n_of_edge he
  have ht := hG.tgt_lt n e he
  have i1 := UF.find_inv h.1 e.1
  have r1 : (s.uf.find e.1).1 < G.n := by
    rw [UF.find_fst h.1, ← h.2]; exact UF.root_lt h.1 (by rw [h.2]; exact ht)
  have r2 : ((s.uf.find e.1).2.find n).1 < G.n := by
    rw [UF.find_fst i1, UF.find_root h.1, ← h.2]; exact UF.root_lt h.1 (by rw [h.2]; exact hn)
  have h2 : ((s.uf.find e.1).2.find n).2.Inv ∧ ((s.uf.find e.1).2.find n).2.size = G.n :=
    ⟨UF.find_inv i1 n, h.2⟩
  unfold pr12Edge
  simp only
  have hite : ∀ (c : Prop) [Decidable c] (s : PR12) (a b : Nat), s.uf.Inv ∧ s.uf.size = G.n → a < G.n → b < G.n →
      (if c then s.mark n e.1 a b else s).uf.Inv ∧ (if c then s.mark n e.1 a b else s).uf.size = G.n := by
    intro c _ s a b hs ha hb
    split
    · exact hmark s _ _ a b hs ha hb
    · exact hs
  have h3 := hite (e.2 ≥ limit) { s with uf := ((s.uf.find e.1).2.find n).2 } _ _ h2 r2 r1
  split
  · exact hite _ _ _ _ (hite _ _ _ _ h3 hn ht) hn ht
  · exact h3

/-! ### Tests 3 and 4 -/

theorem u64_le (x : Nat) : u64 x ≤ x := Nat.mod_le _ _

/-- Requirements on a property of partitions that the tests 3 and 4 preserve. -/
structure PRClosed (G : Graph) (limit : Nat) (all : Bool) (P : UF → Prop) : Prop where
  init : P (UF.mk' G.n)
  conn : ∀ uf n t, uf.Inv → uf.size = G.n → n < G.n → t < G.n →
    (∀ S, cutValue G.n G.wt S < limit → S n = S t) → P uf → P (uf.union n t).2
  tri : ∀ uf n t x, uf.Inv → uf.size = G.n → n < G.n → t < G.n → x < G.n → n ≠ t → x ≠ n → x ≠ t →
    (∀ a, uf.root a = uf.root n → a = n) → (∀ a, uf.root a = uf.root t → a = t) →
    (all = false ∧ G.deg n ≤ 2 * (G.wt n t + G.wt n x) ∧ G.deg t ≤ 2 * (G.wt t n + G.wt t x) ∨
     all = true ∧ G.deg n < 2 * (G.wt n t + G.wt n x) ∧ G.deg t < 2 * (G.wt t n + G.wt t x) ∧
      limit ≤ G.deg n ∧ limit ≤ G.deg t) →
    P uf → P (uf.union n t).2

/-- State invariant of `prTests34`. -/
structure PR34Inv (G : Graph) (P : UF → Prop) (s : PR34) : Prop where
  inv : s.uf.Inv
  size : s.uf.size = G.n
  marked : ∀ x m w, s.marked x = some (m, w) → (x, w) ∈ G.edges m ∧ m < x
  sing : ∀ a b, s.uf.root a = s.uf.root b → a = b ∨ (s.contracted a = true ∧ s.contracted b = true)
  pres : P s.uf

variable {G : Graph} {limit : Nat} {all : Bool} {P : UF → Prop}

theorem PR34Inv.merge {s : PR34} (h : PR34Inv G P s) {n t : Nat} (hn : n < G.n) (ht : t < G.n)
    (hP : P (s.uf.union n t).2) : PR34Inv G P (s.merge n t) := by
  obtain ⟨h1, h2, h3⟩ := union_root h.inv (l := n) (r := t) (by rw [h.size]; exact hn) (by rw [h.size]; exact ht)
  refine ⟨h1, h2.trans h.size, h.marked, ?_, hP⟩
  intro a b hab
  have hc : ∀ x, s.contracted x = true → (s.merge n t).contracted x = true := by
    intro x hx
    simp only [PR34.merge, update_apply]
    split
    · rfl
    · split
      · rfl
      · exact hx
  have hn' : (s.merge n t).contracted n = true := by
    simp only [PR34.merge, update_apply]; split <;> simp
  have ht' : (s.merge n t).contracted t = true := by simp [PR34.merge]
  have hroot : ∀ x y, s.uf.root x = s.uf.root y → (s.merge n t).contracted y = true →
      (s.merge n t).contracted x = true := by
    intro x y e hy
    rcases h.sing x y e with rfl | ⟨h1, _⟩
    · exact hy
    · exact hc _ h1
  have hab' := (h3 a b).1 hab
  split at hab' <;> split at hab' <;> rename_i c1 c2
  · exact Or.inr ⟨hroot _ _ c1 hn', hroot _ _ c2 hn'⟩
  · exact Or.inr ⟨hroot _ _ c1 hn', hroot _ _ hab'.symm ht'⟩
  · exact Or.inr ⟨hroot _ _ hab' ht', hroot _ _ c2 hn'⟩
  · rcases h.sing a b hab' with e | ⟨e1, e2⟩
    · exact Or.inl e
    · exact Or.inr ⟨hc _ e1, hc _ e2⟩

theorem PR34Inv.tri (hG : G.WF) (hP : PRClosed G limit all P) {n t w1 : Nat} (he1 : (t, w1) ∈ G.edges n)
    {m0 : Nat → Option (Nat × Nat)} (l : List (Nat × Nat)) (hl : ∀ e ∈ l, e ∈ G.edges t) :
    ∀ (st : PR34 × Nat), PR34Inv G P st.1 → st.1.marked = m0 →
      PR34Inv G P (l.foldl (pr34Tri G limit all n t w1) st).1 ∧
      (l.foldl (pr34Tri G limit all n t w1) st).1.marked = m0 ∧
      (l.foldl (pr34Tri G limit all n t w1) st).2 ≤
        st.2 + (l.map (fun e => if e.1 = n then 0 else min (G.wt n e.1) e.2)).sum := by
  have hn := lt_n_of_edge he1
  have ht : t < G.n := hG.tgt_lt n _ he1
  have hnt : t ≠ n := hG.no_loop n _ he1
  have hw1 : w1 ≤ G.wt n t := edge_le_wt he1
  induction l with
  | nil => intro st h hm; exact ⟨h, hm, by simp⟩
  | cons e l ih =>
    intro st h hm
    rw [List.foldl_cons, List.map_cons, List.sum_cons]
    have he : e ∈ G.edges t := hl e (by simp)
    have hx := hG.tgt_lt t e he
    have hxt := hG.no_loop t e he
    have hw2 := edge_le_wt he
    have key : PR34Inv G P (pr34Tri G limit all n t w1 st e).1 ∧ (pr34Tri G limit all n t w1 st e).1.marked = m0 ∧
        (pr34Tri G limit all n t w1 st e).2 ≤ st.2 + (if e.1 = n then 0 else min (G.wt n e.1) e.2) := by
      unfold pr34Tri
      cases hmk : st.1.marked e.1 with
      | none => exact ⟨h, hm, Nat.le_add_right _ _⟩
      | some mw =>
        obtain ⟨m, w3⟩ := mw
        simp only
        by_cases hmn : m = n
        · subst hmn
          rw [if_neg (by simp)]
          obtain ⟨g1, g2⟩ := h.marked _ _ _ hmk
          have hw3 : w3 ≤ G.wt m e.1 := edge_le_wt g1
          have hxn : e.1 ≠ m := by omega
          refine ⟨?_, ?_, ?_⟩
          · simp only
            split
            · rename_i hc
              simp only [Bool.and_eq_true, Bool.or_eq_true, Bool.not_eq_true', decide_eq_true_eq] at hc
              obtain ⟨⟨hc1, hc2⟩, hc3⟩ := hc
              have s1 : ∀ a, st.1.uf.root a = st.1.uf.root m → a = m := by
                intro a ha
                rcases h.sing a m ha with e | ⟨_, e⟩
                · exact e
                · rw [hc2] at e; cases e
              have s2 : ∀ a, st.1.uf.root a = st.1.uf.root t → a = t := by
                intro a ha
                rcases h.sing a t ha with e | ⟨_, e⟩
                · exact e
                · rw [hc3] at e; cases e
              refine h.merge hn ht (hP.tri _ m t e.1 h.inv h.size hn ht hx (Ne.symm hnt) hxn hxt s1 s2 ?_ h.pres)
              have q1 := u64_le (2 * u64 (w1 + w3))
              have q2 := u64_le (w1 + w3)
              have q3 := u64_le (2 * u64 (w1 + e.2))
              have q4 := u64_le (w1 + e.2)
              rw [hG.wt_symm t m]
              rcases hc1 with ⟨⟨ha, hb⟩, hc⟩ | ⟨⟨⟨⟨ha, hb⟩, hc⟩, hd⟩, he⟩
              · left; exact ⟨ha, by omega, by omega⟩
              · right; exact ⟨ha, by omega, by omega, hd, he⟩
            · exact h
          · simp only
            split
            · exact hm
            · exact hm
          · simp only
            rw [if_neg hxn]
            refine le_trans (u64_le _) ?_
            have : min e.2 w3 ≤ min (G.wt m e.1) e.2 := by
              rw [min_comm]; exact min_le_min hw3 (le_refl _)
            omega
        · rw [if_pos hmn]; exact ⟨h, hm, Nat.le_add_right _ _⟩
    obtain ⟨k1, k2, k3⟩ := key
    obtain ⟨j1, j2, j3⟩ := ih (fun e he => hl e (by simp [he])) _ k1 k2
    exact ⟨j1, j2, by omega⟩

/-- With distinct targets the triangle sum is bounded by the connectivity through common neighbours. -/
theorem tri_sum_le (hG : G.WF) {n t : Nat} (hnd : ((G.edges t).map (·.1)).Nodup) :
    ((G.edges t).map (fun e => if e.1 = n then 0 else min (G.wt n e.1) e.2)).sum ≤
      ∑ x ∈ ((range G.n).erase n).erase t, min (G.wt n x) (G.wt t x) := by
  have h1 : ((G.edges t).map (fun e => if e.1 = n then 0 else min (G.wt n e.1) e.2)).sum ≤
      (((G.edges t).map (·.1)).map (fun x => if x = n then 0 else min (G.wt n x) (G.wt t x))).sum := by
    rw [List.map_map]
    refine List.sum_le_sum fun e he => ?_
    simp only [Function.comp]
    split
    · exact le_refl _
    · exact min_le_min (le_refl _) (edge_le_wt he)
  refine le_trans h1 ?_
  rw [← List.sum_toFinset _ hnd]
  have h2 : ∑ x ∈ ((G.edges t).map (·.1)).toFinset, (if x = n then 0 else min (G.wt n x) (G.wt t x)) ≤
      ∑ x ∈ (range G.n).erase t, (if x = n then 0 else min (G.wt n x) (G.wt t x)) := by
    refine Finset.sum_le_sum_of_subset ?_
    intro x hx
    simp only [List.mem_toFinset, List.mem_map] at hx
    obtain ⟨e, he, rfl⟩ := hx
    exact mem_erase.2 ⟨hG.no_loop t e he, mem_range.2 (hG.tgt_lt t e he)⟩
  refine le_trans h2 ?_
  rw [erase_right_comm]
  by_cases hn : n ∈ (range G.n).erase t
  · rw [← Finset.add_sum_erase _ _ hn]
    simp only [if_true, Nat.zero_add]
    refine Finset.sum_le_sum fun x hx => ?_
    rw [if_neg (mem_erase.1 hx).1]
  · rw [erase_eq_of_notMem hn]
    refine Finset.sum_le_sum fun x hx => ?_
    split
    · exact Nat.zero_le _
    · exact le_refl _

theorem PR34Inv.edge (hG : G.WF) (hsim : (∀ u, u < G.n → ((G.edges u).map (·.1)).Nodup) ∨ ∀ uf, P uf) (hP : PRClosed G limit all P)
    {s : PR34} (h : PR34Inv G P s) {n : Nat} {e : Nat × Nat} (he : e ∈ G.edges n) :
    PR34Inv G P (pr34Edge G limit all n s e) := by
  have hn := lt_n_of_edge he
  have ht := hG.tgt_lt n e he
  have hnt := hG.no_loop n e he
  have hw := edge_le_wt he
  have hmk : ∀ (s : PR34), PR34Inv G P s → PR34Inv G P { s with marked := update s.marked e.1 none } := by
    intro s h
    refine ⟨h.inv, h.size, ?_, h.sing, h.pres⟩
    intro x m w hx
    simp only [update_apply] at hx
    split at hx
    · cases hx
    · exact h.marked x m w hx
  unfold pr34Edge
  split
  · exact hmk s h
  · simp only
    split
    · have h' : PR34Inv G P { s with finished := update s.finished e.1 true } :=
        ⟨h.inv, h.size, h.marked, h.sing, h.pres⟩
      obtain ⟨k1, _, k3⟩ := PR34Inv.tri (limit := limit) (all := all) (w1 := e.2) hG hP (n := n) (t := e.1) he
        (G.edges e.1) (fun _ h => h) ({ s with finished := update s.finished e.1 true }, e.2) h' rfl
      generalize (G.edges e.1).foldl (pr34Tri G limit all n e.1 e.2)
        ({ s with finished := update s.finished e.1 true }, e.2) = st at k1 k3
      simp only at k3
      refine hmk _ ?_
      split
      · rename_i hge
        rcases hsim with hsim | hsim
        swap
        · exact k1.merge hn ht (hsim _)
        refine k1.merge hn ht (hP.conn _ _ _ k1.inv k1.size hn ht ?_ k1.pres)
        intro S hS
        by_contra hne
        have h1 := cut_ge_star hG hn ht (Ne.symm hnt) hne
        have h2 := tri_sum_le hG (n := n) (hsim e.1 ht)
        omega
      · exact k1
    · exact ⟨h.inv, h.size, h.marked, h.sing, h.pres⟩

theorem PR34Inv.node (hG : G.WF) (hsim : (∀ u, u < G.n → ((G.edges u).map (·.1)).Nodup) ∨ ∀ uf, P uf) (hP : PRClosed G limit all P)
    {s : PR34} (h : PR34Inv G P s) (n : Nat) : PR34Inv G P (pr34Node G limit all s n) := by
  unfold pr34Node
  split
  · exact h
  · refine foldl_inv _ (fun s e he hs => hs.edge hG hsim hP he) _ ?_
    refine ⟨h.inv, h.size, ?_, h.sing, h.pres⟩
    refine foldl_inv (P := fun m : Nat → Option (Nat × Nat) => ∀ x k w, m x = some (k, w) → (x, w) ∈ G.edges k ∧ k < x)
      _ ?_ _ h.marked
    intro m e he hm x k w hx
    unfold pr34Mark at hx
    split at hx
    · rename_i hgt
      simp only [update_apply] at hx
      split at hx
      · rename_i hxe
        simp only [Option.some.injEq, Prod.mk.injEq] at hx
        obtain ⟨rfl, rfl⟩ := hx
        subst hxe
        exact ⟨he, hgt⟩
      · exact hm x k w hx
    · exact hm x k w hx

theorem PRClosed.prTests34 (hG : G.WF) (hsim : (∀ u, u < G.n → ((G.edges u).map (·.1)).Nodup) ∨ ∀ uf, P uf)
    (hP : PRClosed G limit all P) :
    P (prTests34 G limit all) ∧ (prTests34 G limit all).Inv ∧ (prTests34 G limit all).size = G.n := by
  have : PR34Inv G P ((List.range G.n).foldl (pr34Node G limit all)
      { uf := UF.mk' G.n, marked := fun _ => none, finished := fun _ => false, contracted := fun _ => false }) := by
    refine foldl_inv _ (fun s n _ hs => hs.node hG hsim hP n) _ ⟨UF.init_inv _, rfl, ?_, ?_, hP.init⟩
    · intro x m w h; cases h
    · intro a b hab
      left
      have : ∀ x, (UF.mk' G.n).root x = x := fun x => UF.rootOf_root (by simp [UF.mk'])
      rwa [this, this] at hab
  exact ⟨this.pres, this.inv, this.size⟩

/-- For every input the result is a valid partition of the vertices. -/
theorem prTests34_inv (hG : G.WF) (limit : Nat) (all : Bool) :
    (prTests34 G limit all).Inv ∧ (prTests34 G limit all).size = G.n :=
  (PRClosed.prTests34 (P := fun _ => True) hG (Or.inr fun _ => trivial)
    ⟨trivial, fun _ _ _ _ _ _ _ _ _ => trivial, fun _ _ _ _ _ _ _ _ _ _ _ _ _ _ _ _ => trivial⟩).2

/-- One of the two vertices can be moved without increasing the cut. -/
theorem tri_move (hG : G.WF) {S : Nat → Bool} {n t x : Nat} (hn : n < G.n) (ht : t < G.n) (hx : x < G.n) (hnt : n ≠ t)
    (hxn : x ≠ n) (hxt : x ≠ t) (hS : S n ≠ S t) {k : Nat} (h1 : G.deg n + k ≤ 2 * (G.wt n t + G.wt n x))
    (h2 : G.deg t + k ≤ 2 * (G.wt t n + G.wt t x)) :
    (∃ v, (v = n ∨ v = t) ∧ v < G.n ∧ cutValue G.n G.wt (update S v (!S v)) + k ≤ cutValue G.n G.wt S) := by
  by_cases hsx : S x = S t
  · refine ⟨n, Or.inl rfl, hn, ?_⟩
    have c1 := crossing_ge2 (G := G) (S := S) (u := n) ht hx (Ne.symm hxt) (Ne.symm hS) (by rw [hsx]; exact Ne.symm hS)
    have c2 := cut_flip hG S hn
    omega
  · refine ⟨t, Or.inr rfl, ht, ?_⟩
    have c1 := crossing_ge2 (G := G) (S := S) (u := t) hn hx (Ne.symm hxn) hS hsx
    have c2 := cut_flip hG S ht
    omega

theorem bnot_eq {a b : Bool} (h : a ≠ b) : (!a) = b := by
  cases a <;> cases b <;> simp_all

/-- Without `find_all_cuts`: every cut below the bound can be replaced by one of at most the same value that
separates no merged pair. -/
theorem prClosed_one (hG : G.WF) (hdeg : ∀ u, u < G.n → limit ≤ G.deg u) {c : Nat}
    (hc : ∃ S, ProperCut G.n S ∧ cutValue G.n G.wt S ≤ c) (hcl : c < limit) :
    PRClosed G limit false (fun uf => ∃ S, ProperCut G.n S ∧ cutValue G.n G.wt S ≤ c ∧ Respects uf S) := by
  refine ⟨?_, ?_, ?_⟩
  · obtain ⟨S, h1, h2⟩ := hc
    exact ⟨S, h1, h2, respects_init _ _⟩
  · rintro uf n t hu hs hn ht hco ⟨S, h1, h2, h3⟩
    exact ⟨S, h1, h2, h3.union hu (by omega) (by omega) (hco S (by omega))⟩
  · rintro uf n t x hu hs hn ht hx hnt hxn hxt s1 s2 hor ⟨S, h1, h2, h3⟩
    rcases hor with ⟨_, d1, d2⟩ | ⟨h, _⟩
    · by_cases hS : S n = S t
      · exact ⟨S, h1, h2, h3.union hu (by omega) (by omega) hS⟩
      · obtain ⟨v, hv, hvn, hle⟩ := tri_move hG (k := 0) hn ht hx hnt hxn hxt hS (by omega) (by omega)
        have hdv := hdeg v hvn
        refine ⟨update S v (!S v), flip_proper hG h1 hvn (by omega), by omega, ?_⟩
        have hsv : ∀ a, uf.root a = uf.root v → a = v := by
          rcases hv with rfl | rfl
          · exact s1
          · exact s2
        have hresp : Respects uf (update S v (!S v)) := by
          intro a b hab
          by_cases ha : a = v
          · subst ha
            rw [hsv b hab.symm]
          · by_cases hb : b = v
            · subst hb
              exact absurd (hsv a hab) ha
            · rw [update_of_ne ha, update_of_ne hb]; exact h3 a b hab
        refine hresp.union hu (by omega) (by omega) ?_
        rcases hv with rfl | rfl
        · rw [update_self, update_of_ne (Ne.symm hnt)]
          exact bnot_eq hS
        · rw [update_self, update_of_ne hnt]
          exact (bnot_eq (Ne.symm hS)).symm
    · cases h

/-- With `find_all_cuts`: a minimum cut below the bound separates no merged pair. -/
theorem prClosed_all (hG : G.WF) {S : Nat → Bool} (hS : ProperCut G.n S)
    (hmin : ∀ T, ProperCut G.n T → cutValue G.n G.wt S ≤ cutValue G.n G.wt T) (hcl : cutValue G.n G.wt S < limit) :
    PRClosed G limit true (fun uf => Respects uf S) := by
  refine ⟨respects_init _ _, ?_, ?_⟩
  · intro uf n t hu hs hn ht hco h
    exact h.union hu (by omega) (by omega) (hco S hcl)
  · rintro uf n t x hu hs hn ht hx hnt hxn hxt _ _ hor h
    rcases hor with ⟨h, _⟩ | ⟨_, d1, d2, d3, d4⟩
    · cases h
    · refine h.union hu (by omega) (by omega) ?_
      by_contra hne
      obtain ⟨v, hv, hvn, hle⟩ := tri_move hG (k := 1) hn ht hx hnt hxn hxt hne (by omega) (by omega)
      have hdv : limit ≤ G.deg v := by rcases hv with rfl | rfl <;> assumption
      have := hmin _ (flip_proper hG hS hvn (by omega))
      omega

end VieCut
