import Verif.Proof.Glue

/-!
# The vertices of the second cactus are added to the first
-/

namespace VieCut
open Function Finset MGraph STCactus

/-- The lists behind the last vertex are empty, except perhaps the first of them. -/
def Tidy (g : MGraph) : Prop := ∀ p, g.n < p → p < g.contSize → g.cont p = []

/-- The lists behind the last vertex are empty. -/
def Clean (g : MGraph) : Prop := ∀ p, g.n ≤ p → p < g.contSize → g.cont p = []

theorem Clean.tidy {g : MGraph} (h : Clean g) : Tidy g := fun p hp => h p (by omega)

namespace GraphModification

/-- The vertex of the result for the vertex `u` of the second graph. -/
def place (n1 v1 v2 u : Nat) : Nat := if u = v2 then v1 else shift n1 v2 u

/-- How many of the first `k` vertices of the second graph are new. -/
def added (v2 k : Nat) : Nat := k - if v2 < k then 1 else 0

theorem shift_eq {n1 v2 u : Nat} (hu : u ≠ v2) : shift n1 v2 u = n1 + added v2 u := by
  unfold shift added
  by_cases h : v2 < u
  · rw [if_pos h]; omega
  · rw [if_neg h]; omega

theorem added_succ {v2 k : Nat} (h : k ≠ v2) : added v2 (k + 1) = added v2 k + 1 := by
  unfold added
  by_cases h1 : v2 < k
  · rw [if_pos h1, if_pos (by omega)]; omega
  · rw [if_neg h1, if_neg (by omega)]; omega

theorem added_self {v2 : Nat} : added v2 (v2 + 1) = added v2 v2 := by
  unfold added
  rw [if_pos (by omega), if_neg (by omega)]; omega

theorem added_lt {v2 a b : Nat} (h : a < b) (ha : a ≠ v2) : added v2 a < added v2 b := by
  unfold added
  by_cases h1 : v2 < a
  · rw [if_pos h1, if_pos (by omega)]; omega
  · rw [if_neg h1]
    by_cases h2 : v2 < b
    · rw [if_pos h2]; omega
    · rw [if_neg h2]; omega

theorem added_inj {v2 a b : Nat} (ha : a ≠ v2) (hb : b ≠ v2) (h : added v2 a = added v2 b) : a = b := by
  rcases Nat.lt_trichotomy a b with h1 | h1 | h1
  · have := added_lt h1 ha; omega
  · exact h1
  · have := added_lt h1 hb; omega

/-- The list of `v1` is filled. -/
theorem fold_members (v1 : Nat) : ∀ (L : List Nat) (h : MGraph),
    L.foldl (fun h c => if h.pos c = v1 then addMember h v1 c else h) h
      = { h with cont := update h.cont v1 (h.cont v1 ++ L.filter (fun c => h.pos c = v1)) } := by
  intro L
  induction L with
  | nil => intro h; simp
  | cons a L ih =>
    intro h
    rw [List.foldl_cons, ih]
    by_cases ha : h.pos a = v1
    · have hpos : (addMember h v1 a).pos = h.pos := by
        show update h.pos a v1 = h.pos
        rw [← ha, update_eq_self]
      rw [if_pos ha, hpos, List.filter_cons_of_pos (by simpa using ha)]
      show ({ h with cont := _, pos := _ } : MGraph) = _
      have : (addMember h v1 a).cont = update h.cont v1 (h.cont v1 ++ [a]) := rfl
      rw [this, update_self, update_idem, List.append_assoc]
      congr 1
    · rw [if_neg ha, List.filter_cons_of_neg (by simpa using ha)]

/-- State of the loop over the vertices of the second graph. -/
structure MV (E : Nat → Prop) (Q : Nat → Prop) (G1 G2 : MGraph) (v1 v2 k : Nat) (h : MGraph) : Prop where
  valid : Valid h
  n : h.n = G1.n + added v2 k
  last : h.lastNode = h.n
  csize : h.contSize = G1.contSize + added v2 k
  orig : h.origNodes = G1.origNodes
  cv : ∀ X, h.cv X = G1.cv X
  rows : ∀ f a, a < G1.n → rowSum h f a = rowSum G1 f a
  rows0 : ∀ f a, G1.n ≤ a → a < h.n → rowSum h f a = 0
  simple : Simple h []
  allw : AllW Q h
  pos : ∀ e, E e → h.pos e = if G2.pos e < k ∧ G2.pos e ≠ v2 then shift G1.n v2 (G2.pos e) else G1.pos e
  cont : ∀ p, p < G1.n → p ≠ v1 → h.cont p = G1.cont p
  contNew : ∀ i, i < k → i ≠ v2 → h.cont (shift G1.n v2 i) = G2.cont i
  contV : h.cont v1 = if v2 < k then (G2.cont v2).filter (fun e => G1.pos e = v1) else []
  tidy : ∀ p, (if added v2 k = 0 then h.n < p else h.n ≤ p) → p < h.contSize → h.cont p = []

theorem mergeVertices {E : Nat → Prop} {Q : Nat → Prop} {G1 G2 : MGraph} {v1 v2 : Nat} (hG1 : Valid G1) (hs : Simple G1 []) (hw : AllW Q G1)
    (hr : G1.lastNode = G1.n) (hroom : G1.n ≤ G1.contSize) (ht : Tidy G1) (hH : Held E G2) (hv1 : v1 < G1.n) (hv2 : v2 < G2.n) :
    ∀ k, k ≤ G2.n → MV E Q G1 G2 v1 v2 k
      ((List.range k).foldl (mergeVertex G2 v1 v2) { G1 with cont := update G1.cont v1 [] }) := by
  intro k
  induction k with
  | zero =>
    intro _
    have h0 : added v2 0 = 0 := by simp [added]
    refine ⟨hG1.of_eq rfl rfl rfl rfl rfl, by rw [h0]; rfl, hr, by rw [h0]; rfl, rfl, fun _ => rfl, fun _ _ _ => rfl, ?_, hs, hw, ?_, ?_, ?_, ?_, ?_⟩
    · intro f a h1 h2
      have h2 : a < G1.n := h2
      omega
    · intro e _; rw [if_neg (by omega)]; rfl
    · intro p _ hp; exact update_of_ne hp _ _
    · intro i hi; omega
    · rw [if_neg (by omega)]; exact update_self _ _ _
    · intro p hp hpc
      rw [if_pos h0] at hp
      have hp : G1.n < p := hp
      show update G1.cont v1 [] p = []
      rw [update_of_ne (by omega)]
      exact ht p hp hpc
  | succ k ih =>
    intro hk
    have I := ih (by omega)
    rw [List.range_succ, List.foldl_append, List.foldl_cons, List.foldl_nil]
    set h := (List.range k).foldl (mergeVertex G2 v1 v2) { G1 with cont := update G1.cont v1 [] } with hhd
    by_cases hkv : k = v2
    · have hstep : mergeVertex G2 v1 v2 h k = { h with cont := update h.cont v1 (h.cont v1 ++ (G2.cont v2).filter (fun c => h.pos c = v1)) } := by
        unfold mergeVertex
        rw [if_pos hkv, hkv, fold_members]
      rw [hstep]
      have ha : added v2 (k + 1) = added v2 k := by rw [hkv]; exact added_self
      have hsh : ∀ i, i < k → i ≠ v2 → shift G1.n v2 i ≠ v1 := by
        intro i _ hi
        rw [shift_eq hi]; omega
      refine ⟨I.valid.of_eq rfl rfl rfl rfl rfl, by rw [ha]; exact I.n, I.last, by rw [ha]; exact I.csize, I.orig, I.cv, I.rows, I.rows0, I.simple,
        I.allw, ?_, ?_, ?_, ?_, ?_⟩
      · intro e he
        show h.pos e = _
        rw [I.pos e he]
        refine if_congr ?_ rfl rfl
        constructor
        · rintro ⟨h1, h2⟩; exact ⟨by omega, h2⟩
        · rintro ⟨h1, h2⟩; exact ⟨by omega, h2⟩
      · intro p hp hpv
        show update h.cont v1 _ p = _
        rw [update_of_ne hpv]; exact I.cont p hp hpv
      · intro i hi hiv
        show update h.cont v1 _ _ = _
        rw [update_of_ne (hsh i (by omega) hiv)]
        exact I.contNew i (by omega) hiv
      · show update h.cont v1 _ v1 = _
        rw [update_self, if_pos (by omega), I.contV, if_neg (by omega), List.nil_append]
        refine List.filter_congr fun e he => ?_
        obtain ⟨he1, he2⟩ := (hH.mem v2 e hv2).1 he
        rw [I.pos e he1, if_neg (fun hc => hc.2 he2)]
      · intro p hp hpc
        rw [ha] at hp
        show update h.cont v1 _ p = []
        have hlt : v1 < h.n := by rw [I.n]; omega
        have hp' : h.n ≤ p := by
          split at hp
          · exact le_of_lt hp
          · exact hp
        rw [update_of_ne (by omega)]
        exact I.tidy p hp hpc
    · have hstep : mergeVertex G2 v1 v2 h k = setMembers h.newEmptyNode h.n (G2.cont k) := by
        unfold mergeVertex
        rw [if_neg hkv, I.last]
      rw [hstep]
      obtain ⟨a1, a2, a3, a4, a5, a6, a7, a8, a9, a10, _⟩ := newEmpty_all I.valid I.last
      have ha : added v2 (k + 1) = added v2 k + 1 := added_succ hkv
      have hsk : shift G1.n v2 k = h.n := by rw [shift_eq hkv, I.n]
      have hcs : h.n ≤ h.contSize := by rw [I.n, I.csize]; omega
      have hnn := I.n
      have hlt1 : v1 < h.n := by omega
      have hcont : ∀ p, p ≠ h.n → p ≠ h.contSize → (setMembers h.newEmptyNode h.n (G2.cont k)).cont p = h.cont p := by
        intro p h1 h2
        show update h.newEmptyNode.cont h.n (G2.cont k) p = _
        rw [update_of_ne h1, a5, update_of_ne h2]
      refine ⟨setMembers_valid a1 _ _, ?_, a3.trans a2.symm, ?_, a7.trans I.orig, fun X => (a10 X).trans (I.cv X), ?_, ?_,
        simple_newEmpty I.valid I.last I.simple, allW_newEmpty I.valid I.last I.allw, ?_, ?_, ?_, ?_, ?_⟩
      · show h.newEmptyNode.n = _
        rw [a2, I.n, ha]; omega
      · show h.newEmptyNode.contSize = _
        rw [a4, I.csize, ha]; omega
      · intro f a haa
        exact (a8 f a (by rw [I.n]; omega)).trans (I.rows f a haa)
      · intro f a h1 h2
        have h2 : a < h.newEmptyNode.n := h2
        rw [a2] at h2
        by_cases hah : a = h.n
        · rw [hah]; exact a9 f
        · exact (a8 f a (by omega)).trans (I.rows0 f a h1 (by omega))
      · intro e he
        show (if e ∈ G2.cont k then h.n else h.newEmptyNode.pos e) = _
        rw [a6, I.pos e he]
        by_cases hek : G2.pos e = k
        · rw [if_pos ((hH.mem k e (by omega)).2 ⟨he, hek⟩), if_pos ⟨by omega, by omega⟩, hek, hsk]
        · rw [if_neg (fun hc => hek ((hH.mem k e (by omega)).1 hc).2)]
          refine if_congr ?_ rfl rfl
          constructor
          · rintro ⟨h1, h2⟩; exact ⟨by omega, h2⟩
          · rintro ⟨h1, h2⟩; exact ⟨by omega, h2⟩
      · intro p hp hpv
        rw [hcont p (by omega) (by omega)]
        exact I.cont p hp hpv
      · intro i hi hiv
        by_cases hik : i = k
        · rw [hik, hsk]; exact update_self _ _ _
        · have : shift G1.n v2 i < h.n := by
            rw [shift_eq hiv, I.n]
            have := added_lt (v2 := v2) (show i < k by omega) hiv
            omega
          rw [hcont _ (by omega) (by omega)]
          exact I.contNew i (by omega) hiv
      · rw [hcont v1 (by omega) (by omega), I.contV]
        refine if_congr ?_ rfl rfl
        omega
      · intro p hp hpc
        rw [if_neg (by omega)] at hp
        have hp : h.newEmptyNode.n ≤ p := hp
        have hpc : p < h.newEmptyNode.contSize := hpc
        rw [a2] at hp
        rw [a4] at hpc
        show update h.newEmptyNode.cont h.n (G2.cont k) p = []
        rw [update_of_ne (by omega), a5]
        by_cases hpe : p = h.contSize
        · rw [hpe, update_self]
        · rw [update_of_ne hpe]
          refine I.tidy p ?_ (by omega)
          split <;> omega

/-- `glue` adds a copy of the second graph. -/
theorem glue_eq (G1 : MGraph) {G2 : MGraph} (hG2 : Valid G2) {v1 v2 : Nat} (hv1 : v1 < G1.n) :
    glue G1 v1 G2 v2 = (halfEdges G2 (place G1.n v1 v2)).foldl (fun g x => g.newEdge x.1 x.2.1 x.2.2)
      ((List.range G2.n).foldl (mergeVertex G2 v1 v2) { G1 with cont := update G1.cont v1 [] }) := by
  unfold glue halfEdges
  dsimp only
  rw [List.foldl_flatMap]
  refine List.foldl_ext _ _ _ fun h n hn => ?_
  rw [List.foldl_map]
  refine List.foldl_ext _ _ _ fun h e he => ?_
  unfold mergeEdge
  dsimp only
  have hne := ((valid_iff.1 hG2).1 n e (List.mem_range.1 hn) (List.mem_range.1 he)).2.2.2.2.2
  unfold place
  by_cases ht : (G2.edge n e).target = v2
  · rw [if_neg (fun hc => hc ht), if_pos ht]
    have : n ≠ v2 := fun hc => hne (ht.trans hc.symm)
    rw [if_neg this, shift_eq this]
    unfold newEdge
    rw [if_neg (by omega)]
  · rw [if_pos ht, if_neg ht]

end GraphModification
end VieCut
