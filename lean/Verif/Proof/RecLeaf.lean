import Verif.Proof.RecMerge

/-!
# C57: a vertex of the degree of the minimum cut is put back as a leaf
-/

namespace VieCut
namespace RecCactus
open MGraph GraphModification Function

theorem cv_vertex {E : Nat → Prop} {G : MGraph} {c u : Nat} (hp : Piece E G c) (hu : u < G.n) : G.cv (fun x => x == u) = G.wdeg u := by
  have h1 := hp.valid.wf.cut_singleton (u := u) (by rw [toGraph_n]; exact hu)
  rw [toGraph_n] at h1
  unfold cv
  rw [h1, toGraph_deg G hu, hp.valid.wdeg u hu (by simp)]

/-- The graph in which two vertices are one that holds the elements of the second. -/
theorem held_other {E : Nat → Prop} {G G1 : MGraph} {c a b : Nat} {φ : Nat → Nat} (hp : Piece E G c) (Q : IsQuot E G G1 c φ)
    (ha : a < G.n) (hb : b < G.n) (hab : φ a = φ b) (hker : ∀ u v, u < G.n → v < G.n → φ u = φ v → u = v ∨ ((u = a ∨ u = b) ∧ (v = a ∨ v = b))) (hne : a ≠ b) :
    Piece (fun e => E e ∧ G.pos e ≠ a) (STCactus.setMembers G1 (φ a) (G.cont b)) c ∧
    ∀ f, Split (STCactus.setMembers G1 (φ a) (G.cont b)) (fun e => E e ∧ G.pos e ≠ a) c f ↔
      ∃ X, ProperCut G.n X ∧ G.cv X = c ∧ X a = X b ∧ ∀ e, E e → G.pos e ≠ a → X (G.pos e) = f e := by
  set H := STCactus.setMembers G1 (φ a) (G.cont b) with hH
  have hpos : ∀ e, E e → H.pos e = φ (G.pos e) := by
    intro e he
    show (if e ∈ G.cont b then φ a else G1.pos e) = _
    split
    · rename_i hm
      rw [((hp.held.mem b e hb).1 hm).2, hab]
    · exact Q.pos e he
  refine ⟨⟨consistent_iff.2 (setMembers_valid Q.piece.valid _ _), Q.piece.simple, Q.piece.ready, Q.piece.room, Q.piece.positive, ⟨?_, ?_, ?_⟩,
    fun e he => Q.piece.known e he.1, ?_, Q.piece.least⟩, ?_⟩
  · rintro e ⟨he, _⟩
    rw [hpos e he]
    exact Q.lt _ (hp.held.lt e he)
  · intro p e hpn
    show e ∈ update G1.cont (φ a) (G.cont b) p ↔ _
    by_cases hpa : p = φ a
    · subst hpa
      rw [update_self, hp.held.mem b e hb]
      constructor
      · rintro ⟨he, hpe⟩
        exact ⟨⟨he, by omega⟩, by rw [hpos e he, hpe, hab]⟩
      · rintro ⟨⟨he, h1⟩, h2⟩
        rw [hpos e he] at h2
        have := hker _ _ (hp.held.lt e he) ha h2
        exact ⟨he, by omega⟩
    · rw [update_of_ne hpa, Q.piece.held.mem p e hpn]
      constructor
      · rintro ⟨he, hpe⟩
        rw [Q.pos e he] at hpe
        exact ⟨⟨he, fun h => hpa (by rw [← hpe, h])⟩, by rw [hpos e he]; exact hpe⟩
      · rintro ⟨⟨he, _⟩, hpe⟩
        rw [hpos e he] at hpe
        exact ⟨he, by rw [Q.pos e he]; exact hpe⟩
  · intro p hpn
    show (update G1.cont (φ a) (G.cont b) p).Nodup
    by_cases hpa : p = φ a
    · rw [hpa, update_self]; exact hp.held.nodup b hb
    · rw [update_of_ne hpa]; exact Q.piece.held.nodup p hpn
  · intro p hpn
    show update G1.cont (φ a) (G.cont b) p ≠ []
    by_cases hpa : p = φ a
    · rw [hpa, update_self]; exact hp.full b hb
    · rw [update_of_ne hpa]; exact Q.piece.full p hpn
  · intro f
    have hsp := fun f => Q.splits hp.held f
    constructor
    · rintro ⟨T, t1, t2, t3⟩
      obtain ⟨X, x1, x2, x3, x4⟩ := (hsp fun e => T (G1.pos e)).1 ⟨T, t1, t2, fun _ _ => rfl⟩
      refine ⟨X, x1, x2, x3 a b ha hb hab, fun e he hne => ?_⟩
      rw [x4 e he]
      show T (G1.pos e) = _
      rw [Q.pos e he, ← hpos e he]
      exact t3 e ⟨he, hne⟩
    · rintro ⟨X, x1, x2, x3, x4⟩
      obtain ⟨T, t1, t2, t3⟩ := (hsp fun e => X (G.pos e)).2 ⟨X, x1, x2, fun u v hu hv huv => by
        rcases hker u v hu hv huv with h | ⟨rfl | rfl, rfl | rfl⟩
        · rw [h]
        · rfl
        · exact x3
        · exact x3.symm
        · rfl, fun _ _ => rfl⟩
      refine ⟨T, t1, t2, fun e he => ?_⟩
      rw [hpos e he.1, ← Q.pos e he.1, t3 e he.1]
      exact x4 e he.1 he.2

theorem leafCase_spec {E : Nat → Prop} {G M : MGraph} {c s e : Nat} {lab : Nat → Nat} {rc : MGraph → Option MGraph} (hc : 0 < c)
    (hp : Piece E G c) (hrc : Sound c rc) (hs : s < G.n) (he : e < G.len s) (H : STClasses G lab 2 s (G.edge s e).target c)
    (hw : G.wdeg s = c ∨ G.wdeg (G.edge s e).target = c) (hM : leafCase c rc G s e (G.edge s e).target = some M) :
    CactusOf E (Split G E c) M c := by
  obtain ⟨⟨φ, hC⟩, hsim, _⟩ := contractEdge_spec hp.valid hp.simp0 hs he
  have hts : (G.edge s e).target ≠ s := (hp.valid.pv s e ⟨hs, by simp, he⟩).2.2.2.2.2
  have htn := H.sink
  set t := (G.edge s e).target with htd
  unfold leafCase at hM
  dsimp only at hM
  obtain ⟨a, b, ha, hb, hne, hset, hwa, hea, heb⟩ : ∃ a b, a < G.n ∧ b < G.n ∧ a ≠ b ∧ ((a = s ∧ b = t) ∨ (a = t ∧ b = s)) ∧ G.wdeg a = c ∧
      (if G.wdeg s = c then s else t) = a ∧ (if (if G.wdeg s = c then s else t) = s then t else s) = b := by
    by_cases h : G.wdeg s = c
    · exact ⟨s, t, hs, htn, hts.symm, .inl ⟨rfl, rfl⟩, h, by rw [if_pos h], by rw [if_pos h, if_pos rfl]⟩
    · exact ⟨t, s, htn, hs, hts, .inr ⟨rfl, rfl⟩, hw.resolve_left h, by rw [if_neg h], by rw [if_neg h, if_neg hts]⟩
  rw [heb, hea] at hM
  obtain ⟨ret, hr, rfl⟩ := Option.map_eq_some_iff.1 hM
  have Q := isQuot_contracted hp hC hsim
  have hker : ∀ u v, u < G.n → v < G.n → φ u = φ v → u = v ∨ ((u = a ∨ u = b) ∧ (v = a ∨ v = b)) := by
    intro u v hu hv huv
    have := (hC.ker u v hu hv).1 huv
    simp only [List.mem_cons, List.not_mem_nil, or_false] at this
    omega
  have hab : φ a = φ b := (hC.ker a b ha hb).2 (by simp only [List.mem_cons, List.not_mem_nil, or_false]; omega)
  obtain ⟨ea1, ea2⟩ := hp.head_elem ha
  obtain ⟨eb1, eb2⟩ := hp.head_elem hb
  have hv : (G.contractEdge s e).pos ((G.cont a).headD 0) = φ a := by rw [Q.pos _ ea1, ea2]
  rw [hv] at hr
  obtain ⟨p1, p2⟩ := held_other hp Q ha hb hab hker hne
  have hret := (hrc _ _ _ p1 hr).congr p2
  -- the vertex alone is one of the two classes
  have hcut : G.cv (fun x => x == a) = c := by rw [cv_vertex hp ha, hwa]
  have hsep : (s == a) ≠ (t == a) := by
    rcases hset with ⟨rfl, rfl⟩ | ⟨rfl, rfl⟩
    · simp [hts]
    · simp [Ne.symm hts]
  have hclass : ∀ u v, u < G.n → v < G.n → lab u = lab v → (u == a) = (v == a) := H.same _ hcut hsep
  have hab' : lab a ≠ lab b := by
    intro h
    have := hclass a b ha hb h
    simp at this
    exact hne this.symm
  have hrest : ∀ u, u < G.n → u ≠ a → lab u = lab b := by
    intro u hu hua
    have h1 := H.lt u hu
    have h2 := H.lt a ha
    have h3 := H.lt b hb
    by_contra h
    have := hclass u a hu ha (by omega)
    simp at this
    exact hua this
  have hEiff : ∀ x, E x ↔ (E x ∧ G.pos x ≠ a) ∨ x ∈ G.cont a := by
    intro x
    rw [hp.held.mem a x ha]
    tauto
  have hput : (let other := ret.pos ((G.cont b).headD 0)
      let new := ret.lastNode
      STCactus.setMembers (ret.newEmptyNode.newEdge other new c) new (G.cont a)) = HeavyEdges.putLeaf c ret ((G.cont b).headD 0, G.cont a) := by
    unfold HeavyEdges.putLeaf
    dsimp only
    have hlt := hret.held.lt _ (⟨eb1, by rw [eb2]; exact hne.symm⟩ : E ((G.cont b).headD 0) ∧ G.pos ((G.cont b).headD 0) ≠ a)
    rw [hret.ready]
    unfold MGraph.newEdgeOrder
    rw [if_pos hlt]
  dsimp only at hput
  rw [hput]
  have hat := hret.attach (E := E) hc (hp.held.nodup a ha) (x := (G.cont b).headD 0) ⟨eb1, by rw [eb2]; exact hne.symm⟩ hEiff
    (fun x hx => by rw [hp.held.mem a x ha] at hx; tauto)
  refine hat.congr fun f => ?_
  constructor
  · rintro (⟨⟨X, x1, x2, x3, x4⟩, hl⟩ | ⟨bb, hbb⟩)
    · refine ⟨X, x1, x2, fun x hx => ?_⟩
      by_cases hxa : G.pos x = a
      · rw [hl x ((hp.held.mem a x ha).2 ⟨hx, hxa⟩), ← x4 _ eb1 (by rw [eb2]; exact hne.symm), eb2, hxa, x3]
      · exact x4 x hx hxa
    · have hsymm : ∀ u v, G.toGraph.wt u v = G.toGraph.wt v u := fun u v => hp.valid.wf.wt_symm u v
      refine ⟨fun x => if x = a then bb else !bb, ?_, ?_, fun x hx => ?_⟩
      · cases bb
        · exact ⟨⟨b, hb, by simp [hne.symm]⟩, ⟨a, ha, by simp⟩⟩
        · exact ⟨⟨a, ha, by simp⟩, ⟨b, hb, by simp [hne.symm]⟩⟩
      · cases bb
        · rw [← hcut]
          have := cutValue_compl (n := G.n) hsymm (fun x => x == a)
          unfold cv
          rw [← this]
          refine cutValue_congr fun u _ => ?_
          by_cases h : u = a <;> simp [h]
        · rw [← hcut]
          refine cutValue_congr fun u _ => ?_
          by_cases h : u = a <;> simp [h]
      · rw [hbb x hx]
        show (if G.pos x = a then bb else !bb) = _
        by_cases h : G.pos x = a
        · rw [if_pos h, if_pos ((hp.held.mem a x ha).2 ⟨hx, h⟩)]
        · rw [if_neg h, if_neg (fun hm => h ((hp.held.mem a x ha).1 hm).2)]
  · rintro ⟨X, x1, x2, x3⟩
    by_cases hX : X a = X b
    · refine .inl ⟨⟨X, x1, x2, hX, fun x hx _ => x3 x hx⟩, fun x hx => ?_⟩
      obtain ⟨h1, h2⟩ := (hp.held.mem a x ha).1 hx
      rw [← x3 x h1, ← x3 _ eb1, h2, eb2, hX]
    · refine .inr ⟨X a, fun x hx => ?_⟩
      have hst : X s ≠ X t := by
        rcases hset with ⟨rfl, rfl⟩ | ⟨rfl, rfl⟩
        · exact hX
        · exact fun h => hX h.symm
      have hsame := H.same X x2 hst
      rw [← x3 x hx]
      by_cases h : G.pos x = a
      · rw [if_pos ((hp.held.mem a x ha).2 ⟨hx, h⟩), h]
      · rw [if_neg (fun hm => h ((hp.held.mem a x ha).1 hm).2)]
        rw [hsame _ b (hp.held.lt x hx) hb (hrest _ (hp.held.lt x hx) h)]
        revert hX
        generalize X a = p
        generalize X b = q
        revert p q
        decide

end RecCactus
end VieCut
