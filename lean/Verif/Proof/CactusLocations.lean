import Verif.Proof.CactusUnpack

/-!
# `setVertexLocations` puts all levels back
-/

namespace VieCut
namespace Cactus
open Function Finset MGraph

/-- All remembered edges of one level. -/
theorem Rep.fold {A : Graph} (hA : A.WF) {c : Nat} (hc : 0 < c) : ∀ (es : List (Nat × Nat)) (Q : (Nat → Bool) → Prop)
    (st : MGraph × (Nat → Nat)), Rep Q A st.1 st.2 c →
    (∀ e ∈ es, e.1 < A.n ∧ A.edges e.1 = [(e.2, c)] ∧ st.2 e.1 = st.2 e.2 ∧ ∀ S, Q S → S e.1 = S e.2) →
    (es.map Prod.fst).Nodup → (∀ e ∈ es, ∀ f ∈ es, e.2 ≠ f.1) →
    Rep (fun S => Q S ∨ ∃ e ∈ es, ∀ u v, u < A.n → v < A.n → u ≠ e.1 → v ≠ e.1 → S u = S v) A
      (es.foldl (Cactus.attach c) st).1 (es.foldl (Cactus.attach c) st).2 c := by
  intro es
  induction es with
  | nil =>
    intro Q st h _ _ _
    exact ⟨h.valid, h.ready, h.simple, h.lt, h.least, h.sound,
      fun S h1 h2 h3 => h.complete S h1 h2 (by rcases h3 with h3 | ⟨e, he, _⟩; exact h3; cases he), h.separating⟩
  | cons e es ih =>
    intro Q st h hes hnd hap
    obtain ⟨e1, e2, e3, e4⟩ := hes e (by simp)
    rw [List.map_cons, List.nodup_cons] at hnd
    have hstep := h.attach_step hA hc e1 e2 e3 e4
    have hne : ∀ f ∈ es, f.1 ≠ e.1 := fun f hf he => hnd.1 (by rw [← he]; exact List.mem_map_of_mem hf)
    have hne2 : ∀ f ∈ es, f.2 ≠ e.1 := fun f hf => hap f (by simp [hf]) e (by simp)
    have := ih _ (Cactus.attach c st e) hstep (fun f hf => by
        obtain ⟨f1, f2, f3, f4⟩ := hes f (by simp [hf])
        refine ⟨f1, f2, ?_, ?_⟩
        · show update st.2 e.1 _ f.1 = update st.2 e.1 _ f.2
          rw [update_of_ne (hne f hf), update_of_ne (hne2 f hf), f3]
        · intro S hS
          rcases hS with hS | hS
          · exact f4 S hS
          · exact hS f.1 f.2 f1 (hA.tgt_lt f.1 (f.2, c) (by rw [f2]; simp)) (hne f hf) (hne2 f hf))
      hnd.2 (fun f hf g hg => hap f (by simp [hf]) g (by simp [hg]))
    rw [List.foldl_cons]
    refine ⟨this.valid, this.ready, this.simple, this.lt, this.least, this.sound, fun S h1 h2 h3 => ?_, this.separating⟩
    refine this.complete S h1 h2 ?_
    rcases h3 with h3 | ⟨f, hf, h3⟩
    · exact Or.inl (Or.inl h3)
    · rcases List.mem_cons.1 hf with rfl | hf
      · exact Or.inl (Or.inr h3)
      · exact Or.inr ⟨f, hf, h3⟩

/-- One level. -/
theorem Rep.level {A B : Graph} (hA : A.WF) {c : Nat} (hc : 0 < c) {φ : Nat → Nat} {es : List (Nat × Nat)}
    (hl : Level c c A B φ es) {C : MGraph} {p : Nat → Nat} (h : Rep (fun _ => True) B C p c) :
    Rep (fun _ => True) A (es.foldl (Cactus.attach c) (C, fun v => p (φ v))).1 (es.foldl (Cactus.attach c) (C, fun v => p (φ v))).2 c := by
  have h0 : Rep (fun S => ∀ u v, u < A.n → v < A.n → φ u = φ v → S u = S v) A C (fun v => p (φ v)) c := by
    refine ⟨h.valid, h.ready, h.simple, fun v hv => h.lt _ (hl.con.lt v hv), h.least, ?_, ?_, h.separating⟩
    · intro X hX hv
      obtain ⟨s1, s2⟩ := h.sound X hX hv
      exact ⟨hl.con.proper s1, by rw [← s2, hl.con.cut]⟩
    · intro S hS hv hr
      obtain ⟨T, t1, t2, t3⟩ := hl.con.push hr
      obtain ⟨X, x1, x2⟩ := h.complete T (t3 hS) (t2.trans hv) trivial
      exact ⟨X, x1, fun v hv' => by rw [x2 _ (hl.con.lt v hv'), t1 v hv']⟩
  have h1 := Rep.fold hA hc es _ (C, fun v => p (φ v)) h0 (fun e he => by
    obtain ⟨e1, e2, e3⟩ := hl.pend e he
    refine ⟨e1, e2, by simp only; rw [e3], fun S hS => ?_⟩
    exact hS _ _ e1 (hA.tgt_lt e.1 (e.2, c) (by rw [e2]; simp)) e3) hl.nodup hl.apart
  exact ⟨h1.valid, h1.ready, h1.simple, h1.lt, h1.least, h1.sound, fun S s1 s2 _ => h1.complete S s1 s2 (hl.cuts S s1 s2),
    h1.separating⟩

theorem edgesAt_eq {ge : List (Nat × List (Nat × Nat))} {i : Nat} (hs : ge.Pairwise (fun a b => a.1 < b.1))
    (hle : ∀ x ∈ ge, x.1 ≤ i) : edgesAt ge i = entry ge i := by
  rcases List.eq_nil_or_concat ge with rfl | ⟨l, x, rfl⟩
  · rfl
  · rw [List.concat_eq_append] at *
    unfold edgesAt
    rw [List.getLast?_append]
    simp only [List.getLast?_singleton, Option.some_or]
    rw [List.pairwise_append] at hs
    by_cases hx : x.1 = i
    · rw [if_pos hx, ← hx]
      exact (entry_append_self fun y hy => ne_of_lt (hs.2.2 y hy x (by simp))).symm
    · rw [if_neg hx]
      refine (entry_none fun y hy => ?_).symm
      have hxi := hle x (by simp)
      rcases List.mem_append.1 hy with hy | hy
      · have := hs.2.2 y hy x (by simp); omega
      · rw [List.mem_singleton] at hy; rw [hy]; exact hx

theorem dropAt_spec {ge : List (Nat × List (Nat × Nat))} {i : Nat} (hs : ge.Pairwise (fun a b => a.1 < b.1))
    (hle : ∀ x ∈ ge, x.1 ≤ i) : (dropAt ge i).Pairwise (fun a b => a.1 < b.1) ∧ (∀ x ∈ dropAt ge i, x.1 < i) ∧
    ∀ j, j < i → entry (dropAt ge i) j = entry ge j := by
  rcases List.eq_nil_or_concat ge with rfl | ⟨l, x, rfl⟩
  · exact ⟨by simp [dropAt], by simp [dropAt], fun _ _ => rfl⟩
  · rw [List.concat_eq_append] at *
    unfold dropAt
    rw [List.getLast?_append]
    simp only [List.getLast?_singleton, Option.some_or]
    have hs' := hs
    rw [List.pairwise_append] at hs
    by_cases hx : x.1 = i
    · rw [if_pos hx, List.dropLast_concat]
      refine ⟨hs.1, fun y hy => ?_, fun j hj => ?_⟩
      · have := hs.2.2 y hy x (by simp); omega
      · rw [entry_append_lt (by omega)]
    · rw [if_neg hx]
      have hxi := hle x (by simp)
      refine ⟨hs', fun y hy => ?_, fun j hj => rfl⟩
      rcases List.mem_append.1 hy with hy | hy
      · have := hs.2.2 y hy x (by simp); omega
      · rw [List.mem_singleton] at hy; rw [hy]; omega

/-- All levels. -/
theorem unpack_spec {G : Graph} (hG : G.WF) {c : Nat} (hc : 0 < c) : ∀ (maps : List (Nat → Nat))
    (ge : List (Nat × List (Nat × Nat))) (K : Graph) (st : MGraph × (Nat → Nat)), Chain c c (entry ge) G maps K →
    ge.Pairwise (fun a b => a.1 < b.1) → (∀ x ∈ ge, x.1 < maps.length) → Rep (fun _ => True) K st.1 st.2 c →
    Rep (fun _ => True) G (unpack c maps ge st).1 (unpack c maps ge st).2 c := by
  intro maps
  induction maps with
  | nil => intro ge K st hch _ _ h; rw [show K = G from hch] at h; exact h
  | cons φ maps ih =>
    intro ge K st hch hs hlt h
    obtain ⟨A, h1, h2⟩ := hch
    have hle : ∀ x ∈ ge, x.1 ≤ maps.length := fun x hx => by have := hlt x hx; simp at this; omega
    obtain ⟨d1, d2, d3⟩ := dropAt_spec hs hle
    unfold unpack
    simp only
    rw [edgesAt_eq hs hle]
    exact ih _ A _ (h1.congr _ _ d3) d1 d2 (Rep.level (h1.wf hG) hc h2 h)

/-! ### The parts of the graph the cuts do not depend on -/

/-- The lists of contained vertices are empty, also those behind the last vertex. -/
def Cleared (C : MGraph) : Prop := C.lastNode = C.n ∧ C.n ≤ C.contSize ∧ ∀ q, q < C.contSize → C.cont q = []

theorem newEdge_frame (g : MGraph) (s t w : Nat) : (g.newEdge s t w).n = g.n ∧ (g.newEdge s t w).lastNode = g.lastNode ∧
    (g.newEdge s t w).contSize = g.contSize ∧ (g.newEdge s t w).cont = g.cont ∧ (g.newEdge s t w).posSize = g.posSize := by
  unfold newEdge
  split
  · exact ⟨rfl, rfl, rfl, rfl, rfl⟩
  · exact ⟨rfl, rfl, rfl, rfl, rfl⟩

theorem newEdgeOrder_frame (g : MGraph) (s t w : Nat) : (g.newEdgeOrder s t w).n = g.n ∧
    (g.newEdgeOrder s t w).lastNode = g.lastNode ∧ (g.newEdgeOrder s t w).contSize = g.contSize ∧
    (g.newEdgeOrder s t w).cont = g.cont ∧ (g.newEdgeOrder s t w).posSize = g.posSize := by
  unfold newEdgeOrder
  split
  · exact newEdge_frame _ _ _ _
  · split
    · exact newEdge_frame _ _ _ _
    · exact ⟨rfl, rfl, rfl, rfl, rfl⟩

theorem Cleared.attach_step {c : Nat} {st : MGraph × (Nat → Nat)} {e : Nat × Nat} (h : Cleared st.1) :
    Cleared (Cactus.attach c st e).1 := by
  obtain ⟨f1, f2, f3, f4, _⟩ := newEdgeOrder_frame st.1.newEmptyNode st.1.n (st.2 e.2) c
  have hE : st.1.newEmptyNode.n = st.1.n + 1 := by unfold newEmptyNode; rw [if_pos h.1]
  have hS : st.1.newEmptyNode.contSize = st.1.contSize + 1 := by unfold newEmptyNode; rw [if_pos h.1]
  have h2 := h.2.1
  refine ⟨?_, ?_, fun q hq => ?_⟩
  · show (st.1.newEmptyNode.newEdgeOrder _ _ _).lastNode = (st.1.newEmptyNode.newEdgeOrder _ _ _).n
    rw [f2, f1, hE]
    unfold newEmptyNode; rw [if_pos h.1]; simp [h.1]
  · show (st.1.newEmptyNode.newEdgeOrder _ _ _).n ≤ (st.1.newEmptyNode.newEdgeOrder _ _ _).contSize
    rw [f3, f1, hE, hS]
    omega
  · change q < (st.1.newEmptyNode.newEdgeOrder _ _ _).contSize at hq
    show (st.1.newEmptyNode.newEdgeOrder _ _ _).cont q = []
    rw [f3, hS] at hq
    rw [f4]
    unfold newEmptyNode; rw [if_pos h.1]
    simp only
    by_cases hqn : q = st.1.contSize
    · rw [hqn, update_self]
    · rw [update_of_ne hqn]
      exact h.2.2 q (by omega)

theorem attach_posSize (c : Nat) (st : MGraph × (Nat → Nat)) (e : Nat × Nat) : (Cactus.attach c st e).1.posSize = st.1.posSize := by
  show (st.1.newEmptyNode.newEdgeOrder _ _ _).posSize = _
  rw [(newEdgeOrder_frame _ _ _ _).2.2.2.2]
  unfold newEmptyNode
  split <;> rfl

theorem fold_frame (c : Nat) (es : List (Nat × Nat)) : ∀ st, (es.foldl (Cactus.attach c) st).1.posSize = st.1.posSize ∧
    (Cleared st.1 → Cleared (es.foldl (Cactus.attach c) st).1) := by
  induction es with
  | nil => intro st; exact ⟨rfl, id⟩
  | cons e es ih =>
    intro st
    rw [List.foldl_cons]
    exact ⟨by rw [(ih _).1, attach_posSize], fun h => (ih _).2 h.attach_step⟩

theorem unpack_frame (c : Nat) : ∀ maps ge st, (unpack c maps ge st).1.posSize = st.1.posSize ∧
    (Cleared st.1 → Cleared (unpack c maps ge st).1) := by
  intro maps
  induction maps with
  | nil => intro ge st; exact ⟨rfl, id⟩
  | cons φ maps ih =>
    intro ge st
    unfold unpack
    simp only
    exact ⟨by rw [(ih _ _).1, (fold_frame _ _ _).1], fun h => (ih _ _).2 ((fold_frame _ _ _).2 h)⟩

/-- The final loop (minimum_cut_helpers.h:194-199). -/
def place (p : Nat → Nat) (n : Nat) (C : MGraph) : MGraph :=
  (List.range n).foldl (fun g v => { g with pos := update g.pos v (p v), cont := update g.cont (p v) (g.cont (p v) ++ [v]) }) C

theorem place_spec (p : Nat → Nat) (C : MGraph) : ∀ n, ∃ pos cont, place p n C = { C with pos := pos, cont := cont } ∧
    (∀ v, pos v = if v < n then p v else C.pos v) ∧
    ∀ q, cont q = C.cont q ++ (List.range n).filter (fun v => p v == q) := by
  intro n
  induction n with
  | zero => exact ⟨C.pos, C.cont, rfl, fun v => by simp, fun q => by simp⟩
  | succ n ih =>
    obtain ⟨pos, cont, h1, h2, h3⟩ := ih
    refine ⟨update pos n (p n), update cont (p n) (cont (p n) ++ [n]), ?_, ?_, ?_⟩
    · unfold place
      rw [List.range_succ, List.foldl_append]
      show _ = _
      unfold place at h1
      rw [h1]
      rfl
    · intro v
      by_cases hv : v = n
      · subst hv; rw [update_self, if_pos (by omega)]
      · rw [update_of_ne hv, h2]
        by_cases hlt : v < n
        · rw [if_pos hlt, if_pos (by omega)]
        · rw [if_neg hlt, if_neg (by omega)]
    · intro q
      rw [List.range_succ, List.filter_append]
      by_cases hq : q = p n
      · subst hq
        rw [update_self, h3]
        simp
      · rw [update_of_ne hq, h3]
        simp [Ne.symm hq]

theorem Rep.congr_pos {Q : (Nat → Bool) → Prop} {A : Graph} {C : MGraph} {p p' : Nat → Nat} {c : Nat} (h : Rep Q A C p c)
    (hp : ∀ v, v < A.n → p' v = p v) : Rep Q A C p' c := by
  refine ⟨h.valid, h.ready, h.simple, fun v hv => by rw [hp v hv]; exact h.lt v hv, h.least, ?_, ?_, h.separating⟩
  · intro X hX hv
    obtain ⟨s1, s2⟩ := h.sound X hX hv
    have heq : ∀ v, v < A.n → X (p v) = X (p' v) := fun v hv => by rw [hp v hv]
    exact ⟨s1.congr heq, by rw [← s2]; exact (cutValue_congr heq).symm⟩
  · intro S hS hv hQ
    obtain ⟨X, x1, x2⟩ := h.complete S hS hv hQ
    exact ⟨X, x1, fun v hv' => by rw [hp v hv']; exact x2 v hv'⟩

theorem Rep.congr_graph {Q : (Nat → Bool) → Prop} {A : Graph} {C C' : MGraph} {p : Nat → Nat} {c : Nat} (h : Rep Q A C p c)
    (hn : C'.n = C.n) (hl : C'.len = C.len) (he : C'.edge = C.edge) (hw : C'.wdeg = C.wdeg) (hm : C'.numEdges = C.numEdges)
    (hr : C'.lastNode = C.lastNode) : Rep Q A C' p c := by
  have hg : C'.toGraph = C.toGraph := by unfold toGraph; rw [hn, hl, he]
  refine ⟨h.valid.of_eq hn hl he hw hm, by rw [hr, hn]; exact h.ready, ?_, ?_, ?_, ?_, ?_, ?_⟩
  · have := h.simple
    unfold NoParallel at this ⊢
    rw [hn, hl, he]; exact this
  · rw [hn]; exact h.lt
  · rw [hn, hg]; exact h.least
  · rw [hn, hg]; exact h.sound
  · rw [hn, hg]; exact h.complete
  · rw [hn, hg]; exact h.separating

theorem setOriginalNodes_frame (C : MGraph) (n : Nat) : ∃ pos ps, C.setOriginalNodes n = { C with pos := pos, posSize := ps, origNodes := n } ∧
    (∀ v, v < C.posSize → pos v = C.pos v) ∧ ps = max n C.posSize := by
  unfold setOriginalNodes
  split
  · exact ⟨_, _, rfl, fun v hv => if_pos hv, by omega⟩
  · exact ⟨C.pos, C.posSize, rfl, fun v _ => rfl, by omega⟩

/-- There is a list for every vertex, and the lists behind the last vertex are empty. -/
def NoStale (C : MGraph) : Prop := C.n ≤ C.contSize ∧ ∀ q, C.n ≤ q → q < C.contSize → C.cont q = []

theorem noStale_of_eq {C : MGraph} (h : C.contSize = C.n) : NoStale C := ⟨h.ge, fun q h1 h2 => by omega⟩

/-- `setVertexLocations` turns a cactus of the kernel into a cactus of the input. -/
theorem setVertexLocations_spec {γ : Type} [GraphLike γ] {good : γ → Prop} {G : Graph} (hG : G.WF) {c : Nat} (hc : 0 < c) {k : KState γ}
    (hk : KInv good G c k) (hd : k.lv.mincut = c) {C : MGraph} (hC : RepresentsMinCuts k.lv.view C C.pos c) (hr : C.lastNode = C.n)
    (hps : k.lv.view.n ≤ C.posSize) :
    let D := setVertexLocations C G.n k.lv.view.n k.lv.maps k.ge c
    RepresentsMinCuts G D D.pos c ∧ D.posSize = max G.n C.posSize ∧ D.lastNode = D.n ∧ (NoStale C → ListsMatch D G.n) := by
  obtain ⟨pos, ps, f1, f2, f3⟩ := setOriginalNodes_frame C G.n
  intro D
  have hD : D = setVertexLocations C G.n k.lv.view.n k.lv.maps k.ge c := rfl
  unfold setVertexLocations at hD
  simp only [f1] at hD
  generalize hout : ({ C with pos := pos, posSize := ps, origNodes := G.n, cont := fun p => if p < C.n then [] else C.cont p } : MGraph) = out at hD
  have hrep0 : Rep (fun _ => True) k.lv.view out (fun v => if v < k.lv.view.n then pos v else v) c := by
    refine ((Rep.of_represents hC hr).congr_pos (p' := fun v => if v < k.lv.view.n then pos v else v) (fun v hv => ?_)).congr_graph
      (by rw [← hout]) (by rw [← hout]) (by rw [← hout]) (by rw [← hout]) (by rw [← hout]) (by rw [← hout])
    simp only [if_pos hv]
    exact f2 v (by omega)
  have hps0 : out.posSize = max G.n C.posSize := by rw [← hout]; exact f3
  have hcl0 : NoStale C → Cleared out := by
    intro h
    rw [← hout]
    refine ⟨hr, h.1, fun q hq => ?_⟩
    show (if q < C.n then [] else C.cont q) = []
    split
    · rfl
    next hn => exact h.2 q (by omega) hq
  generalize hst : (if k.lv.maps.length = 0 then (out, fun v => if v < k.lv.view.n then pos v else v) else
    unpack c k.lv.maps.reverse (dropAt k.ge k.lv.maps.length)
      ((edgesAt k.ge k.lv.maps.length).foldl (Cactus.attach c) (out, fun v => if v < k.lv.view.n then pos v else v))) = st at hD
  have hfin : Rep (fun _ => True) G st.1 st.2 c ∧ st.1.posSize = max G.n C.posSize ∧ (NoStale C → Cleared st.1) := by
    rw [← hst]
    have hch := hk.chain
    rw [hd] at hch
    split
    · rename_i hz
      have : k.lv.maps = [] := List.length_eq_zero_iff.1 hz
      rw [this] at hch
      have hKG : k.lv.view = G := hch
      exact ⟨by rw [hKG] at hrep0 ⊢; exact hrep0, hps0, hcl0⟩
    · have hE : edgesAt k.ge k.lv.maps.length = [] := by
        rw [edgesAt_eq hk.sorted hk.le]
        unfold entry
        cases hf : k.ge.find? (fun x => x.1 == k.lv.maps.length) with
        | none => rfl
        | some x =>
          have h1 := List.find?_some hf
          have h2 := List.mem_of_find?_eq_some hf
          exact hk.last x h2 (by simpa using h1)
      rw [hE]
      obtain ⟨d1, d2, d3⟩ := dropAt_spec hk.sorted hk.le
      refine ⟨unpack_spec hG hc _ _ _ _ (hch.congr _ _ (fun i hi => d3 i (by simpa using hi))) d1
        (fun x hx => by simpa using d2 x hx) hrep0, ?_, fun h => (unpack_frame _ _ _ _).2 (hcl0 h)⟩
      rw [(unpack_frame _ _ _ _).1]
      exact hps0
  obtain ⟨r1, r2, r3⟩ := hfin
  obtain ⟨pos', cont', p1, p2, p3⟩ := place_spec st.2 st.1 G.n
  have hD' : D = { st.1 with pos := pos', cont := cont' } := by rw [hD]; exact p1
  have hDpos : D.pos = pos' := by rw [hD']
  have hrD : Rep (fun _ => True) G D D.pos c := by
    refine (r1.congr_pos (p' := D.pos) (fun v hv => ?_)).congr_graph (by rw [hD']) (by rw [hD']) (by rw [hD']) (by rw [hD'])
      (by rw [hD']) (by rw [hD'])
    rw [hDpos, p2, if_pos hv]
  refine ⟨hrD.represents, by rw [hD']; exact r2, hrD.ready, fun h => ?_⟩
  obtain ⟨_, c2, c3⟩ := r3 h
  have hst1 : st.1.n ≤ st.1.contSize := c2
  intro q hq
  have hqn : q < st.1.n := by rw [hD'] at hq; exact hq
  have e1 : D.cont q = cont' q := by rw [hD']
  rw [e1, p3, c3 q (by omega), List.nil_append, hDpos]
  refine List.filter_congr fun v hv => ?_
  rw [p2, if_pos (List.mem_range.1 hv)]

end Cactus
end VieCut
