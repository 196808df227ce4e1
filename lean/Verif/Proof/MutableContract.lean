import Verif.Model.MutableContract
import Verif.Proof.MutableHistory
import Verif.Proof.Contract

namespace VieCut
namespace MGraph
open Finset Function

/-! ### Contracting vertex sets class by class -/

/-- Every vertex of the current graph contains an original vertex. -/
def HasRep (g : MGraph) : Prop := ∀ p, p < g.n → g.cont p ≠ []

theorem rep_mem {g : MGraph} (h : HasRep g) {p : Nat} (hp : p < g.n) : g.rep p ∈ g.cont p := by
  unfold rep
  have := h p hp
  cases hc : g.cont p with
  | nil => exact absurd hc this
  | cons a l => simp

theorem rep_pos {g : MGraph} (hL : Located g) (h : HasRep g) {p : Nat} (hp : p < g.n) :
    g.rep p < g.posSize ∧ g.pos (g.rep p) = p := hL.inv.back p hp _ (rep_mem h hp)

/-- State after contracting some classes `done`. -/
structure CVInv (g H : MGraph) (done : List (List Nat)) (ψ : Nat → Nat) : Prop where
  valid : Valid H
  loc : Located H
  psize : H.posSize = g.posSize
  con : IsContraction g.toGraph H.toGraph ψ
  pos : ∀ v, v < g.posSize → H.pos v = ψ (g.pos v)
  ker : ∀ p q, p < g.n → q < g.n → (ψ p = ψ q ↔ p = q ∨ ∃ c ∈ done, p ∈ c ∧ q ∈ c)
  simple : Simple g [] → Simple H []

theorem CVInv.step {g H : MGraph} {done : List (List Nat)} {ψ : Nat → Nat} (hL : Located g) (hr : HasRep g)
    (h : CVInv g H done ψ) {ord : Nat → List Nat → List Nat} (ho : IsOrder ord) {c : List Nat} {i : Nat}
    (hc : ∀ p ∈ c, p < g.n) (hnd : c.Nodup) (hdis : ∀ c' ∈ done, ∀ p ∈ c', p ∉ c) :
    ∃ ψ', CVInv g (cvStep g ord H (c, i)) (done ++ [c]) ψ' := by
  unfold cvStep
  simp only [List.length_map]
  by_cases hlen : c.length > 1
  · rw [if_pos hlen]
    set S := ord i ((c.map g.rep).map H.pos).dedup with hS
    have hSnd : S.Nodup := (ho i _).nodup_iff.2 (List.nodup_dedup _)
    have hSmem : ∀ a, a ∈ S ↔ ∃ p ∈ c, a = ψ p := by
      intro a
      rw [hS, (ho i _).mem_iff, List.mem_dedup, List.map_map, List.mem_map]
      constructor
      · rintro ⟨p, hp, rfl⟩
        have hh := rep_pos hL hr (hc p hp)
        exact ⟨p, hp, by rw [Function.comp, h.pos _ hh.1, hh.2]⟩
      · rintro ⟨p, hp, rfl⟩
        have hh := rep_pos hL hr (hc p hp)
        exact ⟨p, hp, by rw [Function.comp, h.pos _ hh.1, hh.2]⟩
    obtain ⟨⟨φ, hφ⟩, hsim, _⟩ := contractVertexSet_spec (S := S) h.valid hSnd
    have hψlt : ∀ p, p < g.n → ψ p < H.n := by
      intro p hp
      have := h.con.lt p (by rw [toGraph_n]; exact hp)
      rwa [toGraph_n] at this
    refine ⟨fun p => φ (ψ p), hφ.valid, h.loc.contracted hφ, hφ.posSize.trans h.psize, h.con.comp hφ.con, ?_, ?_, fun hh => hsim (h.simple hh)⟩
    · intro v hv
      rw [(hφ.pos h.loc.inv).2 v (by rw [h.psize]; exact hv) (h.loc.live v (by rw [h.psize]; exact hv)), h.pos v hv]
    · intro p q hp hq
      have hin : ∀ p, p < g.n → (ψ p ∈ S ↔ p ∈ c) := by
        intro p hp
        rw [hSmem]
        constructor
        · rintro ⟨p', hp', he⟩
          rcases (h.ker p p' hp (hc p' hp')).1 he with rfl | ⟨c', hc', _, h2⟩
          · exact hp'
          · exact absurd hp' (hdis c' hc' p' h2)
        · intro hpc; exact ⟨p, hpc, rfl⟩
      rw [hφ.ker _ _ (hψlt p hp) (hψlt q hq), h.ker p q hp hq, hin p hp, hin q hq]
      constructor
      · rintro ((h1 | ⟨c', h1, h2⟩) | h1)
        · exact Or.inl h1
        · exact Or.inr ⟨c', by simp [h1], h2⟩
        · exact Or.inr ⟨c, by simp, h1⟩
      · rintro (h1 | ⟨c', h1, h2⟩)
        · exact Or.inl (Or.inl h1)
        · rcases List.mem_append.1 h1 with h1 | h1
          · exact Or.inl (Or.inr ⟨c', h1, h2⟩)
          · rw [List.mem_singleton.1 h1] at h2; exact Or.inr h2
  · rw [if_neg hlen]
    refine ⟨ψ, h.valid, h.loc, h.psize, h.con, h.pos, ?_, h.simple⟩
    intro p q hp hq
    rw [h.ker p q hp hq]
    constructor
    · rintro (h1 | ⟨c', h1, h2⟩)
      · exact Or.inl h1
      · exact Or.inr ⟨c', by simp [h1], h2⟩
    · rintro (h1 | ⟨c', h1, h2⟩)
      · exact Or.inl h1
      · rcases List.mem_append.1 h1 with h1 | h1
        · exact Or.inr ⟨c', h1, h2⟩
        · rw [List.mem_singleton.1 h1] at h2
          left
          match c, hlen, h2 with
          | [], _, h2 => simp at h2
          | [a], _, h2 => simp at h2; omega
          | _ :: _ :: _, hlen, _ => simp at hlen

theorem CVInv.loop {g : MGraph} (hL : Located g) (hr : HasRep g) {ord : Nat → List Nat → List Nat} (ho : IsOrder ord)
    (rev : List (List Nat)) : ∀ (H : MGraph) (done : List (List Nat)) (ψ : Nat → Nat) (k : Nat), CVInv g H done ψ →
    (∀ c ∈ rev, (∀ p ∈ c, p < g.n) ∧ c.Nodup) → (∀ c' ∈ done, ∀ c ∈ rev, ∀ p ∈ c', p ∉ c) →
    rev.Pairwise (fun c' c => ∀ p ∈ c', p ∉ c) →
    ∃ ψ', CVInv g ((rev.zipIdx k).foldl (cvStep g ord) H) (done ++ rev) ψ' := by
  induction rev with
  | nil => intro H done ψ k h _ _ _; exact ⟨ψ, by simpa using h⟩
  | cons c rest ih =>
    intro H done ψ k h h1 h2 h3
    rw [List.zipIdx_cons, List.foldl_cons]
    obtain ⟨ψ', h'⟩ := h.step hL hr ho (i := k) (h1 c (by simp)).1 (h1 c (by simp)).2
      (fun c' hc' => h2 c' hc' c (by simp))
    rw [List.pairwise_cons] at h3
    have := ih _ (done ++ [c]) ψ' (k + 1) h' (fun c' hc' => h1 c' (by simp [hc'])) ?_ h3.2
    · simpa using this
    · intro c' hc' d hd
      rcases List.mem_append.1 hc' with hc' | hc'
      · exact h2 c' hc' d (by simp [hd])
      · rw [List.mem_singleton.1 hc']; exact h3.1 d hd

theorem card_of_ker {n m : Nat} {f r : Nat → Nat} (hlt : ∀ u, u < n → f u < m) (hs : ∀ p, p < m → ∃ u, u < n ∧ f u = p)
    (hk : ∀ u v, u < n → v < n → (f u = f v ↔ r u = r v)) : m = ((range n).image r).card := by
  have h1 : (range n).image f = range m := by
    ext p
    rw [mem_image, mem_range]
    constructor
    · rintro ⟨u, hu, rfl⟩; exact hlt u (mem_range.1 hu)
    · intro hp
      obtain ⟨u, hu, he⟩ := hs p hp
      exact ⟨u, mem_range.2 hu, he⟩
  have h2 : ((range n).image f).card = ((range n).image r).card := by
    classical
    choose! g hg1 hg2 using hs
    refine Finset.card_bij (fun p _ => r (g p)) ?_ ?_ ?_
    · intro p hp
      rw [h1, mem_range] at hp
      exact mem_image.2 ⟨g p, mem_range.2 (hg1 p hp), rfl⟩
    · intro p hp q hq he
      rw [h1, mem_range] at hp hq
      have := (hk _ _ (hg1 p hp) (hg1 q hq)).2 he
      rwa [hg2 p hp, hg2 q hq] at this
    · intro x hx
      obtain ⟨u, hu, rfl⟩ := mem_image.1 hx
      rw [mem_range] at hu
      refine ⟨f u, mem_image_of_mem f (mem_range.2 hu), ?_⟩
      exact (hk _ _ (hg1 _ (hlt u hu)) hu).1 (hg2 _ (hlt u hu))
  rw [← h2, h1, card_range]

/-- The classes produced by the numbering loop. -/
theorem fuLoop_classes {uf : UF} (h : uf.Inv) :
    (∀ c ∈ (fuLoop uf.size uf).rev, (∀ p ∈ c, p < uf.size) ∧ c.Nodup) ∧
    (fuLoop uf.size uf).rev.Pairwise (fun c' c => ∀ p ∈ c', p ∉ c) ∧
    (∀ p q, p < uf.size → q < uf.size →
      ((p = q ∨ ∃ c ∈ (fuLoop uf.size uf).rev, p ∈ c ∧ q ∈ c) ↔ uf.root p = uf.root q)) := by
  obtain ⟨h1, h2, h3, h4, h5⟩ := fuLoop_spec h
  generalize fuLoop uf.size uf = s at *
  have hget : ∀ i (hi : i < s.rev.length), s.rev[i] = (List.range uf.size).filter (fun v => s.map v = i) := by
    intro i hi
    rw [← h5 i (by omega), List.getD_eq_getElem?_getD, List.getElem?_eq_getElem hi]; rfl
  have hmem : ∀ i (hi : i < s.rev.length) p, p ∈ s.rev[i] ↔ p < uf.size ∧ s.map p = i := by
    intro i hi p
    rw [hget i hi, List.mem_filter, List.mem_range, decide_eq_true_eq]
  refine ⟨?_, ?_, ?_⟩
  · intro c hc
    obtain ⟨i, hi, rfl⟩ := List.mem_iff_getElem.1 hc
    refine ⟨fun p hp => ((hmem i hi p).1 hp).1, ?_⟩
    rw [hget i hi]; exact List.nodup_range.filter _
  · rw [List.pairwise_iff_getElem]
    intro i j hi hj hij p hp hq
    rw [hmem] at hp hq
    omega
  · intro p q hp hq
    rw [← h3 p q hp hq]
    constructor
    · rintro (rfl | ⟨c, hc, hpc, hqc⟩)
      · rfl
      · obtain ⟨i, hi, rfl⟩ := List.mem_iff_getElem.1 hc
        rw [((hmem i hi p).1 hpc).2, ((hmem i hi q).1 hqc).2]
    · intro he
      right
      have hi : s.map p < s.rev.length := by rw [h4]; exact h1 p hp
      exact ⟨s.rev[s.map p], List.getElem_mem _, (hmem _ hi p).2 ⟨hp, rfl⟩, (hmem _ hi q).2 ⟨hq, he.symm⟩⟩

theorem contractVertexsets_spec {g : MGraph} (hg : Valid g) (hL : Located g) (hr : HasRep g) {uf : UF} (hu : uf.Inv)
    (hs : uf.size = g.n) {ord : Nat → List Nat → List Nat} (ho : IsOrder ord) :
    ∃ ψ, Valid (g.contractVertexsets (fuLoop g.n uf).rev ord) ∧
      Located (g.contractVertexsets (fuLoop g.n uf).rev ord) ∧
      (g.contractVertexsets (fuLoop g.n uf).rev ord).posSize = g.posSize ∧
      IsContraction g.toGraph (g.contractVertexsets (fuLoop g.n uf).rev ord).toGraph ψ ∧
      (∀ v, v < g.posSize → (g.contractVertexsets (fuLoop g.n uf).rev ord).pos v = ψ (g.pos v)) ∧
      (∀ p q, p < g.n → q < g.n → (ψ p = ψ q ↔ uf.root p = uf.root q)) := by
  have hcl := fuLoop_classes hu
  rw [hs] at hcl
  have h0 : CVInv g g [] id := by
    refine ⟨hg, hL, rfl, isContraction_refl hg.wf, fun _ _ => rfl, ?_, fun h => h⟩
    intro p q _ _; simp
  obtain ⟨ψ, h⟩ := CVInv.loop hL hr ho (fuLoop g.n uf).rev g [] id 0 h0 hcl.1 (by simp) hcl.2.1
  rw [List.nil_append] at h
  refine ⟨ψ, h.valid, h.loc, h.psize, h.con, h.pos, ?_⟩
  intro p q hp hq
  rw [h.ker p q hp hq, hcl.2.2 p q hp hq]

theorem resetContained_toGraph (g : MGraph) : g.resetContained.toGraph = g.toGraph := rfl

theorem Valid.resetContained {g : MGraph} (h : Valid g) : Valid g.resetContained := by
  rw [valid_iff] at h ⊢
  exact h

theorem fresh_resetContained (g : MGraph) : Fresh g.resetContained := by
  refine ⟨rfl, ?_⟩
  intro v hv
  have hv' : v < g.n := hv
  simp [MGraph.resetContained, hv']

theorem Fresh.located {g : MGraph} (h : Fresh g) : Located g := by
  obtain ⟨h1, h2⟩ := h
  refine ⟨⟨?_, ?_, ?_⟩, ?_⟩
  · intro p hp v hv
    rw [(h2 p hp).2, List.mem_singleton] at hv
    subst hv
    exact ⟨by omega, (h2 _ hp).1⟩
  · intro v hv _
    rw [(h2 v (by omega)).1, (h2 v (by omega)).2]; simp
  · intro p hp; rw [(h2 p hp).2]; simp
  · intro v hv; rw [(h2 v (by omega)).1]; omega

theorem Fresh.hasRep {g : MGraph} (h : Fresh g) : HasRep g := by
  intro p hp; rw [(h.2 p hp).2]; simp

theorem Fresh.rep {g : MGraph} (h : Fresh g) {p : Nat} (hp : p < g.n) : g.rep p = p := by
  unfold MGraph.rep; rw [(h.2 p hp).2]; rfl

/-! ### Rebuilding the graph -/

theorem collectEdgeM_eq (φ : Nat → Nat) (p : Nat) (st : List Nat × (Nat → Nat)) (e : Nat × Nat) :
    collectEdgeM φ p st e = if decide (p < φ e.1) = true then collectEdge φ p st e else st := by
  unfold collectEdgeM collectEdge
  by_cases h1 : e.2 = 0
  · simp [h1]
  · by_cases h2 : φ e.1 ≤ p
    · rw [if_neg h1]; simp only; rw [if_pos h2, if_neg (by simpa using h2)]
    · rw [if_neg h1]; simp only
      have h3 : decide (p < φ e.1) = true := by rw [decide_eq_true_eq]; omega
      rw [if_neg h2, h3, if_pos rfl, if_neg h1]

theorem collectM_spec (φ : Nat → Nat) (p : Nat) (w0 : Nat → Nat) (l : List (Nat × Nat)) :
    (l.foldl (collectEdgeM φ p) ([], w0)).1.Nodup ∧
    (∀ q, q ∈ (l.foldl (collectEdgeM φ p) ([], w0)).1 → p < q ∧
      (l.foldl (collectEdgeM φ p) ([], w0)).2 q = sumMap φ l q ∧ ∃ e ∈ l, φ e.1 = q) ∧
    (∀ q, p < q → q ∉ (l.foldl (collectEdgeM φ p) ([], w0)).1 → sumMap φ l q = 0) := by
  have hE : l.foldl (collectEdgeM φ p) ([], w0) =
      (l.filter (fun e => decide (p < φ e.1))).foldl (collectEdge φ p) ([], w0) := by
    rw [List.foldl_filter]
    congr 1
    funext st e
    exact collectEdgeM_eq φ p st e
  have hsum : ∀ q, p < q → sumMap φ (l.filter (fun e => decide (p < φ e.1))) q = sumMap φ l q := by
    intro q hq
    unfold sumMap
    rw [List.filter_filter]
    congr 2
    refine List.filter_congr fun e _ => ?_
    by_cases he : φ e.1 = q
    · simp [he, hq]
    · simp [he]
  obtain ⟨h1, h2, h3⟩ := collect_spec φ p w0 (l.filter (fun e => decide (p < φ e.1)))
  rw [← hE] at h1 h2 h3
  refine ⟨h1, ?_, ?_⟩
  · intro q hq
    obtain ⟨_, b, e, he, c⟩ := h2 q hq
    rw [List.mem_filter, decide_eq_true_eq] at he
    have hpq : p < q := by rw [← c]; exact he.2
    exact ⟨hpq, by rw [b, hsum q hpq], e, he.1, c⟩
  · intro q hq hn
    rw [← hsum q hq]; exact h3 q (by omega) hn

/-- Adding a star of new edges from `p` to larger vertices. -/
theorem newEdges_spec {p : Nat} (w : Nat → Nat) (l : List Nat) : ∀ {g : MGraph}, Valid g → l.Nodup →
    (∀ t ∈ l, p < t ∧ t < g.n) →
    Valid (l.foldl (fun h t => h.newEdge p t (w t)) g) ∧
    (l.foldl (fun h t => h.newEdge p t (w t)) g).pframe = g.pframe ∧
    ∀ u v, u < v → (l.foldl (fun h t => h.newEdge p t (w t)) g).W u v
      = g.W u v + if u = p ∧ v ∈ l then w v else 0 := by
  induction l with
  | nil => intro g hg _ _; exact ⟨hg, rfl, by simp⟩
  | cons t l ih =>
    intro g hg hnd ht
    obtain ⟨h1, h2⟩ := ht t (by simp)
    obtain ⟨a1, a2, a3⟩ := newEdge_spec hg (w := w t) h1 h2
    rw [List.nodup_cons] at hnd
    have hn : (g.newEdge p t (w t)).n = g.n := by
      unfold pframe at a2; simp only [Prod.mk.injEq] at a2; exact a2.1
    rw [List.foldl_cons]
    obtain ⟨b1, b2, b3⟩ := ih a1 hnd.2 (fun x hx => by rw [hn]; exact ht x (by simp [hx]))
    refine ⟨b1, b2.trans a2, ?_⟩
    intro u v huv
    rw [b3 u v huv]
    unfold W
    rw [a3]
    have e1 : (if u = t then (if p = v then w t else 0) else 0) = 0 := by
      split
      · exact if_neg (by omega)
      · rfl
    rw [e1, Nat.add_zero, Nat.add_assoc]
    congr 1
    by_cases hup : u = p
    · by_cases hvt : v = t
      · subst hvt
        simp [hup, hnd.1]
      · simp [hup, hvt, Ne.symm hvt]
    · simp [hup]

theorem newNode_of_lt {g : MGraph} (h : g.lastNode ≠ g.n) : g.newNode = { g with lastNode := g.lastNode + 1 } := by
  unfold MGraph.newNode; rw [if_neg h]

theorem newEdge_lastNode (g : MGraph) (s t w : Nat) : (g.newEdge s t w).lastNode = g.lastNode := by
  unfold MGraph.newEdge
  split <;> rfl

theorem newEdges_lastNode (p : Nat) (w : Nat → Nat) (l : List Nat) : ∀ g : MGraph,
    (l.foldl (fun h t => h.newEdge p t (w t)) g).lastNode = g.lastNode := by
  induction l with
  | nil => intro g; rfl
  | cons t l ih => intro g; rw [List.foldl_cons, ih, newEdge_lastNode]

/-- State of the rebuilding loop before coarse vertex `k`. -/
structure SpInv (n : Nat) (F : Nat → Nat → Nat) (k : Nat) (g : MGraph) : Prop where
  valid : Valid g
  frame : g.pframe = (start n).pframe
  last : g.lastNode = k
  wt : ∀ u v, u < v → v < n → g.W u v = if u < k then F u v else 0

theorem SpInv.n_eq {n k : Nat} {F : Nat → Nat → Nat} {g : MGraph} (h : SpInv n F k g) : g.n = n := by
  have := h.frame
  unfold pframe at this
  simp only [Prod.mk.injEq] at this
  exact this.1

theorem SpInv.step {n k : Nat} {F : Nat → Nat → Nat} {g : MGraph} (h : SpInv n F k g) (hk : k < n) {G : Graph}
    {φ : Nat → Nat} {ord : Nat → List Nat → List Nat} (ho : IsOrder ord) {c : List Nat} (w0 : Nat → Nat)
    (hF : ∀ v, F k v = sumMap φ (c.flatMap G.edges) v)
    (hlt : ∀ e ∈ c.flatMap G.edges, φ e.1 < n) : SpInv n F (k + 1) (sparseStepM G φ ord (g, w0) (c, k)).1 := by
  unfold sparseStepM
  simp only
  obtain ⟨c1, c2, c3⟩ := collectM_spec φ k w0 (c.flatMap G.edges)
  generalize (c.flatMap G.edges).foldl (collectEdgeM φ k) ([], w0) = st at *
  have hn := h.n_eq
  have hperm := ho k st.1
  rw [newNode_of_lt (by rw [h.last, hn]; omega)]
  set g1 : MGraph := { g with lastNode := g.lastNode + 1 } with hg1
  have hv1 : Valid g1 := by
    have := h.valid
    rw [valid_iff] at this ⊢
    exact this
  obtain ⟨b1, b2, b3⟩ := newEdges_spec (p := k) st.2 (ord k st.1) hv1 (hperm.nodup_iff.2 c1) (by
    intro t ht
    obtain ⟨d1, _, e, he, d3⟩ := c2 t (hperm.mem_iff.1 ht)
    refine ⟨d1, ?_⟩
    have : g1.n = n := hn
    rw [this, ← d3]; exact hlt e he)
  refine ⟨b1, b2.trans h.frame, ?_, ?_⟩
  · rw [newEdges_lastNode, ← h.last]
  · intro u v huv hv
    rw [b3 u v huv]
    have : g1.W u v = g.W u v := rfl
    rw [this, h.wt u v huv hv]
    by_cases huk : u = k
    · subst huk
      have e1 : ¬ u < u := by omega
      have e2 : u < u + 1 := by omega
      simp only [e1, e2, if_true, if_false, Nat.zero_add, true_and]
      rw [hF]
      by_cases hm : v ∈ st.1
      · rw [if_pos (hperm.mem_iff.2 hm)]; exact (c2 v hm).2.1
      · rw [if_neg (fun hh => hm (hperm.mem_iff.1 hh))]; exact (c3 v huv hm).symm
    · have e1 : u < k + 1 ↔ u < k := by omega
      simp only [huk, false_and, if_false, Nat.add_zero, e1]

theorem SpInv.loop {n : Nat} {F : Nat → Nat → Nat} {G : Graph} {φ : Nat → Nat} {ord : Nat → List Nat → List Nat}
    (ho : IsOrder ord) (hlt : ∀ u, ∀ e ∈ G.edges u, φ e.1 < n) (rev : List (List Nat)) :
    ∀ (k : Nat) (g : MGraph) (w0 : Nat → Nat), SpInv n F k g → k + rev.length = n →
    (∀ i, i < rev.length → ∀ v, F (k + i) v = sumMap φ ((rev.getD i []).flatMap G.edges) v) →
    SpInv n F n ((rev.zipIdx k).foldl (sparseStepM G φ ord) (g, w0)).1 := by
  induction rev with
  | nil => intro k g w0 h hk _; simp at hk; subst hk; exact h
  | cons c rest ih =>
    intro k g w0 h hk hF
    rw [List.zipIdx_cons, List.foldl_cons]
    simp only [List.length_cons] at hk
    have h' := h.step (by omega) (G := G) (φ := φ) ho (c := c) w0 (by
      intro v
      have := hF 0 (by simp) v
      simpa using this) (by
      intro e he
      obtain ⟨u, _, hu⟩ := List.mem_flatMap.1 he
      exact hlt u e hu)
    have hsp : sparseStepM G φ ord (g, w0) (c, k) =
        ((sparseStepM G φ ord (g, w0) (c, k)).1, (sparseStepM G φ ord (g, w0) (c, k)).2) := rfl
    rw [hsp]
    refine ih (k + 1) _ _ h' (by omega) ?_
    intro i hi v
    have := hF (i + 1) (by simp; omega) v
    simpa [Nat.add_assoc, Nat.add_comm 1 i] using this

theorem SpInv.start (n : Nat) (F : Nat → Nat → Nat) : SpInv n F 0 (start n) := by
  refine ⟨Valid.start n, rfl, rfl, ?_⟩
  intro u v _ _
  rw [if_neg (by omega)]
  simp [W, rowSum, MGraph.start]

theorem contractSparseM_spec {G : Graph} (hG : G.WF) (φ : Nat → Nat) (rev : List (List Nat))
    (ord : Nat → List Nat → List Nat) (ho : IsOrder ord)
    (hlt : ∀ u, u < G.n → φ u < rev.length)
    (hsurj : ∀ p, p < rev.length → ∃ u, u < G.n ∧ φ u = p)
    (hrev : ∀ p, p < rev.length → rev.getD p [] = (List.range G.n).filter (fun v => φ v = p)) :
    IsContraction G (contractSparseM G φ rev ord).toGraph φ ∧ (contractSparseM G φ rev ord).n = rev.length ∧
    Valid (contractSparseM G φ rev ord) ∧ Fresh (contractSparseM G φ rev ord) := by
  have h := SpInv.loop (F := fun p q => sumMap φ ((rev.getD p []).flatMap G.edges) q) (G := G) (φ := φ) ho
    (n := rev.length) (fun u e he => hlt _ (hG.tgt_lt u e he)) rev 0 _ (fun _ => 0) (SpInv.start rev.length _)
    (by omega) (by intro i _ v; rw [Nat.zero_add])
  set g0 := ((rev.zipIdx 0).foldl (sparseStepM G φ ord) (MGraph.start rev.length, fun _ => 0)).1 with hg0
  have hdef : contractSparseM G φ rev ord = g0.finishConstruction := rfl
  have hv : Valid (contractSparseM G φ rev ord) := by
    rw [hdef]
    have := h.valid
    rw [valid_iff] at this ⊢
    exact this
  have hn : (contractSparseM G φ rev ord).n = rev.length := h.n_eq
  have hfr : Fresh (contractSparseM G φ rev ord) := by
    have hf := h.frame
    unfold pframe at hf
    simp only [Prod.mk.injEq] at hf
    obtain ⟨f1, f2, f3, f4, f5⟩ := hf
    refine ⟨?_, ?_⟩
    · show g0.posSize = g0.n
      rw [f3, f1]; rfl
    · intro v _
      show g0.pos v = v ∧ g0.cont v = [v]
      rw [f2, f4]; exact ⟨rfl, rfl⟩
  have hF : ∀ p q, p < rev.length → sumMap φ ((rev.getD p []).flatMap G.edges) q =
      ∑ u ∈ range G.n, ∑ v ∈ range G.n, if φ u = p ∧ φ v = q then G.wt u v else 0 := by
    intro p q hp
    rw [sumMap_flatMap, hrev p hp, sum_filter_range]
    refine Finset.sum_congr rfl fun u _ => ?_
    by_cases hu : φ u = p
    · simp [hu, sumMap_edges hG]
    · simp [hu]
  have hW : ∀ p q, p < q → q < rev.length → (contractSparseM G φ rev ord).W p q =
      ∑ u ∈ range G.n, ∑ v ∈ range G.n, if φ u = p ∧ φ v = q then G.wt u v else 0 := by
    intro p q hpq hq
    rw [← hF p q (by omega)]
    have := h.wt p q hpq hq
    rw [if_pos (by omega)] at this
    exact this
  refine ⟨⟨fun u hu => by rw [toGraph_n, hn]; exact hlt u hu,
    fun p hp => hsurj p (by rw [toGraph_n, hn] at hp; exact hp), hv.wf, ?_⟩, hn, hv, hfr⟩
  intro p q hp hq hpq
  rw [toGraph_n] at hp hq
  rw [toGraph_wt _ hp]
  rw [hn] at hp hq
  rcases Nat.lt_or_gt_of_ne hpq with hlt' | hlt'
  · exact hW p q hlt' hq
  · rw [AV.W_symm hv (by rw [hn]; exact hp) (by simp) (by rw [hn]; exact hq) (by simp), hW q p hlt' hp,
      Finset.sum_comm]
    refine Finset.sum_congr rfl fun u _ => Finset.sum_congr rfl fun v _ => ?_
    rw [hG.wt_symm v u]
    by_cases h1 : φ u = p <;> by_cases h2 : φ v = q <;> simp [h1, h2]

/-! ### `fromUnionFind` -/

theorem rootInj_of_cnt {uf : UF} (hu : uf.Inv) (h : uf.cnt = uf.size) {p q : Nat} (hp : p < uf.size) (hq : q < uf.size)
    (he : uf.root p = uf.root q) : p = q := by
  have hc := UF.image_root_card hu
  rw [h] at hc
  have hinj := Finset.card_image_iff.1 (hc.trans (card_range _).symm)
  exact hinj (by simpa using hp) (by simpa using hq) he

theorem fromUnionFindM_copy_spec {g : MGraph} (hg : Valid g) (hf : Fresh g) {uf : UF} (hu : uf.Inv)
    (hs : uf.size = g.n) {ord : Nat → List Nat → List Nat} (ho : IsOrder ord) :
    Valid (g.fromUnionFindM uf true ord).1 ∧ Fresh (g.fromUnionFindM uf true ord).1 ∧
    IsContraction g.toGraph (g.fromUnionFindM uf true ord).1.toGraph (g.fromUnionFindM uf true ord).2 ∧
    (g.fromUnionFindM uf true ord).1.n = uf.cnt ∧
    (∀ u v, u < g.n → v < g.n →
      ((g.fromUnionFindM uf true ord).2 u = (g.fromUnionFindM uf true ord).2 v ↔ uf.root u = uf.root v)) := by
  obtain ⟨h1, h2, h3, h4, h5⟩ := fuLoop_spec hu
  rw [hs] at h1 h2 h3 h4 h5
  unfold fromUnionFindM
  rw [if_neg (by simp)]
  simp only
  by_cases hc : (fuLoop g.n uf).rev.length * 2 > g.n ∨ true = false
  · rw [if_pos hc]
    obtain ⟨ψ, a1, a2, a3, a4, a5, a6⟩ := contractVertexsets_spec hg hf.located hf.hasRep hu hs ho
    simp only [if_true]
    have hpos : ∀ v, v < g.n → (g.contractVertexsets (fuLoop g.n uf).rev ord).pos v = ψ v := by
      intro v hv
      rw [a5 v (by rw [hf.1]; exact hv), (hf.2 v hv).1]
    have hk : ∀ u v, u < g.n → v < g.n → ((g.contractVertexsets (fuLoop g.n uf).rev ord).pos u =
        (g.contractVertexsets (fuLoop g.n uf).rev ord).pos v ↔ uf.root u = uf.root v) := by
      intro u v hu' hv'
      rw [hpos u hu', hpos v hv']; exact a6 u v hu' hv'
    have hcon : IsContraction g.toGraph (g.contractVertexsets (fuLoop g.n uf).rev ord).toGraph
        (g.contractVertexsets (fuLoop g.n uf).rev ord).pos :=
      a4.congr (fun u hu' => hpos u (by rw [toGraph_n] at hu'; exact hu'))
    refine ⟨a1.resetContained, fresh_resetContained _, hcon, ?_, hk⟩
    have := card_of_ker (n := g.n) (r := uf.root) (fun u hu' => hcon.lt u (by rw [toGraph_n]; exact hu'))
      (fun p hp => by
        obtain ⟨u, hu', he⟩ := hcon.surj p hp
        exact ⟨u, by rw [toGraph_n] at hu'; exact hu', he⟩) hk
    rw [toGraph_n, ← hs, UF.image_root_card hu] at this
    rw [hs] at this
    exact this
  · rw [if_neg hc]
    have hmapid : (fuLoop g.n uf).rev.map (fun c => c.map g.rep) = (fuLoop g.n uf).rev := by
      have hcl := (fuLoop_classes hu).1
      rw [hs] at hcl
      conv_rhs => rw [← List.map_id (fuLoop g.n uf).rev]
      refine List.map_congr_left fun c hc' => ?_
      conv_rhs => rw [id, ← List.map_id c]
      refine List.map_congr_left fun p hp => ?_
      exact hf.rep ((hcl c hc').1 p hp)
    rw [hmapid]
    have hwf := hg.wf
    obtain ⟨c1, c2, c3, c4⟩ := contractSparseM_spec hwf (fuLoop g.n uf).map (fuLoop g.n uf).rev ord ho
      (fun u hu' => by rw [h4]; rw [toGraph_n] at hu'; exact h1 u hu')
      (fun p hp => by rw [toGraph_n]; exact h2 p (by rw [← h4]; exact hp))
      (fun p hp => by rw [toGraph_n]; exact h5 p (by rw [← h4]; exact hp))
    exact ⟨c3, c4, c1, by rw [← h4]; exact c2, h3⟩

theorem fromUnionFindM_inplace_spec {g : MGraph} (hg : Valid g) (hL : Located g) (hr : HasRep g) {uf : UF} (hu : uf.Inv)
    (hs : uf.size = g.n) {ord : Nat → List Nat → List Nat} (ho : IsOrder ord) :
    Valid (g.fromUnionFindM uf false ord).1 ∧ Located (g.fromUnionFindM uf false ord).1 ∧
    (g.fromUnionFindM uf false ord).1.posSize = g.posSize ∧
    IsContraction g.toGraph (g.fromUnionFindM uf false ord).1.toGraph (g.fromUnionFindM uf false ord).2 ∧
    (g.fromUnionFindM uf false ord).1.n = uf.cnt ∧
    (∀ u v, u < g.n → v < g.n →
      ((g.fromUnionFindM uf false ord).2 u = (g.fromUnionFindM uf false ord).2 v ↔ uf.root u = uf.root v)) ∧
    (∀ v, v < g.posSize → (g.fromUnionFindM uf false ord).1.pos v = (g.fromUnionFindM uf false ord).2 (g.pos v)) := by
  unfold fromUnionFindM
  by_cases hc : uf.cnt = g.n ∧ false = false
  · rw [if_pos hc]
    refine ⟨hg, hL, rfl, isContraction_refl hg.wf, hc.1.symm, ?_, fun _ _ => rfl⟩
    intro u v hu' hv'
    constructor
    · intro h; simp only at h; rw [h]
    · intro h; exact rootInj_of_cnt hu (by rw [hc.1, hs]) (by rw [hs]; exact hu') (by rw [hs]; exact hv') h
  · rw [if_neg hc]
    simp only [or_true, if_true, Bool.false_eq_true, if_false]
    obtain ⟨ψ, a1, a2, a3, a4, a5, a6⟩ := contractVertexsets_spec hg hL hr hu hs ho
    set H := g.contractVertexsets (fuLoop g.n uf).rev ord with hH
    have hpos : ∀ v, v < g.n → H.pos (g.rep v) = ψ v := by
      intro v hv
      have hh := rep_pos hL hr hv
      rw [a5 _ hh.1, hh.2]
    have hcon : IsContraction g.toGraph H.toGraph (fun v => H.pos (g.rep v)) :=
      a4.congr (fun u hu' => hpos u (by rw [toGraph_n] at hu'; exact hu'))
    have hk : ∀ u v, u < g.n → v < g.n → (H.pos (g.rep u) = H.pos (g.rep v) ↔ uf.root u = uf.root v) := by
      intro u v hu' hv'
      rw [hpos u hu', hpos v hv']; exact a6 u v hu' hv'
    refine ⟨a1, a2, a3, hcon, ?_, hk, ?_⟩
    · have := card_of_ker (n := g.n) (r := uf.root) (fun u hu' => hcon.lt u (by rw [toGraph_n]; exact hu'))
        (fun p hp => by
          obtain ⟨u, hu', he⟩ := hcon.surj p hp
          exact ⟨u, by rw [toGraph_n] at hu'; exact hu', he⟩) hk
      rw [toGraph_n, ← hs, UF.image_root_card hu] at this
      exact this
    · intro v hv
      rw [hpos _ (hL.live v hv), a5 v hv]

end MGraph
end VieCut
