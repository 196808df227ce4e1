import Verif.Model.FlowEdge
import Verif.Proof.RecPick
import Verif.Proof.HighDegree
import Verif.Props.Tools

/-!
# C58: the choices of flow edges
-/

namespace VieCut
namespace RecCactus
open MGraph Function

theorem heaviest_pick {deg : Nat → Nat} {p : Nat → Bool} {l : List Nat} (h : ∃ n ∈ l, 0 < deg n ∧ p n = true) :
    ∃ n, heaviest deg p l = some n ∧ n ∈ l ∧ p n = true := by
  obtain ⟨n, h1, h2⟩ := heaviest_some (deg := deg) (p := p) l (0, none) (by simp) (.inl h)
  simp only [reduceCtorEq, or_false] at h2
  exact ⟨n, h1, h2.1, h2.2.2⟩

theorem heaviest_fold {deg : Nat → Nat} {p : Nat → Bool} : ∀ (l : List Nat), (∀ n ∈ l, deg n < 2 ^ 32) → ∀ (b : Nat × Option Nat),
    (∀ n, b.2 = some n → b.1 = deg n) →
    let r := l.foldl (fun (b : Nat × Option Nat) n => if deg n > b.1 ∧ p n then (deg n % 2 ^ 32, some n) else b) b
    b.1 ≤ r.1 ∧ (∀ m ∈ l, p m = true → deg m ≤ r.1) ∧ ∀ n, r.2 = some n → r.1 = deg n := by
  intro l
  induction l with
  | nil => intro _ b hb; exact ⟨le_refl _, by simp, hb⟩
  | cons x l ih =>
    intro hl b hb
    have hx := hl x (by simp)
    simp only [List.foldl_cons]
    by_cases hc : deg x > b.1 ∧ p x = true
    · rw [if_pos hc, Nat.mod_eq_of_lt hx]
      obtain ⟨h1, h2, h3⟩ := ih (fun n hn => hl n (by simp [hn])) (deg x, some x) (by
        intro n hn
        simp only [Option.some.injEq] at hn
        rw [hn])
      refine ⟨le_trans hc.1.le h1, fun m hm hp => ?_, h3⟩
      rcases List.mem_cons.1 hm with rfl | hm
      · exact h1
      · exact h2 m hm hp
    · rw [if_neg hc]
      obtain ⟨h1, h2, h3⟩ := ih (fun n hn => hl n (by simp [hn])) b hb
      refine ⟨h1, fun m hm hp => ?_, h3⟩
      rcases List.mem_cons.1 hm with rfl | hm
      · by_contra hlt
        exact hc ⟨by omega, hp⟩
      · exact h2 m hm hp

theorem heaviest_max {deg : Nat → Nat} {p : Nat → Bool} {l : List Nat} (hl : ∀ n ∈ l, deg n < 2 ^ 32) {n : Nat}
    (h : heaviest deg p l = some n) : ∀ m ∈ l, p m = true → deg m ≤ deg n := by
  obtain ⟨-, h2, h3⟩ := heaviest_fold (p := p) l hl (0, none) (by simp)
  intro m hm hp
  rw [← h3 n h]
  exact h2 m hm hp

variable {G : MGraph}

theorem degree_pos (hg : G.Consistent) (hn : 2 ≤ G.n) (hc : ∀ X, ProperCut G.n X → 0 < cutValue G.n G.toGraph.wt X) {u : Nat} (hu : u < G.n) :
    0 < G.wdeg u ∧ 0 < G.len u := by
  have hv := consistent_iff.1 hg
  have hN := toGraph_n G
  have h1 : 0 < G.toGraph.deg u := by
    rw [← hv.wf.cut_singleton (by rw [hN]; exact hu), hN]
    exact hc _ (by rw [← hN]; exact Graph.properCut_singleton (by omega) (by rw [hN]; exact hu))
  refine ⟨by rw [Problem.Valid.wdeg_eq hv hu]; exact h1, ?_⟩
  by_contra h0
  have he : G.len u = 0 := by omega
  rw [← Problem.Valid.wdeg_eq hv hu, hg.degree u hu, he] at h1
  simp at h1

theorem nonempty_true (h : ∀ v, v < G.n → G.cont v ≠ []) {u : Nat} (hu : u < G.n) : (!(G.cont u).isEmpty) = true := by
  have := h u hu
  cases hc : G.cont u with
  | nil => exact absurd hc this
  | cons a l => rfl

theorem heavyFlowEdge_some (hg : G.Consistent) (hf : ∀ v, v < G.n → G.cont v ≠ []) (hn : 0 < G.n) {deg : Nat → Nat}
    (hd : ∀ u, u < G.n → 0 < deg u) (hl : ∀ u, u < G.n → 0 < G.len u) (rnd : Nat) :
    ∃ s e, heavyFlowEdge deg rnd G = some (s, e) ∧ s < G.n ∧ e < G.len s ∧
      heaviest deg (fun n => !(G.cont n).isEmpty) (List.range G.n) = some s ∧
      heaviest (fun e => deg (G.edge s e).target) (fun e => !(G.cont (G.edge s e).target).isEmpty) (List.range (G.len s)) = some e := by
  obtain ⟨s, s1, s2, s3⟩ := heaviest_pick (deg := deg) (p := fun n => !(G.cont n).isEmpty) (l := List.range G.n)
    ⟨0, by simpa using hn, hd 0 hn, nonempty_true hf hn⟩
  rw [List.mem_range] at s2
  have ht := hg.target s 0 s2 (hl s s2)
  obtain ⟨e, e1, e2, e3⟩ := heaviest_pick (deg := fun e => deg (G.edge s e).target) (p := fun e => !(G.cont (G.edge s e).target).isEmpty)
    (l := List.range (G.len s)) ⟨0, by simpa using hl s s2, hd _ ht, nonempty_true hf ht⟩
  rw [List.mem_range] at e2
  refine ⟨s, e, ?_, s2, e2, s1, e1⟩
  unfold heavyFlowEdge
  rw [s1, Option.map_some, e1]

theorem heavy_max (hg : G.Consistent) (hf : ∀ v, v < G.n → G.cont v ≠ []) {deg : Nat → Nat} (hb : ∀ v, v < G.n → deg v < 2 ^ 32) {s e : Nat}
    (hs : s < G.n) (h1 : heaviest deg (fun n => !(G.cont n).isEmpty) (List.range G.n) = some s)
    (h2 : heaviest (fun e => deg (G.edge s e).target) (fun e => !(G.cont (G.edge s e).target).isEmpty) (List.range (G.len s)) = some e) :
    (∀ u, u < G.n → deg u ≤ deg s) ∧ ∀ a, a < G.len s → deg (G.edge s a).target ≤ deg (G.edge s e).target :=
  ⟨fun u hu => heaviest_max (fun n hn => hb n (List.mem_range.1 hn)) h1 u (List.mem_range.2 hu) (nonempty_true hf hu),
    fun a ha => heaviest_max (deg := fun e => deg (G.edge s e).target) (fun n hn => hb _ (hg.target s n hs (List.mem_range.1 hn))) h2 a
      (List.mem_range.2 ha) (nonempty_true hf (hg.target s a hs ha))⟩

theorem exists_dist {G : Graph} {s v k : Nat} (h : Walk G s v k) : ∃ d, IsDist G s v d := by
  classical
  have hex : ∃ k, Walk G s v k := ⟨k, h⟩
  exact ⟨Nat.find hex, Nat.find_spec hex, fun j hj => Nat.find_min' hex hj⟩

theorem _root_.VieCut.Walk.trans {G : Graph} {a b d i j : Nat} (h : Walk G a b i) (h' : Walk G b d j) : Walk G a d (i + j) := by
  induction h' with
  | nil => exact h
  | snoc _ h2 ih => exact Walk.snoc ih h2

theorem upLoop_spec {G : Graph} {r : BFS} (hp : ∀ v p, r.parent v = some p → v ∈ (G.edges p).map (·.1) ∧ r.dist v = r.dist p + 1)
    (hd : ∀ v, 0 < r.dist v → ∃ p, r.parent v = some p) {stop : Nat} : ∀ (d v : Nat), stop ≤ d → r.dist v = d →
    ∃ u, upLoop r stop d v = some u ∧ r.dist u = stop ∧ Walk G u v (d - stop) := by
  intro d
  induction d with
  | zero =>
    intro v h1 h2
    have : stop = 0 := by omega
    exact ⟨v, rfl, by omega, by rw [this]; exact Walk.nil⟩
  | succ d ih =>
    intro v h1 h2
    unfold upLoop
    by_cases hs : d + 1 > stop
    · obtain ⟨p, hq⟩ := hd v (by omega)
      obtain ⟨q1, q2⟩ := hp v p hq
      obtain ⟨u, u1, u2, u3⟩ := ih p (by omega) (by omega)
      refine ⟨u, ?_, u2, ?_⟩
      · rw [if_pos hs, if_neg (by simpa using h2), hq]
        exact u1
      · rw [show d + 1 - stop = d - stop + 1 by omega]
        exact Walk.snoc u3 q1
    · have : stop = d + 1 := by omega
      refine ⟨v, by rw [if_neg hs], by omega, ?_⟩
      rw [this, Nat.sub_self]
      exact Walk.nil

theorem walk_lt {G : Graph} (hG : G.WF) {u v k : Nat} (h : Walk G u v k) (hu : u < G.n) : v < G.n := by
  cases h with
  | nil => exact hu
  | snoc _ h =>
    obtain ⟨e, he, rfl⟩ := List.mem_map.1 h
    exact hG.tgt_lt _ e he

/-- What `centralFlowEdge` returns. -/
theorem centralFlowEdge_spec (hg : G.Consistent) (hl : ∀ u, u < G.n → 0 < G.len u) {rnd : Nat} (hr : rnd < G.n) :
    ∃ s e v1 v2 D, centralFlowEdge rnd G = some (s, e) ∧ s < G.n ∧ e < G.len s ∧ (∃ k, Walk G.toGraph rnd v1 k) ∧
      (∀ v k l, IsDist G.toGraph rnd v1 k → IsDist G.toGraph rnd v l → l ≤ k) ∧ IsDist G.toGraph v1 v2 D ∧
      (∀ v l, IsDist G.toGraph v1 v l → l ≤ D) ∧ IsDist G.toGraph v1 (G.edge s e).target ((D - 1) / 2) ∧ Walk G.toGraph s v2 (D / 2) ∧ 1 ≤ D ∧
      IsDist G.toGraph v1 s ((D + 1) / 2) := by
  have hw : G.toGraph.WF := (consistent_iff.1 hg).wf
  have hN := toGraph_n G
  obtain ⟨-, a1, a2, -, -, a5, a6⟩ := C34_bfs G.toGraph hw rnd (by rw [hN]; exact hr)
  set v1 := (bfsDistances G.toGraph rnd).last with hv1
  obtain ⟨k, hk⟩ := a5
  have hlt := walk_lt hw hk (by rw [hN]; exact hr)
  obtain ⟨-, b1, b2, b3, b4, b5, b6⟩ := C34_bfs G.toGraph hw v1 hlt
  have hlt' := hlt
  rw [hN] at hlt
  have dist_uniq : ∀ {s v a b : Nat}, IsDist G.toGraph s v a → IsDist G.toGraph s v b → a = b :=
    fun ha hb => le_antisymm (ha.2 _ hb.1) (hb.2 _ ha.1)
  set r := bfsDistances G.toGraph v1 with hrd
  set D := r.dist r.last with hD
  have h1 : 1 ≤ D := by
    have hn1 : Walk G.toGraph v1 (G.edge v1 0).target 1 := Walk.snoc Walk.nil (by
      rw [toGraph_edges G hlt, List.map_map]
      exact List.mem_map.2 ⟨0, by simpa using hl v1 hlt, rfl⟩)
    have h6 := b6 _ ⟨1, hn1⟩
    have hd := b2 _ ⟨1, hn1⟩
    by_contra h0
    have hz : r.dist (G.edge v1 0).target = 0 := by omega
    rw [hz] at hd
    have : (G.edge v1 0).target = v1 := by
      have := hd.1
      generalize (G.edge v1 0).target = w at this
      cases this
      rfl
    exact hg.noLoop v1 0 hlt (hl v1 hlt) this
  have hpar : ∀ v, 0 < r.dist v → ∃ p, r.parent v = some p := by
    intro v hv
    by_cases hw' : ∃ k, Walk G.toGraph v1 v k
    · rcases (b1 v).1 hw' with h | h
      · have h0 := (b2 v hw').2 0 (by rw [h]; exact Walk.nil)
        omega
      · exact h
    · have := (b4 v hw').2
      omega
  obtain ⟨u, u1, u2, u3⟩ := upLoop_spec (G := G.toGraph) (r := r) (fun v p h => ⟨(b3 v p h).1, (b3 v p h).2.2⟩) hpar (stop := (D + 1) / 2) D r.last
    (by omega) rfl
  obtain ⟨p, hp⟩ := hpar u (by omega)
  obtain ⟨p1, p2, p3⟩ := b3 u p hp
  have hpn : p < G.n := by
    have := walk_lt hw p2.1 hlt'
    rwa [hN] at this
  rw [toGraph_edges G hpn, List.map_map] at p1
  obtain ⟨a, ha, hau⟩ := List.mem_map.1 p1
  rw [List.mem_range] at ha
  have hau : (G.edge p a).target = u := hau
  have hun : u < G.n := by rw [← hau]; exact hg.target p a hpn ha
  obtain ⟨e, he⟩ : ∃ e, (List.range (G.len u)).find? (fun e => (G.edge u e).target == p) = some e := by
    rw [← Option.isSome_iff_exists, List.find?_isSome]
    refine ⟨(G.edge p a).rev, ?_, ?_⟩
    · rw [List.mem_range, ← hau]; exact hg.partner p a hpn ha
    · have := (hg.back p a hpn ha).1
      rw [hau] at this
      simpa using this
  have he1 : e < G.len u := List.mem_range.1 (List.mem_of_find?_eq_some he)
  have he2 : (G.edge u e).target = p := by simpa using List.find?_some he
  have hru : ∃ k, Walk G.toGraph v1 u k := (b1 u).2 (.inr ⟨p, hp⟩)
  refine ⟨u, e, v1, r.last, D, ?_, hun, he1, ⟨k, hk⟩, ?_, b2 _ b5, ?_, ?_, ?_, h1, ?_⟩
  · unfold centralFlowEdge
    simp only
    rw [← hv1, ← hrd, ← hD, u1, Option.bind_some, hp, Option.bind_some, he]
    rfl
  · intro v i l hi hl'
    rw [dist_uniq hi (a2 _ ⟨k, hk⟩), dist_uniq hl' (a2 v ⟨l, hl'.1⟩)]
    exact a6 v ⟨l, hl'.1⟩
  · intro v l hl'
    rw [dist_uniq hl' (b2 v ⟨l, hl'.1⟩)]
    exact b6 v ⟨l, hl'.1⟩
  · rw [he2]
    have : r.dist p = (D - 1) / 2 := by omega
    rw [← this]
    exact p2
  · rw [show D / 2 = D - (D + 1) / 2 by omega]
    exact u3
  · rw [← u2]
    exact b2 u hru

end RecCactus
end VieCut
