import Verif.Proof.RecLeaf
import Verif.Proof.STCycles
import Verif.Props.HeavyEdges

/-!
# C57: the recursion
-/

namespace VieCut
namespace RecCactus
open MGraph GraphModification Function HeavyEdges

/-- The ghosts `okRed` and `okST` mean what they should: the reductions keep the minimum cuts, and a vertex that has a position in the
argument of `findSTCactus` is in the list of this position. -/
structure Steps (V : Env) (c : Nat) : Prop where
  red : ∀ (E : Nat → Prop) (G : MGraph), Piece E G c → V.okRed G = true → Piece E (V.red G) c ∧ ∀ f, Split (V.red G) E c f ↔ Split G E c f
  st : ∀ G : MGraph, V.okST G = true → STCactus.Listed G

/-- The parameters of a run are possible: iteration orders are rearrangements, the chosen edge exists, the queue is a queue. -/
structure EnvOk (V : Env) (c : Nat) : Prop where
  ordM : ∀ l, (V.ordM l).Perm l
  ord : IsOrder V.ord
  ordC : ∀ l, (V.ordC l).Perm l
  pick : ∀ (E : Nat → Prop) (G : MGraph), Piece E G c → G.n ≠ 1 → G.numEdges ≠ 0 → (V.pick G).1 < G.n ∧ (V.pick G).2 < G.len (V.pick G).1
  queue : ∀ n, ∃ K, 2 * n ≤ K ∧ Nonempty (V.P.Lawful n K)

theorem recursive_sound {V : Env} {c : Nat} (hc : 0 < c) (hV : EnvOk V c) {inner : MGraph → Option MGraph} (h : Sound c inner) :
    Sound c (recursive V c inner) := by
  intro E G R hp hR
  unfold recursive at hR
  dsimp only at hR
  obtain ⟨C, h1, hR⟩ := Option.bind_eq_some_iff.1 hR
  obtain ⟨D, h2, rfl⟩ := Option.map_eq_some_iff.1 hR
  obtain ⟨E1, _, e1, b1⟩ := C52_heavy_edges_and_leaves hp hc V.ordM hV.ordM V.ord hV.ord
  obtain ⟨E2, _, e2, b2⟩ := C53_cycles_partial e1 hc
  exact b1 _ (b2 _ _ (h E2 _ _ e2 h1) h2)

theorem one_vertex {E : Nat → Prop} {G : MGraph} {c : Nat} (hp : Piece E G c) (h : G.n = 1) : CactusOf E (Split G E c) G c := by
  refine hp.cactus (fun u b hu hb => ?_) fun x y hx hy hxy => by omega
  obtain ⟨_, ⟨k1, _⟩, _, _, _, k6⟩ := hp.valid.pv u b ⟨hu, by simp, hb⟩
  omega

theorem no_edges {E : Nat → Prop} {G : MGraph} {c : Nat} (hc : 0 < c) (hp : Piece E G c) (h : G.numEdges = 0) : CactusOf E (Split G E c) G c := by
  have hlen : ∀ u, u < G.n → G.len u = 0 := by
    intro u hu
    have := hp.valid.num
    rw [h] at this
    exact Finset.sum_eq_zero_iff.1 this.symm u (by simp [hu])
  refine hp.cactus (fun u b hu hb => by have := hlen u hu; omega) fun x y hx hy hxy => ?_
  exfalso
  have := hp.least (fun z => z == x) ⟨⟨x, hx, by simp⟩, ⟨y, hy, by simp [Ne.symm hxy]⟩⟩
  have h2 := cv_vertex hp hx
  have h3 := hp.valid.wdeg x hx (by simp)
  unfold rowSum at h3
  rw [hlen x hx, Finset.sum_range_zero] at h3
  unfold cv at h2
  omega

theorem two_vertices {E : Nat → Prop} {G : MGraph} {c s t k : Nat} {lab : Nat → Nat} (hp : Piece E G c) (h : G.n = 2)
    (H : STClasses G lab k s t c) : CactusOf E (Split G E c) G c := by
  have hst : lab s ≠ lab t := by have := H.first; have := H.last; have := H.two; omega
  have hpre := H.pre 1 (by omega) (by have := H.two; omega)
  have hne : s ≠ t := fun h => hst (by rw [h])
  have hs := H.src
  have ht := H.sink
  have hX : G.cv (fun x => x == s) = c := by
    rw [← hpre]
    refine cutValue_congr fun u hu => ?_
    by_cases hu' : u = s
    · subst hu'
      have := H.first
      simp; omega
    · have hut : u = t := by omega
      have h1 : ¬ lab t < 1 := by have := H.last; have := H.two; omega
      rw [hut]
      simp [h1, hne.symm]
  have hsymm : ∀ u v, G.toGraph.wt u v = G.toGraph.wt v u := fun u v => hp.valid.wf.wt_symm u v
  have hY : G.cv (fun x => x == t) = c := by
    rw [← hX]
    unfold cv
    rw [← cutValue_compl (n := G.n) hsymm (fun x => x == s)]
    refine cutValue_congr fun u hu => ?_
    by_cases hu' : u = s
    · subst hu'
      simp [hne]
    · have : u = t := by omega
      subst this
      simp [hu']
  have hall : ∀ x, x < G.n → G.cv (fun y => y == x) = c := by
    intro x hx
    by_cases hx' : x = s
    · rw [hx']; exact hX
    · rw [show x = t by omega]; exact hY
  refine hp.cactus (fun u b hu hb => .inl ?_) fun x y hx hy hxy => ⟨fun z => z == x, by simp, by simp [Ne.symm hxy], hall x hx⟩
  have hw := cv_vertex hp hu
  rw [hall u hu, hp.valid.wdeg u hu (by simp)] at hw
  obtain ⟨_, ⟨k1, _⟩, _, _, _, k6⟩ := hp.valid.pv u b ⟨hu, by simp, hb⟩
  have hlen : G.len u ≤ 1 := by
    by_contra hgt
    have hall : ∀ b, b < G.len u → (G.edge u b).target = 1 - u := by
      intro b hb
      obtain ⟨_, ⟨k1, _⟩, _, _, _, k6⟩ := hp.valid.pv u b ⟨hu, by simp, hb⟩
      omega
    have := cnt_le_one (hp.simp0 u (1 - u) hu (by simp) (by omega) (by simp)) (b := 0) (b' := 1) (by omega) (by omega)
      (hall 0 (by omega)) (hall 1 (by omega))
    omega
  have hl : G.len u = 1 := by omega
  unfold rowSum at hw
  rw [hl, Finset.sum_range_one] at hw
  rw [show b = 0 by omega]
  exact hw.symm

theorem internal_sound {V : Env} {c : Nat} (hc : 0 < c) (hK : 2 * (c + 1) < 2 ^ 32) (hV : EnvOk V c) (hS : Steps V c) : ∀ fuel depth, Sound c (internal V c fuel depth) := by
  intro fuel
  induction fuel with
  | zero => intro depth E H R _ h; simp [internal] at h
  | succ fuel ih =>
    intro depth E G0 R hp0 hR
    unfold internal at hR
    dsimp only at hR
    split at hR
    · simp at hR
    rename_i hred
    obtain ⟨hp, hsp⟩ : Piece E (if depth % 10 = 0 then V.red G0 else G0) c ∧
        ∀ f, Split (if depth % 10 = 0 then V.red G0 else G0) E c f ↔ Split G0 E c f := by
      by_cases hd : depth % 10 = 0
      · rw [if_pos hd]
        exact hS.red E G0 hp0 (by simpa [hd] using hred)
      · rw [if_neg hd]
        exact ⟨hp0, fun _ => Iff.rfl⟩
    set G := if depth % 10 = 0 then V.red G0 else G0 with hG
    suffices h : CactusOf E (Split G E c) R c from h.congr hsp
    split at hR
    · rename_i h
      rw [← Option.some.inj hR]
      exact h.elim (one_vertex hp) (no_edges hc hp)
    rename_i hmore
    rw [not_or] at hmore
    have hrc : Sound c (recursive V c (internal V c fuel (depth + 1))) := recursive_sound hc hV (ih (depth + 1))
    obtain ⟨q, hq, hR⟩ := Option.bind_eq_some_iff.1 hR
    obtain ⟨hs, he⟩ := hV.pick E G hp hmore.1 hmore.2
    set s := (V.pick G).1 with hsd
    set e := (V.pick G).2 with hed
    obtain ⟨_, ⟨ht, _⟩, _, _, _, hts⟩ := hp.valid.pv s e ⟨hs, by simp, he⟩
    obtain ⟨K, hKq, ⟨hL⟩⟩ := hV.queue G.n
    obtain ⟨f1, f2⟩ := flowClasses_spec hp hc hL hKq hs ht hts.symm hq
    split at hR
    · rename_i hgt
      obtain ⟨⟨φ, hC⟩, hsim, _⟩ := contractEdge_spec hp.valid hp.simp0 hs he
      obtain ⟨c1, c2, _⟩ := hp.contract hC hsim (fun X _ hX u v _ _ hu hv => by
        have := f1 hgt X hX
        simp only [List.mem_cons, List.not_mem_nil, or_false] at hu hv
        rcases hu with rfl | rfl <;> rcases hv with rfl | rfl
        · rfl
        · exact this
        · exact this.symm
        · rfl)
      exact (hrc E _ _ c1 hR).congr c2
    rename_i hle
    obtain ⟨H, hsize⟩ := f2 hle
    split at hR
    · rename_i h2
      rw [← Option.some.inj hR]
      exact two_vertices hp h2 H
    split at hR
    · rename_i h2
      rw [h2.1] at H
      exact leafCase_spec hc hp hrc hs he H h2.2 hR
    split at hR
    · simp at hR
    rename_i hok
    obtain ⟨ST, hst, hR⟩ := Option.bind_eq_some_iff.1 hR
    obtain ⟨ST', hst', s1, hsz⟩ := STCactus.findSTCactus_cycles hp hc hK (hS.st G (by simpa using hok)) H (by
      rw [edge_weight_W hp.simp0 hp.valid hs he]; exact hp.positive s e hs he)
    have hSS : ST' = ST := Option.some.inj (hst'.symm.trans hst)
    rw [hSS] at s1 hsz
    have s2 : Tidy ST := fun p p1 p2 => by omega
    have hperm := List.filter_append_perm (fun c => decide (2 * q.2.2.2.getD c 0 ≤ G.n)) (List.range q.2.2.1)
    have hfun : (fun c => decide (¬ 2 * q.2.2.2.getD c 0 ≤ G.n)) = fun c => !decide (2 * q.2.2.2.getD c 0 ≤ G.n) := by
      funext i
      by_cases h : 2 * q.2.2.2.getD i 0 ≤ G.n <;> simp only [h, not_true_eq_false, not_false_eq_true, decide_true, decide_false, Bool.not_true, Bool.not_false]
    rw [hfun] at hR
    obtain ⟨r1, _⟩ := mergeComponents_spec hc hp hV.ordC hrc H hsize _ [] ST R (fun i hi => by
      have := hperm.mem_iff.1 hi; simpa using this) (hperm.nodup_iff.2 List.nodup_range) (by simp) (s1.congr fun f => by simp) s2 hR
    refine r1.congr fun f => ?_
    rw [H.splits hp]
    constructor
    · rintro (h | ⟨i, h, h'⟩)
      · exact .inl h
      · refine .inr ⟨i, ?_, h'⟩
        rcases h with h | h
        · simp at h
        · simpa using hperm.mem_iff.1 h
    · rintro (h | ⟨i, h, h'⟩)
      · exact .inl h
      · exact .inr ⟨i, .inr (hperm.mem_iff.2 (by simpa using h)), h'⟩

end RecCactus
end VieCut
