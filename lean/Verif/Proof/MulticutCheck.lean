import Verif.Proof.Twins
import Verif.Proof.Check

namespace VieCut

/-- All label lists of length `n` in which every entry is at most its index. -/
def labelLists : Nat → List (List Nat)
  | 0 => [[]]
  | n + 1 => (labelLists n).flatMap fun l => (List.range (n + 1)).map fun a => l ++ [a]

theorem mem_labelLists {l : List Nat} (h : ∀ i (hi : i < l.length), l[i] ≤ i) : l ∈ labelLists l.length := by
  induction l using List.reverseRecOn with
  | nil => simp [labelLists]
  | append_singleton l a ih =>
    rw [List.length_append, List.length_singleton]
    simp only [labelLists, List.mem_flatMap, List.mem_map, List.mem_range]
    refine ⟨l, ih fun i hi => ?_, a, ?_, rfl⟩
    · have := h i (by simp; omega)
      rwa [List.getElem_append_left hi] at this
    · have := h l.length (by simp)
      simp at this
      omega

/-- Every labelling looks like one of the label lists. -/
theorem exists_labelList (n : Nat) (f : Nat → Nat) :
    ∃ l ∈ labelLists n, ∀ u v, u < n → v < n → (l.getD u 0 = l.getD v 0 ↔ f u = f v) := by
  classical
  have hex : ∀ v, ∃ u, f u = f v := fun v => ⟨v, rfl⟩
  let g : Nat → Nat := fun v => Nat.find (hex v)
  have hg : ∀ v, g v ≤ v := fun v => Nat.find_min' (hex v) rfl
  have hgf : ∀ v, f (g v) = f v := fun v => Nat.find_spec (hex v)
  have hiff : ∀ u v, g u = g v ↔ f u = f v := by
    intro u v
    constructor
    · intro h; rw [← hgf u, ← hgf v, h]
    · intro h
      refine Nat.le_antisymm (Nat.find_min' _ ?_) (Nat.find_min' _ ?_)
      · rw [hgf v, h]
      · rw [hgf u, h]
  have hget : ∀ u, u < n → ((List.range n).map g).getD u 0 = g u := by
    intro u hu
    rw [List.getD_eq_getElem?_getD, List.getElem?_eq_getElem (by simpa using hu)]
    simp
  refine ⟨(List.range n).map g, ?_, ?_⟩
  · have := mem_labelLists (l := (List.range n).map g) (fun i hi => by simpa using hg i)
    simpa using this
  · intro u v hu hv
    rw [hget u hu, hget v hv]
    exact hiff u v

/-- Lower bound on all multiterminal cuts by enumeration. -/
theorem multicuts_ge_of_check {n : Nat} {w : Nat → Nat → Nat} {ts : List Nat} (ht : ∀ t ∈ ts, t < n) {c : Nat}
    (h : ∀ l ∈ labelLists n, (∀ s ∈ ts, ∀ t ∈ ts, s ≠ t → l.getD s 0 ≠ l.getD t 0) →
      c ≤ multicutValue n w (fun u => l.getD u 0)) : ∀ f, Separates ts f → c ≤ multicutValue n w f := by
  intro f hf
  obtain ⟨l, hl, he⟩ := exists_labelList n f
  have := h l hl (fun s hs t ht' hne heq => hf s hs t ht' hne ((he s t (ht s hs) (ht t ht')).1 heq))
  rwa [multicut_congr (g := f) (fun u v hu hv => he u v hu hv)] at this

theorem isMinMulticut_exists (n : Nat) (w : Nat → Nat → Nat) (ts : List Nat) : ∃ c, IsMinMulticut n w ts c := by
  classical
  have hex : ∃ c, ∃ f, Separates ts f ∧ multicutValue n w f = c := ⟨_, fun x => x, fun s _ t _ h => h, rfl⟩
  refine ⟨Nat.find hex, Nat.find_spec hex, fun f hf => Nat.find_min' hex ⟨f, hf, rfl⟩⟩

theorem isolatingCut_of_check {n : Nat} {w : Nat → Nat → Nat} {ts : List Nat} {r : Nat} {S : Nat → Bool} (hr : r < n)
    (ht : ∀ t ∈ ts, t < n) (h1 : S r = true) (h2 : ∀ t ∈ ts, t ≠ r → S t = false)
    (h : ∀ l ∈ boolLists n, l.getD r false = true → (∀ t ∈ ts, t ≠ r → l.getD t false = false) →
      cutValue n w S ≤ cutValue n w (fun u => l.getD u false)) : IsolatingCut n w ts r S := by
  refine ⟨h1, h2, fun S' hr' hs' => ?_⟩
  have hl : ∀ u, u < n → ((List.range n).map S').getD u false = S' u := by
    intro u hu
    rw [List.getD_eq_getElem?_getD, List.getElem?_eq_getElem (by simpa using hu)]
    simp
  have hm : (List.range n).map S' ∈ boolLists n := by
    have := mem_boolLists ((List.range n).map S')
    simpa using this
  have := h _ hm (by rw [hl r hr]; exact hr') (fun t ht' hne => by rw [hl t (ht t ht')]; exact hs' t ht' hne)
  rwa [cutValue_congr (fun u hu => hl u hu)] at this

namespace Problem
open MGraph

theorem optimum_exists (ots : List Nat) (p : Problem) : ∃ c, Optimum ots p c := by
  obtain ⟨d, hd⟩ := isMinMulticut_exists p.graph.n p.graph.toGraph.wt (p.spots ots)
  exact ⟨_, d, hd, rfl⟩

theorem optimum_le {ots : List Nat} {p : Problem} {c : Nat} (h : Optimum ots p c) {f : Nat → Nat}
    (hf : Separates (p.spots ots) f) : c ≤ p.deleted + multicutValue p.graph.n p.graph.toGraph.wt f := by
  obtain ⟨d, hd, rfl⟩ := h
  have := hd.2 f hf
  omega

theorem le_optimum {ots : List Nat} {p : Problem} {c k : Nat} (h : Optimum ots p c)
    (hk : ∀ f, Separates (p.spots ots) f → k ≤ p.deleted + multicutValue p.graph.n p.graph.toGraph.wt f) : k ≤ c := by
  obtain ⟨d, ⟨⟨f, hf, rfl⟩, _⟩, rfl⟩ := h
  exact hk f hf

/-- `Ok` for concrete problems. -/
theorem ok_of_check {ots : List Nat} {p : Problem}
    (h1 : ∀ u < p.graph.n, (∀ e < p.graph.len u, (p.graph.edge u e).target < p.graph.n ∧ (p.graph.edge u e).target ≠ u ∧
      (p.graph.edge u e).rev < p.graph.len (p.graph.edge u e).target ∧
      (p.graph.edge (p.graph.edge u e).target (p.graph.edge u e).rev).target = u ∧
      (p.graph.edge (p.graph.edge u e).target (p.graph.edge u e).rev).rev = e ∧
      (p.graph.edge (p.graph.edge u e).target (p.graph.edge u e).rev).weight = (p.graph.edge u e).weight ∧
      ∀ e' < p.graph.len u, (p.graph.edge u e).target = (p.graph.edge u e').target → e = e') ∧
      p.graph.wdeg u = ((List.range (p.graph.len u)).map fun e => (p.graph.edge u e).weight).sum ∧
      p.graph.cont u ≠ [] ∧ (p.graph.cont u).Nodup ∧ ∀ v ∈ p.graph.cont u, v < p.graph.posSize)
    (h2 : p.graph.numEdges = ((List.range p.graph.n).map p.graph.len).sum)
    (h3 : ∀ v < p.graph.posSize, p.graph.pos v < p.graph.n ∧ (p.graph.cont (p.graph.pos v)).count v = 1 ∧
      ∀ q < p.graph.n, q ≠ p.graph.pos v → v ∉ p.graph.cont q)
    (h4 : ∀ o ∈ ots, p.mapped o < p.graph.posSize) (h5 : (p.spots ots).Nodup) : Ok ots p :=
  ⟨⟨fun u e hu he => ((h1 u hu).1 e he).1, fun u e hu he => ((h1 u hu).1 e he).2.1,
      fun u e hu he => ((h1 u hu).1 e he).2.2.1,
      fun u e hu he => ⟨((h1 u hu).1 e he).2.2.2.1, ((h1 u hu).1 e he).2.2.2.2.1⟩,
      fun u e hu he => ((h1 u hu).1 e he).2.2.2.2.2.1, fun u hu => (h1 u hu).2.1, h2⟩,
    fun u hu e he e' he' => ((h1 u hu).1 e he).2.2.2.2.2.2 e' he',
    h3, fun q hq => (h1 q hq).2.2, h4, h5⟩

/-- A problem built by `new_edge` calls (used in examples). -/
def sample (n : Nat) (es : List (Nat × Nat × Nat)) : Problem :=
  { graph := es.foldl (fun g e => g.newEdge e.1 e.2.1 e.2.2) (MGraph.start n)
    terminals := []
    mapped := id
    lower := 0
    upper := 0
    deleted := 0
    prio := none }

end Problem
end VieCut
