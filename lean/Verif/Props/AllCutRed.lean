import Verif.Proof.AllCutRed
import Verif.Proof.Check
import Verif.Model.MutableHistory

/-!
# The reductions before the recursive search for all minimum cuts (C43)

Before `recursive_cactus` looks for all minimum cuts with flows, it contracts vertices.  No minimum cut may be lost by that.  Two of the three
reductions keep this promise, the third one only keeps the minimum cuts around single vertices: `C43_loses` is a graph with a lost cut.
-/

namespace VieCut
open MGraph Finset
namespace AllRed

/-- `allCutsPrTests34` merges no two vertices that a minimum cut separates.  `c` is the value of the minimum cut; the weights are arbitrary. -/
theorem C43_prTests34 {G : Graph} (hG : G.WF) (hsim : ∀ u, u < G.n → ((G.edges u).map (·.1)).Nodup) {c : Nat} {S : Nat → Bool}
    (hmin : IsMinCut G.n G.wt c) (hS : ProperCut G.n S) (hc : cutValue G.n G.wt S = c) (u v : Nat)
    (h : (prTests34 G c).root u = (prTests34 G c).root v) : S u = S v := by
  rw [prTests34_eq] at h
  exact ((prClosed_all hG hS (fun T hT => by rw [hc]; exact hmin.2 T hT) (by omega)).prTests34 hG (Or.inl hsim)).1 u v h

/-- `allCutsPrTests12` keeps a minimum cut, or puts one of its sides into a single class; a vertex whose degree is the minimum cut is
never merged.  Missing: that every minimum cut is kept, which is false (`C43_prTests12_loses`). -/
theorem C43_prTests12_partial {G : Graph} (hG : G.WF) (hb : G.totalWeight < 2 ^ 63) {c : Nat} (hmin : IsMinCut G.n G.wt c) :
    (∀ S, ProperCut G.n S → cutValue G.n G.wt S = c →
      (∀ u v, (prTests12 G c).root u = (prTests12 G c).root v → S u = S v) ∨
      ∃ b, ∀ u v, u < G.n → v < G.n → S u = b → S v = b → (prTests12 G c).root u = (prTests12 G c).root v) ∧
    (∀ v, v < G.n → G.deg v = c → ∀ u, (prTests12 G c).root u = (prTests12 G c).root v → u = v) := by
  have hb' : ∑ u ∈ range G.n, G.deg u < 2 ^ 63 := by rw [deg_sum_eq]; exact hb
  constructor
  · intro S _ hv
    exact (prTests12_spec hG hb' (fun T hT => by rw [hv]; exact hmin.2 T hT) hv).status
  · intro v hv hd u hu
    obtain ⟨S, _, hS⟩ := hmin.1
    exact (prTests12_spec hG hb' (S := S) (fun T hT => by rw [hS]; exact hmin.2 T hT) hS).sing v hv (le_of_eq hd) u hu

/-- **C43.** The rounds of reductions yield a quotient of the graph (so every cut of the result is a cut of the graph with the same weight) that
has no parallel edges and knows where every original vertex is.  Every minimum cut of the graph is a cut of the result, or one of its sides
lies inside one vertex of the result; a vertex whose degree is the minimum cut stays alone.  Any start vertices, any priority queue, any order in
which the sets are contracted.  Missing: that every minimum cut is a cut of the result, which is false (`C43_loses`). -/
theorem C43_reduce_partial {g : MGraph} (hg : g.Consistent) (hf : g.Fresh) (hs : g.NoParallel) {c : Nat}
    (hmin : IsMinCut g.n g.toGraph.wt c) {cfg : NOICfg} (hfit : PQFits cfg.kind g.n (g.toGraph.totalWeight + 1))
    {ord : Nat → Nat → List Nat → List Nat} (ho : ∀ k, IsOrder (ord k)) :
    let R := reduce cfg ord c g
    R.Consistent ∧ R.NoParallel ∧ R.posSize = g.n ∧ IsContraction g.toGraph R.toGraph R.pos ∧
    (∀ S, ProperCut g.n S → cutValue g.n g.toGraph.wt S = c →
      (∃ X : Nat → Bool, ∀ v, v < g.n → X (R.pos v) = S v) ∨
      ∃ b, ∀ u v, u < g.n → v < g.n → S u = b → S v = b → R.pos u = R.pos v) ∧
    (∀ v, v < g.n → g.toGraph.deg v = c → ∀ u, u < g.n → R.pos u = R.pos v → u = v) := by
  intro R
  have hV := consistent_iff.1 hg
  have h0 : GOk g := by
    refine ⟨hV, hf.located, hf.hasRep, simple_of_noParallel hs, ?_⟩
    obtain ⟨S, ⟨⟨a, ha, _⟩, _⟩, _⟩ := hmin.1
    omega
  obtain ⟨φ, h⟩ := loop_inv h0 hmin hfit ho (g.n + 2) 0 (2 ^ 32 - 1) g id (RInv.refl h0 c)
  have hp : ∀ v, v < g.n → R.pos v = φ v := by
    intro v hv
    have := h.at_pos v (by rw [hf.1]; exact hv)
    rw [(hf.2 v hv).1] at this
    exact this
  refine ⟨consistent_iff.2 h.ok.valid, noParallel_of_simple h.ok.valid h.ok.simple, h.psize.trans hf.1, ?_, ?_, ?_⟩
  · exact h.con.congr (fun v hv => by rw [toGraph_n] at hv; exact hp v hv)
  · intro S hS hv
    rcases h.status S hS hv with ⟨X, hX⟩ | ⟨b, hb⟩
    · exact Or.inl ⟨X, fun v hv => by rw [hp v hv]; exact hX v hv⟩
    · exact Or.inr ⟨b, fun u v hu hv h1 h2 => by rw [hp u hu, hp v hv]; exact hb u v hu hv h1 h2⟩
  · intro v hv hd u hu he
    rw [hp u hu, hp v hv] at he
    exact h.sing v hv hd u hu he

/-- The rounds end: more than `n + 2` of them change nothing. -/
theorem C43_terminates {g : MGraph} (hg : g.Consistent) (hf : g.Fresh) (hs : g.NoParallel) {c : Nat}
    (hmin : IsMinCut g.n g.toGraph.wt c) {cfg : NOICfg} (hfit : PQFits cfg.kind g.n (g.toGraph.totalWeight + 1))
    {ord : Nat → Nat → List Nat → List Nat} (ho : ∀ k, IsOrder (ord k)) (f : Nat) (h : g.n + 2 ≤ f) :
    loop cfg ord c f 0 (2 ^ 32 - 1) g = reduce cfg ord c g := by
  have hV := consistent_iff.1 hg
  obtain ⟨S, ⟨⟨a, ha, _⟩, _⟩, hv⟩ := hmin.1
  have h0 : GOk g := ⟨hV, hf.located, hf.hasRep, simple_of_noParallel hs, by omega⟩
  refine loop_fuel_all h0 hfit ?_ ho _ _ f h
  rw [← hv, ← toGraph_n g]
  exact cutValue_le_total hV.wf S

/-! ### A lost minimum cut -/

/-- Five vertices, minimum cut 12. -/
def sample : MGraph := (MGraph.start 5).run
  [.newEdge 0 1 4, .newEdge 0 2 8, .newEdge 0 3 1, .newEdge 1 2 11, .newEdge 1 3 11, .newEdge 3 4 12]

def sampleCfg : NOICfg := { kind := .heap, limited := true, save := false, rnd := fun _ => 1 }

theorem sample_valid : Valid sample := (Valid.start 5).run _ (by decide +kernel)

theorem sample_fresh : sample.Fresh := by
  refine ⟨rfl, ?_⟩
  have : ∀ v, v < 5 → sample.pos v = v ∧ sample.cont v = [v] := by decide +kernel
  exact this

theorem sample_min : IsMinCut 5 sample.toGraph.wt 12 :=
  ⟨⟨fun u => decide (u = 4), ⟨⟨4, by decide, rfl⟩, ⟨1, by decide, rfl⟩⟩, by decide +kernel⟩, cuts_ge_of_check (by decide +kernel)⟩

/-- The hypotheses of the theorems above are met by `sample`. -/
example : sample.Consistent ∧ sample.Fresh ∧ sample.NoParallel ∧ IsMinCut sample.n sample.toGraph.wt 12 ∧
    PQFits sampleCfg.kind sample.n (sample.toGraph.totalWeight + 1) ∧ IsOrder (fun _ (l : List Nat) => l) ∧
    sample.toGraph.WF ∧ (∀ u, u < sample.toGraph.n → ((sample.toGraph.edges u).map (·.1)).Nodup) :=
  ⟨consistent_iff.2 sample_valid, sample_fresh, by decide +kernel, sample_min, ⟨by decide +kernel, trivial⟩, fun _ _ => List.Perm.refl _,
    sample_valid.wf, by decide +kernel⟩

/-- The first reduction of `sample` merges vertices of both sides of the minimum cut around 0, 1 and 2. -/
theorem C43_prTests12_loses :
    ∃ S, ProperCut sample.n S ∧ cutValue sample.n sample.toGraph.wt S = 12 ∧
      (prTests12 sample.toGraph 12).root 1 = (prTests12 sample.toGraph 12).root 3 ∧ S 1 ≠ S 3 :=
  ⟨fun u => decide (u ≤ 2), ⟨⟨0, by decide, rfl⟩, ⟨3, by decide, rfl⟩⟩, by decide +kernel, by decide +kernel, by decide⟩

/-- The promise is not kept: `sample` has a minimum cut that is no cut of the reduced graph. -/
theorem C43_loses :
    ∃ S, ProperCut sample.n S ∧ cutValue sample.n sample.toGraph.wt S = 12 ∧
      ¬ ∃ X : Nat → Bool, ∀ v, v < sample.n → X ((reduce sampleCfg (fun _ _ l => l) 12 sample).pos v) = S v := by
  refine ⟨fun u => decide (u ≤ 2), ⟨⟨0, by decide, rfl⟩, ⟨3, by decide, rfl⟩⟩, by decide +kernel, ?_⟩
  rintro ⟨X, hX⟩
  have h1 := hX 1 (by decide)
  have h3 := hX 3 (by decide)
  have e : (reduce sampleCfg (fun _ _ l => l) 12 sample).pos 1 = (reduce sampleCfg (fun _ _ l => l) 12 sample).pos 3 := by decide +kernel
  rw [e, h3] at h1
  exact absurd h1 (by decide)

end AllRed
end VieCut
