import Verif.Proof.PushRelabelCut
import Verif.Proof.NodeHeap
import Verif.Props.LocalSearch
import Verif.Props.MulticutBounds
import Verif.Props.MutableGraph

/-!
# C14: push-relabel

`solve P c trigger computeSet fuel` is `solve_max_flow_min_cut`; `none` means that the main loop ran for more than
`fuel` rounds.  `IsolatingCut n w ts r S` (Spec/Multiterminal): `S` contains `r` and no other vertex of `ts`, and no such
set is left by edges of smaller weight.
-/

namespace VieCut
open PushRelabel

/-- What the statements below require of the graph and of the terminals. -/
private theorem cfgOk {g : MGraph} (hg : g.Consistent) {ts : List Nat} (hnd : ts.Nodup) (hlt : ∀ t ∈ ts, t < g.n) {src : Nat}
    (hs : src ∈ ts) : CfgOk { g := g, ts := ts, src := src } :=
  ⟨hg, hnd, hs, hlt, fun h => by simp at h, fun h => by simp at h, fun _ _ => rfl⟩

private theorem solve_of_main {P : PQ} {c : Cfg} {trigger : Nat → Bool} {fuel : Nat} {r : PR P.σ × Bool} (hlt : ∀ t ∈ c.ts, t < c.g.n)
    (h : mainLoop P c trigger fuel (globalRelabel P c true (init P c)) = some r) (b : Bool) :
    solve P c trigger b fuel = some (if r.2 then (c.limit, [])
      else (((c.ts.filter fun t => t != c.src).map r.1.excess).sum, if b then sourceSet P c r.1 else [])) := by
  unfold solve
  rw [if_neg, h]
  · rfl
  · intro hc
    rw [List.any_eq_true] at hc
    obtain ⟨t, ht, h2⟩ := hc
    have := hlt t ht
    simp at h2
    omega

/-- Without a limit: for every graph, every list of distinct terminals, every queue that satisfies the priority queue
interface and every rule for global relabelling, the computation ends.  Its value is the weight of a minimum cut between
the source and the other terminals, and the source set is the source side of such a cut. -/
theorem C14_max_flow (g : MGraph) (hg : g.Consistent) (ts : List Nat) (hnd : ts.Nodup) (hlt : ∀ t ∈ ts, t < g.n)
    (src : Nat) (hs : src ∈ ts) (P : PQ) (K : Nat) (hL : P.Lawful g.n K) (hK : 2 * g.n ≤ K) (trigger : Nat → Bool) :
    ∃ value S N, (∀ fuel, N ≤ fuel → solve P { g := g, ts := ts, src := src } trigger true fuel = some (value, S) ∧
        solve P { g := g, ts := ts, src := src } trigger false fuel = some (value, [])) ∧
      IsolatingCut g.n g.toGraph.wt ts src (fun v => S.contains v) ∧
      value = cutValue g.n g.toGraph.wt (fun v => S.contains v) ∧ S.Nodup ∧ (∀ v ∈ S, v < g.n) ∧
      ∀ v ∈ S, v = src ∨ 0 < g.len v := by
  have hc := cfgOk hg hnd hlt hs
  have hK' : ∀ d, d ≤ 2 * g.n → qkey false d ≤ K := fun d hd => by unfold qkey; simp; omega
  have h0 := start_inv hc hL hK'
  obtain ⟨N, r, hr⟩ := mainLoop_terminates hc hK' trigger _ h0
  have hf := mainLoop_final hc hK' trigger N _ r h0 hr
  obtain ⟨s, b⟩ := r
  cases b with
  | true => have := (hf.limit rfl).1; simp at this
  | false =>
    obtain ⟨c1, c2, c3, c4, c5⟩ := final_cut hc hf
    refine ⟨_, _, N, fun fuel hfu => ?_, c1, c2, c4, c3, c5⟩
    have h1 := mainLoop_mono trigger N _ _ hr fuel hfu
    exact ⟨solve_of_main hlt h1 true, solve_of_main hlt h1 false⟩

/-- With a limit (`push_relabel<true, …>`): the computation ends, and either the value is the limit, no source set is
given and no separating cut is lighter than the limit, or the result is as without a limit. -/
theorem C14_limited (g : MGraph) (hg : g.Consistent) (ts : List Nat) (hnd : ts.Nodup) (hlt : ∀ t ∈ ts, t < g.n)
    (src : Nat) (hs : src ∈ ts) (sink : Nat) (hk : sink ∈ ts) (hne : sink ≠ src) (depth : Nat) (hd : depth ≤ g.n) (limit : Int)
    (P : PQ) (K : Nat) (hL : P.Lawful g.n K) (hK : 4294967296 ≤ K) (trigger : Nat → Bool) :
    ∃ value S N, (∀ fuel, N ≤ fuel →
        solve P { g := g, ts := ts, src := src, limited := true, depth := depth, sink := sink, limit := limit } trigger true fuel = some (value, S)) ∧
      ((value = limit ∧ S = [] ∧ ∀ S' : Nat → Bool, S' src = true → (∀ t ∈ ts, t ≠ src → S' t = false) →
          limit ≤ cutValue g.n g.toGraph.wt S') ∨
        (IsolatingCut g.n g.toGraph.wt ts src (fun v => S.contains v) ∧
          value = cutValue g.n g.toGraph.wt (fun v => S.contains v) ∧ S.Nodup ∧ ∀ v ∈ S, v < g.n)) := by
  have hc : CfgOk { g := g, ts := ts, src := src, limited := true, depth := depth, sink := sink, limit := limit } :=
    ⟨hg, hnd, hs, hlt, fun _ => ⟨hk, hne⟩, fun _ => hd, fun _ _ => rfl⟩
  have hK' : ∀ d, d ≤ 2 * g.n → qkey true d ≤ K := fun d hd => by unfold qkey; simp; omega
  have h0 := start_inv hc hL hK'
  obtain ⟨N, r, hr⟩ := mainLoop_terminates hc hK' trigger _ h0
  have hf := mainLoop_final hc hK' trigger N _ r h0 hr
  obtain ⟨s, b⟩ := r
  have hsolve := fun fuel hfu => solve_of_main hlt (mainLoop_mono trigger N _ _ hr fuel hfu) true
  cases b with
  | true => exact ⟨_, _, N, hsolve, Or.inl ⟨rfl, rfl, fun S' h1 h2 => final_limit hc hf h1 h2⟩⟩
  | false =>
    obtain ⟨c1, c2, c3, c4, -⟩ := final_cut hc hf
    exact ⟨_, _, N, hsolve, Or.inr ⟨c1, c2, c4, c3⟩⟩

/-- A terminal that is not a vertex is reported, for every graph. -/
theorem C14_bad_terminal (c : Cfg) (t : Nat) (ht : t ∈ c.ts) (hn : c.g.n ≤ t) (P : PQ) (trigger : Nat → Bool) (b : Bool) (fuel : Nat) :
    solve P c trigger b fuel = some (-1, []) := by
  unfold solve
  rw [if_pos]
  rw [List.any_eq_true]
  exact ⟨t, ht, by simpa using hn⟩

/-- Two triangles of heavy edges, connected by two light edges. -/
def flowSample : MGraph := (MGraph.start 6).run [.newEdge 0 1 3, .newEdge 1 2 3, .newEdge 0 2 3, .newEdge 3 4 3,
  .newEdge 4 5 3, .newEdge 3 5 3, .newEdge 2 3 1, .newEdge 1 4 1]

private theorem flowSample_consistent : flowSample.Consistent :=
  C07_consistent 6 _ (by decide +kernel)

/-- The queue of the code is lawful for all sizes and keys, and on the sample the value is 2 and one triangle is
returned. -/
example : flowSample.Consistent ∧ [0, 5].Nodup ∧ (∀ t ∈ [0, 5], t < flowSample.n) ∧ Nonempty (NH.cls.toPQ.Lawful flowSample.n 4294967296) ∧
    solve NH.cls.toPQ { g := flowSample, ts := [0, 5], src := 0 } (fun w => decide (w ≥ 5)) true 20 = some (2, [0, 1, 2]) :=
  ⟨flowSample_consistent, by decide, by decide +kernel, ⟨(NH.sim _ _).lawful⟩, by decide +kernel⟩

/-- Limits of 2 and 3: the first is reached, the second is not. -/
example :
    solve NH.cls.toPQ { g := flowSample, ts := [0, 5], src := 0, limited := true, sink := 5, limit := 2 } (fun w => decide (w ≥ 50))
      true 20 = some (2, []) ∧
    solve NH.cls.toPQ { g := flowSample, ts := [0, 5], src := 0, limited := true, sink := 5, limit := 3 } (fun w => decide (w ≥ 50))
      true 20 = some (2, [0, 1, 2]) :=
  ⟨by decide +kernel, by decide +kernel⟩

/-- The hypothesis that no flow is stored under the problem id is needed: on a single edge of weight 1, a second run with the
problem id of the first (whose flow of 1 is still stored) returns 0 instead of 1. -/
theorem C14_repeated_problem_id :
    let g := (MGraph.start 2).run [.newEdge 0 1 1]
    let first : Cfg := { g := g, ts := [0, 1], src := 0 }
    let s := globalRelabel NH.cls.toPQ first true (init NH.cls.toPQ first)
    g.Consistent ∧ solve NH.cls.toPQ first (fun _ => false) true 5 = some (1, [0]) ∧
    (mainLoop NH.cls.toPQ first (fun _ => false) 5 s).map (fun r => (r.1.flow 0 0, r.1.flow 1 0)) = some (1, -1) ∧
    solve NH.cls.toPQ { first with flow0 := fun u _ => if u = 0 then 1 else -1 } (fun _ => false) true 5 = some (0, [0]) ∧
    cutValue g.n g.toGraph.wt (fun v => [0].contains v) = 1 :=
  ⟨C07_consistent 2 _ (by decide +kernel), by decide +kernel, by decide +kernel, by decide +kernel, by decide +kernel⟩

/-! ## Composition with the callers -/

/-- The flow routine of the local search, `solve_max_flow_min_cut(G, {0, 1}, 0, true)` (local_search.h:118-121). -/
def localFlow (trigger : MGraph → Nat → Bool) (fuel : MGraph → Nat) (g : MGraph) : Nat × List Nat :=
  match solve NH.cls.toPQ { g := g, ts := [0, 1], src := 0 } (trigger g) true (fuel g) with
  | some r => (r.1.toNat, r.2)
  | none => (0, [])

/-- The flow routine called by the local search satisfies the specification that `C25_flow_exact` and
`C25_improve_exact` require. -/
theorem C14_local_search (trigger : MGraph → Nat → Bool) :
    ∃ N : MGraph → Nat, ∀ fuel : MGraph → Nat, (∀ g, N g ≤ fuel g) → LocalSearch.FlowSpec (localFlow trigger fuel) := by
  have h : ∀ g : MGraph, ∃ N, g.Consistent → 2 ≤ g.n → ∃ value S,
      (∀ fuel, N ≤ fuel → solve NH.cls.toPQ { g := g, ts := [0, 1], src := 0 } (trigger g) true fuel = some (value, S)) ∧
      IsolatingCut g.n g.toGraph.wt [0, 1] 0 (fun v => S.contains v) ∧
      value = cutValue g.n g.toGraph.wt (fun v => S.contains v) := by
    intro g
    by_cases hg : g.Consistent ∧ 2 ≤ g.n
    · obtain ⟨value, S, N, h1, h2, h3, -⟩ := C14_max_flow g hg.1 [0, 1] (by decide)
        (by intro t ht; simp at ht; have := hg.2; omega) 0 (by simp) NH.cls.toPQ (2 * g.n) (NH.sim _ _).lawful (Nat.le_refl _)
        (trigger g)
      exact ⟨N, fun _ _ => ⟨value, S, fun fuel hf => (h1 fuel hf).1, h2, h3⟩⟩
    · exact ⟨0, fun h1 h2 => absurd ⟨h1, h2⟩ hg⟩
  choose N hN using h
  refine ⟨N, fun fuel hf g hg hn => ?_⟩
  obtain ⟨value, S, h1, h2, h3⟩ := hN g hg hn
  have := h1 _ (hf g)
  unfold localFlow
  rw [this]
  exact ⟨h2, by show value.toNat = _; rw [h3]; simp⟩

namespace Problem
open MGraph

/-- A minimum cut against the terminals with edges is one against all terminals: vertices without edges are not in the
source set. -/
private theorem extend_cut {ots : List Nat} {p : Problem} (h : Ok ots p) {t : Terminal}
    (ht : t ∈ (p.setTerminals ots).terminals) {S : List Nat}
    (hc : IsolatingCut p.graph.n p.graph.toGraph.wt (p.setTerminals ots).tpos t.position (fun v => S.contains v))
    (hS : ∀ v ∈ S, v = t.position ∨ 0 < p.graph.len v) :
    IsolatingCut p.graph.n p.graph.toGraph.wt (p.spots ots) t.position (fun x => decide (x ∈ S)) := by
  have e : (fun v => S.contains v) = fun x => decide (x ∈ S) := by
    funext v; by_cases hv : v ∈ S <;> simp [hv]
  rw [e] at hc
  refine ⟨hc.source, fun v hv hne => ?_, fun S' h1 h2 => hc.min S' h1 fun v hv hne => ?_⟩
  · by_contra hm
    have hm : v ∈ S := by simpa using hm
    have hlen := (hS v hm).resolve_left hne
    have : v ∈ (p.setTerminals ots).tpos := mem_tpos_setTerminals.2 ⟨hv, hlen, h.spot_lt _ hv⟩
    have := hc.sinks v this hne
    simp at this
    exact this hm
  · exact h2 v (mem_tpos_setTerminals.1 hv).1 hne

/-- Push-relabel called for the terminal at position `t` as in `maximumIsolatingFlow` and `maximumSTFlow`: it ends, and
the source set is a block as required by `C23_isolating_bounds` and `C23_two_terminals`. -/
theorem C14_isolating_block (ots : List Nat) (p : Problem) (h : Ok ots p) (trigger : Nat → Bool) (t : Terminal)
    (ht : t ∈ (p.setTerminals ots).terminals) :
    ∃ value block N, (∀ fuel, N ≤ fuel →
        solve NH.cls.toPQ { g := p.graph, ts := (p.setTerminals ots).tpos, src := t.position } trigger true fuel =
          some (value, block)) ∧
      block.Nodup ∧ (∀ x ∈ block, x < p.graph.n) ∧
      IsolatingCut p.graph.n p.graph.toGraph.wt (p.spots ots) t.position (fun x => decide (x ∈ block)) ∧
      value = cutValue p.graph.n p.graph.toGraph.wt (fun x => decide (x ∈ block)) := by
  obtain ⟨value, S, N, h1, h2, h3, h4, h5, h6⟩ := C14_max_flow p.graph h.consistent (p.setTerminals ots).tpos
    (setTerminals_pos_nodup h) (fun v hv => (mem_tpos_setTerminals.1 hv).2.2) t.position (List.mem_map_of_mem ht)
    NH.cls.toPQ (2 * p.graph.n) (NH.sim _ _).lawful (Nat.le_refl _) trigger
  refine ⟨value, S, N, fun fuel hf => (h1 fuel hf).1, h4, h5, extend_cut h ht h2 h6, ?_⟩
  rw [h3]
  congr 2
  funext v; by_cases hv : v ∈ S <;> simp [hv]

/-- The bounds computed with push-relabel: with the blocks that the flow algorithm returns, and no block taken from an
earlier round, the optimum lies between the bounds and is unchanged by the contraction. -/
theorem C23_push_relabel (ots : List Nat) (p : Problem) (h : Ok ots p) (ord : Nat → List Nat → List Nat)
    (ho : IsOrder ord) (trigger : Nat → Bool)
    (hinv : ∀ t ∈ (p.setTerminals ots).terminals, t.invalid = true) :
    ∃ flow : Nat → List Nat,
      (∀ (i : Nat) (t : Terminal), (p.setTerminals ots).terminals[i]? = some t → ∃ N, ∀ fuel, N ≤ fuel →
        (solve NH.cls.toPQ { g := p.graph, ts := (p.setTerminals ots).tpos, src := t.position } trigger true fuel).map Prod.snd =
          some (flow i)) ∧
      (∀ c, Optimum ots p c ↔ Optimum ots (p.maximumIsolatingFlow ots ord flow) c) ∧
      ∀ c, Optimum ots p c → (p.maximumIsolatingFlow ots ord flow).lower ≤ c ∧
        (c : Int) ≤ (p.maximumIsolatingFlow ots ord flow).upper := by
  have hex : ∀ i : Nat, ∃ block : List Nat, ∀ t : Terminal, (p.setTerminals ots).terminals[i]? = some t →
      (∃ N, ∀ fuel, N ≤ fuel →
        (solve NH.cls.toPQ { g := p.graph, ts := (p.setTerminals ots).tpos, src := t.position } trigger true fuel).map Prod.snd =
          some block) ∧ block.Nodup ∧ (∀ x ∈ block, x < p.graph.n) ∧
      IsolatingCut p.graph.n p.graph.toGraph.wt (p.spots ots) t.position (fun x => decide (x ∈ block)) := by
    intro i
    cases hi : (p.setTerminals ots).terminals[i]? with
    | none => exact ⟨[], fun t ht => by simp at ht⟩
    | some t =>
      obtain ⟨value, block, N, h1, h2, h3, h4, -⟩ := C14_isolating_block ots p h trigger t (List.mem_of_getElem? hi)
      refine ⟨block, fun t' ht' => ?_⟩
      cases ht'
      exact ⟨⟨N, fun fuel hf => by rw [h1 fuel hf]; rfl⟩, h2, h3, h4⟩
  choose flow hflow using hex
  refine ⟨flow, fun i t ht => (hflow i t ht).1, ?_⟩
  obtain ⟨-, h2, h3, -⟩ := C23_isolating_bounds ots p h ord ho flow (fun i t ht => by
    rw [hinv t (List.mem_of_getElem? ht)]
    exact (hflow i t ht).2)
  exact ⟨h2, h3⟩

/-- The sample problem meets the hypotheses. -/
example : Ok [0, 3, 6] sampleProblem ∧
    (∀ t ∈ (sampleProblem.setTerminals [0, 3, 6]).terminals, t.invalid = true) :=
  ⟨sampleProblem_ok, by decide +kernel⟩

end Problem
end VieCut
