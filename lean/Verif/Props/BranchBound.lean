import Verif.Proof.BranchBound
import Verif.Proof.MulticutCheck

/-!
# C41: the branch and bound of the multiterminal cut
-/

namespace VieCut
open Function

namespace BB
open Problem MGraph

section
variable (g : MGraph) (ots : List Nat) (fixed : Nat → Bool)

/-- Whatever happens in a run (any order of the problems, any interleaving of the threads), the recorded solution puts
every vertex into the block of exactly one terminal, and its weight, which is what is returned, is never below the
minimum multiterminal cut. -/
theorem C41_recorded_solution (hg : Consistent g) (hs : g.NoParallel) (hn : ots.Nodup) (hlt : ∀ o ∈ ots, o < g.n)
    (h0 : ots ≠ []) (hfix : ∀ o ∈ ots, fixed o = true) (s0 s : State)
    (hi : Init ⟨g.toGraph, ots, fixed, true⟩ (firstProblem g ots) s0)
    (hr : Relation.ReflTransGen (Step ⟨g.toGraph, ots, fixed, true⟩) s0 s) (hb : s.sh.init = true) :
    SeparatesTerminals g.n ots s.sh.best ∧
    flowValue g.toGraph ots s.sh.best = some (multicutValue g.n g.toGraph.wt s.sh.best) ∧
    ∀ c, IsMinMulticut g.n g.toGraph.wt ots c → c ≤ multicutValue g.n g.toGraph.wt s.sh.best := by
  have hE := envOk_of (fixed := fixed) hg hs hn hlt h0 hfix
  have h : BestOk ⟨g.toGraph, ots, fixed, true⟩ s.sh := by
    clear hb
    induction hr with
    | refl => cases hi; intro h; exact absurd h (by simp [Shared.start])
    | tail _ hstep ih => exact step_best hE hstep ih
  obtain ⟨v, hv⟩ := h hb
  obtain ⟨h1, rfl⟩ := flowValue_some hE hv
  have hn' : (Env.mk g.toGraph ots fixed true).G.n = g.n := toGraph_n _
  rw [hn'] at h1 hv
  exact ⟨h1, hv, fun c hc => hc.2 _ (separates_of_separatesTerminals hn hlt h1)⟩

/-- In every reachable state of a run in which the process has not exited and nothing has gone astray (`stray`: a
problem whose terminals have no neighbours left is branched on, a problem with fewer than two terminals is closed
although its labels still cut an edge, or the first recorded solution is worse than the bound of the first problem), the
upper bound used to discard problems is not below the minimum multiterminal cut, and if it has reached it, the solution
is recorded or about to be recorded. -/
theorem C41_bound_partial (hg : Consistent g) (hs : g.NoParallel) (hf : MGraph.Fresh g) (hn : ots.Nodup)
    (hlt : ∀ o ∈ ots, o < g.n) (h0 : ots ≠ []) (hfix : ∀ o ∈ ots, fixed o = true) (c : Nat)
    (hc : IsMinMulticut g.n g.toGraph.wt ots c) (hbig : c < 2 ^ 32 - 1) (s0 s : State)
    (hi : Init ⟨g.toGraph, ots, fixed, true⟩ (firstProblem g ots) s0)
    (hr : Relation.ReflTransGen (Step ⟨g.toGraph, ots, fixed, true⟩) s0 s) (hex : s.exited = false) (hst : ¬ s.stray) :
    (c : Int) ≤ s.sh.gub ∧
    (s.sh.gub = c → (∃ sol k, .record sol k ∈ s.tasks) ∨ (s.sh.init = true ∧ flowValue g.toGraph ots s.sh.best = some c)) := by
  have hbig' : (c : Int) < undefinedNode := by unfold undefinedNode; omega
  obtain ⟨_, I2, _, I4⟩ := reach_inv hg hs hf hn hlt h0 hfix hc hbig' hi hr hex hst
  refine ⟨I2.gub, fun he => ?_⟩
  rcases I4 (Int.le_of_eq he) with ⟨sol, k, h, _⟩ | ⟨h, _⟩
  · exact Or.inl ⟨sol, k, h⟩
  · obtain ⟨_, v, h1, h2⟩ := I2.best h
    have : v = c := by omega
    rw [this] at h1
    exact Or.inr ⟨h, h1⟩

/-- A run that has finished (no problem left, no pending solution) and in which the process has not exited and nothing
has gone astray returns a minimum multiterminal cut: every vertex is in the block of exactly one terminal, and the
returned weight is the weight of that labelling and the smallest possible.  This holds for every order in which the
problems are processed, every interleaving of the threads between their accesses to the shared bounds, every choice
of the kernelization passes, of the isolating cuts and of the random choices of the local search.

Partial: `findBestSolution` is one step (see `C41_race`), runs that exit are excluded (see `C41_exit_reachable`), and so
are the three `stray` situations. -/
theorem C41_minimum_partial (hg : Consistent g) (hs : g.NoParallel) (hf : MGraph.Fresh g) (hn : ots.Nodup)
    (hlt : ∀ o ∈ ots, o < g.n) (h0 : ots ≠ []) (hfix : ∀ o ∈ ots, fixed o = true)
    (hbig : ∀ c, IsMinMulticut g.n g.toGraph.wt ots c → c < 2 ^ 32 - 1) (s0 s : State)
    (hi : Init ⟨g.toGraph, ots, fixed, true⟩ (firstProblem g ots) s0)
    (hr : Relation.ReflTransGen (Step ⟨g.toGraph, ots, fixed, true⟩) s0 s) (hex : s.exited = false) (hst : ¬ s.stray)
    (hend : s.tasks = []) :
    s.sh.init = true ∧ SeparatesTerminals g.n ots s.sh.best ∧
    ∃ c, IsMinMulticut g.n g.toGraph.wt ots c ∧ multicutValue g.n g.toGraph.wt s.sh.best = c ∧
      flowValue g.toGraph ots s.sh.best = some c ∧ s.sh.gub = c := by
  obtain ⟨c, hc⟩ := isMinMulticut_exists g.n g.toGraph.wt ots
  have hbig' : (c : Int) < undefinedNode := by unfold undefinedNode; have := hbig c hc; omega
  obtain ⟨_, I2, I3, _⟩ := reach_inv hg hs hf hn hlt h0 hfix hc hbig' hi hr hex hst
  have hfin : s.sh.init = true ∧ s.sh.gub = c := by
    rcases I3 with ⟨t, ht, _⟩ | h
    · rw [hend] at ht
      cases ht
    · exact h
  obtain ⟨h1, h2, _⟩ := C41_recorded_solution g ots fixed hg hs hn hlt h0 hfix s0 s hi hr hfin.1
  obtain ⟨_, v, e1, e2⟩ := I2.best hfin.1
  have hv : v = c := by omega
  rw [hv] at e1
  rw [e1] at h2
  exact ⟨hfin.1, h1, c, hc, (Option.some.inj h2).symm, e1, hfin.2⟩

end

/-! ### Concrete runs -/

/-- If the terminal alone is the only minimum isolating cut, push-relabel finds it. -/
theorem flowResult_single {ots : List Nat} {p : Problem} (h : Ok ots p) {t : Terminal}
    (ht : t ∈ (p.setTerminals ots).terminals) (htn : t.position < p.graph.n)
    (huniq : ∀ l ∈ boolLists p.graph.n, l.getD t.position false = true →
      (∀ s ∈ p.spots ots, s ≠ t.position → l.getD s false = false) →
      cutValue p.graph.n p.graph.toGraph.wt (fun u => l.getD u false) ≤
        cutValue p.graph.n p.graph.toGraph.wt (fun u => decide (u = t.position)) →
      ∀ u < p.graph.n, l.getD u false = true → u = t.position) :
    ∃ value, FlowResult p.graph (p.setTerminals ots).tpos t.position value [t.position] := by
  obtain ⟨v, b, M, hM, h1, h2, h3, _⟩ := C14_isolating_block ots p h (fun _ => false) t ht
  have hl : ∀ u, u < p.graph.n → ((List.range p.graph.n).map (fun x => decide (x ∈ b))).getD u false = decide (u ∈ b) := by
    intro u hu
    rw [List.getD_eq_getElem?_getD, List.getElem?_eq_getElem (by simpa using hu)]
    simp
  have hm : (List.range p.graph.n).map (fun x => decide (x ∈ b)) ∈ boolLists p.graph.n := by
    have := mem_boolLists ((List.range p.graph.n).map (fun x => decide (x ∈ b)))
    simpa using this
  have hspot : ∀ s ∈ p.spots ots, s < p.graph.n := h.spot_lt
  have hu := huniq _ hm (by rw [hl _ htn]; exact h3.source) (fun s hs hne => by rw [hl s (hspot s hs)]; exact h3.sinks s hs hne)
    (by
      rw [cutValue_congr hl]
      exact h3.min _ (by simp) (fun s _ hne => by simpa using hne))
  have hsing : ∀ x ∈ b, x = t.position := fun x hx => hu x (h2 x hx) (by rw [hl x (h2 x hx)]; simpa using hx)
  have hb : b = [t.position] := by
    have htb : t.position ∈ b := by simpa using h3.source
    match b, h1, hsing, htb with
    | [x], _, hs, _ => rw [hs x List.mem_cons_self]
    | x :: y :: l, hn, hs, _ =>
      have e1 := hs x List.mem_cons_self
      have e2 := hs y (List.mem_cons_of_mem _ List.mem_cons_self)
      rw [List.nodup_cons] at hn
      exact absurd List.mem_cons_self (by rw [e1, ← e2] at hn; exact hn.1)
  rw [hb] at hM
  exact ⟨v, fun _ => false, M, hM⟩

theorem isOrder_id : IsOrder (fun _ l => l) := by
  intro i l
  exact List.Perm.refl _

/-- Local search always has some result. -/
theorem localSearch_exists {E : Env} (hE : EnvOk E) (sol : Nat → Nat) : ∃ r, LocalSearchResult E sol r := by
  obtain ⟨flow, hflow⟩ := LocalSearch.flowSpec_exists
  have hp : ∀ _ : Nat, (List.range E.G.n).Nodup ∧ ∀ x ∈ List.range E.G.n, x < E.G.n :=
    fun _ => ⟨List.nodup_range, fun x hx => List.mem_range.1 hx⟩
  obtain ⟨r, hr, _⟩ := C25_improve_exact E.G hE.wf hE.simple E.ots.length hE.pos E.fixed (fun _ l => l) isOrder_id flow hflow
    (fun _ => List.range E.G.n) (fun _ => List.range E.G.n) hp hp (fun _ => []) (fun _ ab h => by cases h) sol
    (multicutValue E.G.n E.G.wt sol + 1) (by omega)
  exact ⟨r, fun _ l => l, flow, fun _ => List.range E.G.n, fun _ => List.range E.G.n, fun _ => [], _, isOrder_id, hflow, hp, hp,
    fun _ ab h => (by cases h), Nat.lt_succ_self _, hr⟩

/-- Isolating flow when every terminal alone is the only minimum isolating cut. -/
theorem isolatingFlow_single {ots : List Nat} {p : Problem} (h : Ok ots p) (flow : Nat → List Nat)
    (hflow : ∀ (i : Nat) (t : Terminal), (p.setTerminals ots).terminals[i]? = some t → flow i = [t.position])
    (huniq : ∀ t ∈ (p.setTerminals ots).terminals, t.position < p.graph.n ∧
      ∀ l ∈ boolLists p.graph.n, l.getD t.position false = true →
      (∀ s ∈ p.spots ots, s ≠ t.position → l.getD s false = false) →
      cutValue p.graph.n p.graph.toGraph.wt (fun u => l.getD u false) ≤
        cutValue p.graph.n p.graph.toGraph.wt (fun u => decide (u = t.position)) →
      ∀ u < p.graph.n, l.getD u false = true → u = t.position) :
    IsolatingFlow ots p (p.maximumIsolatingFlow ots (fun _ l => l) flow) := by
  refine ⟨_, flow, isOrder_id, fun i t hit => ?_, rfl⟩
  have hm := List.mem_of_getElem? hit
  rw [hflow i t hit]
  exact flowResult_single h hm (huniq t hm).1 (huniq t hm).2

/-- Vertices 0, 1 are ordinary, 2, 3, 4 are terminals. -/
def exitGraph : MGraph := (sample 5 [(0, 2, 2), (0, 3, 3), (0, 4, 2), (1, 2, 5), (1, 3, 4), (1, 4, 4)]).graph

def exitFirst : Problem := (firstProblem exitGraph [2, 3, 4]).maximumIsolatingFlow [2, 3, 4] (fun _ l => l) (fun i => [i + 2])

def exitSecond : Problem :=
  ((prepare [2, 3, 4] exitFirst).setTerminals [2, 3, 4]).contractIfImproved [2, 3, 4] (fun _ l => l)
    (((prepare [2, 3, 4] exitFirst).setTerminals [2, 3, 4]).highDegree fun _ => true)

def exitEnv : Env := ⟨exitGraph.toGraph, [2, 3, 4], fun v => decide (2 ≤ v), true⟩

theorem exitFirst_flow : IsolatingFlow [2, 3, 4] (firstProblem exitGraph [2, 3, 4]) exitFirst := by
  refine isolatingFlow_single ?_ _ ?_ ?_
  · exact ok_of_check (by decide +kernel) (by decide +kernel) (by decide +kernel) (by decide +kernel) (by decide +kernel)
  · have h : ((firstProblem exitGraph [2, 3, 4]).setTerminals [2, 3, 4]).terminals = [⟨2, 0, true⟩, ⟨3, 1, true⟩, ⟨4, 2, true⟩] := by
      decide +kernel
    rw [h]
    intro i t hit
    match i, hit with
    | 0, hit => cases hit; rfl
    | 1, hit => cases hit; rfl
    | 2, hit => cases hit; rfl
    | i + 3, hit => simp at hit
  · decide +kernel

/-- A run that ends with `exit(1)` although the graph is connected and the terminals are different vertices: the first
isolating flow labels both ordinary vertices with block 0, the high-degree pass merges one of them into the terminal
of block 1, the merged vertex keeps label 0, no edge is left, and the labels handed to `findBestSolution` have no block
1. -/
theorem C41_exit_reachable : ∃ s0 s, Init exitEnv (firstProblem exitGraph [2, 3, 4]) s0 ∧
    Relation.ReflTransGen (Step exitEnv) s0 s ∧ s.exited = true ∧ ¬ s.stray := by
  have hgub : (min exitFirst.upper Shared.start.gub) = 13 := by decide +kernel
  have hlow : exitFirst.lower = 10 := by decide +kernel
  have hdel : exitSecond.deleted = 12 := by decide +kernel
  have hno : (exitSecond.deleteTermEdges exitEnv.ots).graph.numEdges = 0 := by decide +kernel
  have hfv : flowValue exitEnv.G exitEnv.ots (getSolution (exitSecond.deleteTermEdges exitEnv.ots)) = none := by
    decide +kernel
  have hk : Kernelized exitEnv.ots (prepare exitEnv.ots exitFirst) exitSecond :=
    Relation.ReflTransGen.single (Pass.high _ _ _ isOrder_id)
  let sh : Shared := { Shared.start with gub := min exitFirst.upper Shared.start.gub }
  let l : List Task := [.record (getSolution exitFirst) (firstProblem exitGraph [2, 3, 4]).terminals.length]
  have a1 := Step.act (E := exitEnv) [] l _ _ sh sh False _ (Acts.check exitFirst (by
    unfold checkProblem
    rw [hlow]
    show decide ((10 : Int) < min exitFirst.upper Shared.start.gub) = true
    rw [hgub]; rfl))
  have a2 := Step.act (E := exitEnv) [] l _ _ sh sh (False ∨ False) _ (Acts.kernelize exitFirst exitSecond hk)
  have a3 := Step.act (E := exitEnv) [] l _ _ sh sh ((False ∨ False) ∨ False) _ (Acts.finish exitSecond (by
    rw [hdel]
    show ¬ ((12 : Nat) : Int) > min exitFirst.upper Shared.start.gub
    rw [hgub]; decide) hno)
  have a4 := Step.exit (E := exitEnv) [] l _ (exitSecond.deleteTermEdges exitEnv.ots).terminals.length sh
    (((False ∨ False) ∨ False) ∨ False) hfv
  exact ⟨_, _, Init.mk _ exitFirst_flow, (((Relation.ReflTransGen.single a1).tail a2).tail a3).tail a4, rfl, by simp⟩

/-! ### A complete run with branching -/

/-- Terminals 0, 1, 2 and vertex 3 between them. -/
def starGraph : MGraph := (sample 4 [(0, 3, 2), (1, 3, 2), (2, 3, 2)]).graph

def starFirst : Problem := (firstProblem starGraph [0, 1, 2]).maximumIsolatingFlow [0, 1, 2] (fun _ l => l) (fun i => [i])

def starEnv : Env := ⟨starGraph.toGraph, [0, 1, 2], fun v => decide (v < 3), true⟩

theorem starGraph_ok : Ok [0, 1, 2] (firstProblem starGraph [0, 1, 2]) :=
  ok_of_check (by decide +kernel) (by decide +kernel) (by decide +kernel) (by decide +kernel) (by decide +kernel)

theorem starFirst_flow : IsolatingFlow [0, 1, 2] (firstProblem starGraph [0, 1, 2]) starFirst := by
  refine isolatingFlow_single starGraph_ok _ ?_ ?_
  · have h : ((firstProblem starGraph [0, 1, 2]).setTerminals [0, 1, 2]).terminals = [⟨0, 0, true⟩, ⟨1, 1, true⟩, ⟨2, 2, true⟩] := by
      decide +kernel
    rw [h]
    intro i t hit
    match i, hit with
    | 0, hit => cases hit; rfl
    | 1, hit => cases hit; rfl
    | 2, hit => cases hit; rfl
    | i + 3, hit => simp at hit
  · decide +kernel

/-- A pending solution can always be recorded; the bound is not raised if a solution has been recorded before or the
solution is within the bound. -/
theorem best_step {E : Env} (hE : EnvOk E) {sol : Nat → Nat} {v : Nat} (hv : flowValue E.G E.ots sol = some v) (k : Nat)
    {sh : Shared} (hg : sh.init = true ∨ ((v : Int) ≤ sh.gub ∧ (v : Int) ≤ sh.bGUB k)) :
    ∃ sh', Acts E sh (.record sol k) [] sh' (sh.init = false ∧ sh.gub < sh'.gub) ∧
      ¬ (sh.init = false ∧ sh.gub < sh'.gub) ∧ sh'.init = true := by
  obtain ⟨r, hr⟩ := localSearch_exists hE sol
  obtain ⟨h0, _⟩ := localSearch_ok hE hv hr
  have hf : ∃ sh', findBest E sol k r sh = some sh' := by
    unfold findBest
    rw [hv, Option.map_some]
    exact ⟨_, rfl⟩
  obtain ⟨sh', hf⟩ := hf
  refine ⟨sh', Acts.best sol k r sh' hr hf, ?_⟩
  unfold findBest at hf
  rw [hv, Option.map_some, Option.some.injEq] at hf
  subst hf
  dsimp only
  rcases hg with hg | ⟨hg, hb⟩
  · refine ⟨by rw [hg]; simp, ?_⟩
    repeat' split
    all_goals first | rfl | exact hg
  · rw [if_neg (by omega)]
    constructor
    · rintro ⟨_, hlt⟩
      repeat' split at hlt
      all_goals ((try dsimp only at hlt); omega)
    · by_cases h1 : (v : Int) < sh.gub
      · rw [if_pos h1]
        repeat' split
        all_goals rfl
      · rw [if_neg h1]
        by_cases h2 : sh.init = true
        · repeat' split
          all_goals first | rfl | exact h2
        · have h2' : sh.init = false := by simpa using h2
          rw [if_pos]
          right
          split <;> exact h2'

def starKids : List Problem := ((prepare [0, 1, 2] starFirst).deleteTermEdges [0, 1, 2]).multiBranch [0, 1, 2]

theorem starKids_spec : starKids.length = 3 ∧ ∀ q ∈ starKids, q.terminals.length = 0 ∧ q.upper = 4 ∧
    (∀ u < q.graph.n, ∀ v < q.graph.n, q.graph.toGraph.wt u v = 0) ∧
    flowValue starGraph.toGraph [0, 1, 2] (getSolution q) = some 4 := by
  decide +kernel

theorem starGraph_env : EnvOk starEnv :=
  envOk_of starGraph_ok.consistent starGraph_ok.simple (by decide) (by decide) (by decide) (by decide)

/-- Closing the children of the star problem. -/
theorem star_close (sh : Shared) (hb : sh.bGUB 0 = undefinedFlow) (l : List Task) : ∀ (qs : List Problem) (b : Prop),
    (∀ q ∈ qs, q ∈ starKids) → ¬ b → ∃ b', ¬ b' ∧ ∀ l₁, Relation.ReflTransGen (Step starEnv)
      ⟨l₁ ++ qs.map .child ++ l, sh, false, b⟩ ⟨l₁ ++ qs.map (fun q => .record (getSolution q) 0) ++ l, sh, false, b'⟩ := by
  intro qs
  induction qs with
  | nil => intro b _ hb'; exact ⟨b, hb', fun l₁ => Relation.ReflTransGen.refl⟩
  | cons q qs ih =>
    intro b hq hb'
    obtain ⟨h1, h2, h3, _⟩ := starKids_spec.2 q (hq q List.mem_cons_self)
    have hcut : ¬ LabelsCut q := by
      rintro ⟨u, v, hu, hv, hw, _⟩
      exact hw (h3 u hu v hv)
    obtain ⟨b', h4, h5⟩ := ih (b ∨ LabelsCut q) (fun q' h => hq q' (List.mem_cons_of_mem _ h)) (by tauto)
    refine ⟨b', h4, fun l₁ => ?_⟩
    have hact := Acts.few (E := starEnv) (sh := sh) q (by omega) (by
      unfold runLocalSearch
      rw [h1, h2, hb]
      rfl)
    rw [h1] at hact
    have hstep := Step.act (E := starEnv) l₁ (qs.map .child ++ l) _ _ sh sh b _ hact
    have := h5 (l₁ ++ [.record (getSolution q) 0])
    simp only [List.append_assoc, List.singleton_append, List.map_cons, List.cons_append] at this hstep ⊢
    exact Relation.ReflTransGen.head hstep this

/-- Recording all pending solutions. -/
theorem record_all {E : Env} (hE : EnvOk E) : ∀ (l : List ((Nat → Nat) × Nat)) (sh : Shared) (b : Prop),
    (∀ x ∈ l, ∃ v, flowValue E.G E.ots x.1 = some v) → ¬ b → sh.init = true →
    ∃ s, Relation.ReflTransGen (Step E) ⟨l.map (fun x => .record x.1 x.2), sh, false, b⟩ s ∧ s.tasks = [] ∧
      s.exited = false ∧ ¬ s.stray := by
  intro l
  induction l with
  | nil => intro sh b _ hb _; exact ⟨_, Relation.ReflTransGen.refl, rfl, rfl, hb⟩
  | cons x l ih =>
    intro sh b hl hb hi
    obtain ⟨v, hv⟩ := hl x List.mem_cons_self
    obtain ⟨sh', h1, h2, h3⟩ := best_step hE hv x.2 (Or.inl hi)
    obtain ⟨s, h4, h5⟩ := ih sh' (b ∨ (sh.init = false ∧ sh.gub < sh'.gub)) (fun y hy => hl y (List.mem_cons_of_mem _ hy))
      (by tauto) h3
    exact ⟨s, Relation.ReflTransGen.head (Step.act [] _ _ _ _ _ _ _ h1) h4, h5⟩

/-- The hypotheses of `C41_minimum_partial` are met by a run that branches: star with three terminals, three children. -/
example : ∃ s0 s, Consistent starGraph ∧ starGraph.NoParallel ∧ MGraph.Fresh starGraph ∧
    (∀ c, IsMinMulticut starGraph.n starGraph.toGraph.wt [0, 1, 2] c → c < 2 ^ 32 - 1) ∧
    Init starEnv (firstProblem starGraph [0, 1, 2]) s0 ∧ Relation.ReflTransGen (Step starEnv) s0 s ∧
    s.exited = false ∧ ¬ s.stray ∧ s.tasks = [] := by
  have hgub : (min starFirst.upper Shared.start.gub) = 4 := by decide +kernel
  have hlow : starFirst.lower = 3 := by decide +kernel
  have hdel : (prepare starEnv.ots starFirst).deleted = 0 := by decide +kernel
  have hno : ((prepare starEnv.ots starFirst).deleteTermEdges starEnv.ots).graph.numEdges ≠ 0 := by decide +kernel
  have hfv : flowValue starEnv.G starEnv.ots (getSolution starFirst) = some 4 := by decide +kernel
  have hbr : ¬ NoBranchVertex ((prepare starEnv.ots starFirst).deleteTermEdges starEnv.ots) := by
    intro h
    exact absurd (h 0 (by decide +kernel) 0 (by decide +kernel)) (by decide +kernel)
  let sh : Shared := { Shared.start with gub := min starFirst.upper Shared.start.gub }
  let l : List Task := [.record (getSolution starFirst) (firstProblem starGraph [0, 1, 2]).terminals.length]
  have a1 := Step.act (E := starEnv) [] l _ _ sh sh False _ (Acts.check starFirst (by
    unfold checkProblem
    rw [hlow]
    show decide ((3 : Int) < min starFirst.upper Shared.start.gub) = true
    rw [hgub]; rfl))
  have a2 := Step.act (E := starEnv) [] l _ _ sh sh (False ∨ False) _ (Acts.kernelize starFirst (prepare starEnv.ots starFirst)
    Relation.ReflTransGen.refl)
  have a3 := Step.act (E := starEnv) [] l _ _ sh sh ((False ∨ False) ∨ False) _ (Acts.branch (prepare starEnv.ots starFirst) (by
    rw [hdel]
    show ¬ ((0 : Nat) : Int) > min starFirst.upper Shared.start.gub
    rw [hgub]; decide) hno)
  obtain ⟨b', h4, h5⟩ := star_close sh rfl l starKids (((False ∨ False) ∨ False) ∨
    NoBranchVertex ((prepare starEnv.ots starFirst).deleteTermEdges starEnv.ots)) (fun _ h => h) (by tauto)
  have a4 := h5 []
  obtain ⟨sh1, b1, b2, b3⟩ := best_step starGraph_env hfv (firstProblem starGraph [0, 1, 2]).terminals.length (sh := sh)
    (Or.inr ⟨by show ((4 : Nat) : Int) ≤ min starFirst.upper Shared.start.gub; rw [hgub]; decide,
      by show ((4 : Nat) : Int) ≤ undefinedFlow; decide⟩)
  have a5 := Step.act (E := starEnv) ([] ++ starKids.map (fun q => .record (getSolution q) 0)) [] _ _ _ _ b' _ b1
  obtain ⟨s, c1, c2, c3, c4⟩ := record_all starGraph_env (starKids.map fun q => (getSolution q, 0)) sh1
    (b' ∨ (sh.init = false ∧ sh.gub < sh1.gub)) (by
      intro x hx
      obtain ⟨q, hq, rfl⟩ := List.mem_map.1 hx
      exact ⟨4, (starKids_spec.2 q hq).2.2.2⟩) (by tauto) b3
  rw [List.map_map] at c1
  simp only [List.append_nil, List.nil_append] at a4 a5
  refine ⟨_, s, starGraph_ok.consistent, starGraph_ok.simple, by unfold MGraph.Fresh; decide +kernel, ?_, Init.mk _ starFirst_flow,
    (((((Relation.ReflTransGen.single a1).tail a2).tail a3).trans a4).tail a5).trans c1, c3, c4, c2⟩
  intro c hc
  have := hc.2 (fun v => v) (fun s _ t _ h => h)
  have h2 : multicutValue starGraph.n starGraph.toGraph.wt (fun v => v) = 6 := by decide +kernel
  omega

/-! ### The separate accesses of `findBestSolution` -/

/-- A call of `findBestSolution` that is not interrupted does what `findBest` does. -/
theorem C41_call_alone (E : Env) (sol : Nat → Nat) (k : Nat) (r : (Nat → Nat) × Int) (s : Shared) (v : Nat)
    (hv : flowValue E.G E.ots sol = some v) (b : Call) :
    findBest E sol k r s = some (runCalls ⟨sol, v, r.1, v - r.2, k, 0⟩ b s (List.replicate 9 false)).2.2 := by
  unfold findBest
  rw [hv, Option.map_some, Option.some.injEq]
  by_cases h1 : (v : Int) > s.bGUB k
  · rw [if_pos h1]
    simp [runCalls, Call.step, List.replicate, h1]
  · rw [if_neg h1]
    by_cases h2 : (v : Int) < s.gub
    · by_cases h3 : (v : Int) - r.2 ≤ s.tGUB k
      · by_cases h4 : (v : Int) - r.2 < v
        · simp [runCalls, Call.step, List.replicate, h1, h2, h3, h4]
        · simp [runCalls, Call.step, List.replicate, h1, h2, h3, h4]
      · by_cases h4 : (v : Int) - r.2 < v
        · simp [runCalls, Call.step, List.replicate, h1, h2, h3, h4]
        · simp [runCalls, Call.step, List.replicate, h1, h2, h3, h4]
    · by_cases h3 : (v : Int) - r.2 ≤ s.tGUB k
      · by_cases h4 : (v : Int) - r.2 < s.gub ∨ s.init = false
        · simp [runCalls, Call.step, List.replicate, h1, h2, h3, h4]
        · simp [runCalls, Call.step, List.replicate, h1, h2, h3, h4]
      · by_cases h4 : (v : Int) - r.2 < s.gub ∨ s.init = false
        · simp [runCalls, Call.step, List.replicate, h1, h2, h3, h4]
        · simp [runCalls, Call.step, List.replicate, h1, h2, h3, h4]

/-- Two threads that record a lighter and a heavier solution at the same time can end with the heavier one, as bound and
as recorded solution: both compare with the old bound, then the lighter one is stored, then the heavier one. -/
theorem C41_race (light heavy : Nat → Nat) (w W : Nat) (hw : w < W) (hW : (W : Int) < undefinedFlow) :
    ∃ schedule, let r := runCalls ⟨heavy, W, heavy, W, 0, 0⟩ ⟨light, w, light, w, 1, 0⟩ Shared.start schedule
      r.1.pc = 9 ∧ r.2.1.pc = 9 ∧ r.2.2.init = true ∧ r.2.2.gub = W ∧ r.2.2.best = heavy := by
  have h1 : ¬ (undefinedFlow : Int) < W := by omega
  have h2 : ¬ (undefinedFlow : Int) < w := by omega
  have h3 : (w : Int) < undefinedFlow := by omega
  have h4 : (W : Int) ≤ undefinedFlow := by omega
  have h5 : (w : Int) ≤ undefinedFlow := by omega
  -- the heavier thread compares, the lighter one runs to its end, the heavier one goes on
  refine ⟨[false, false] ++ List.replicate 7 true ++ List.replicate 7 false, ?_⟩
  simp [runCalls, Call.step, List.replicate, Shared.start, h1, h2, h3, h4, h5, hW]

/-- The bound announced at the beginning and the solution that belongs to it: a worker thread records a heavier solution
first (nothing has been recorded, so the bound is raised), takes the announced bound over, and then the solution of
the main thread, whose weight is the bound, is not stored.  At the end the bound is `w` and the recorded solution is
the heavier one. -/
theorem C41_lost_update (light heavy : Nat → Nat) (w W : Nat) (hw : w < W) (hW : (W : Int) < undefinedNode) (b : Call) :
    let s0 := ({ Shared.start with gub := w } : Shared).announce
    let s1 := (runCalls ⟨heavy, W, heavy, W, 2, 0⟩ b s0 (List.replicate 9 false)).2.2.learn
    let s2 := (runCalls ⟨light, w, light, w, 3, 0⟩ b s1 (List.replicate 9 false)).2.2
    s2.init = true ∧ s2.gub = w ∧ s2.best = heavy := by
  have hu : undefinedNode < undefinedFlow := by unfold undefinedNode undefinedFlow; norm_num
  have h1 : ¬ (undefinedFlow : Int) < W := by omega
  have h2 : ¬ (undefinedFlow : Int) < w := by omega
  have h3 : ¬ (W : Int) < w := by omega
  have h3' : ¬ W < w := by omega
  have h4 : (W : Int) ≤ undefinedFlow := by omega
  have h5 : (w : Int) ≤ undefinedFlow := by omega
  have h6 : min undefinedNode (w : Int) = w := by omega
  have h7 : min (w : Int) W = w := by omega
  have h8 : min w W = w := by omega
  simp [runCalls, Call.step, List.replicate, Shared.start, Shared.announce, Shared.learn, h1, h2, h3, h3', h4, h5, h6, h7, h8,
    update]

/-! ### Cuts that do not fit into 32 bits -/

/-- Two terminals, one edge of weight `2^33`. -/
def heavyGraph : MGraph := (sample 2 [(0, 1, 2 ^ 33)]).graph

def heavyFirst : Problem := (firstProblem heavyGraph [0, 1]).maximumIsolatingFlow [0, 1] (fun _ l => l) (fun i => [i])

def heavyEnv : Env := ⟨heavyGraph.toGraph, [0, 1], fun _ => true, true⟩

theorem heavyFirst_flow : IsolatingFlow [0, 1] (firstProblem heavyGraph [0, 1]) heavyFirst := by
  refine isolatingFlow_single ?_ _ ?_ ?_
  · exact ok_of_check (by decide +kernel) (by decide +kernel) (by decide +kernel) (by decide +kernel) (by decide +kernel)
  · have h : ((firstProblem heavyGraph [0, 1]).setTerminals [0, 1]).terminals = [⟨0, 0, true⟩, ⟨1, 1, true⟩] := by
      decide +kernel
    rw [h]
    intro i t hit
    match i, hit with
    | 0, hit => cases hit; rfl
    | 1, hit => cases hit; rfl
    | i + 2, hit => simp at hit
  · decide +kernel

/-- The announced bound starts as `UNDEFINED_NODE`, the largest 32-bit number: a worker takes it over as upper bound, which is
then below the minimum multiterminal cut of weight `2^33`, and the only problem is discarded.  So the condition on the
weight in `C41_minimum_partial` and `C41_bound_partial` cannot be dropped. -/
theorem C41_announced_bound : ∃ s0 s c, Init heavyEnv (firstProblem heavyGraph [0, 1]) s0 ∧
    Relation.ReflTransGen (Step heavyEnv) s0 s ∧ s.exited = false ∧ ¬ s.stray ∧ (∀ p, .queued p ∉ s.tasks) ∧
    IsMinMulticut heavyGraph.n heavyGraph.toGraph.wt [0, 1] c ∧ s.sh.gub < c := by
  have hlow : heavyFirst.lower = 2 ^ 33 := by decide +kernel
  let sh : Shared := { Shared.start with gub := min heavyFirst.upper Shared.start.gub }
  have hgub : sh.learn.gub = 2 ^ 32 - 1 := by decide +kernel
  let l : List Task := [.record (getSolution heavyFirst) (firstProblem heavyGraph [0, 1]).terminals.length]
  have a1 := Step.learn (E := heavyEnv) (.queued heavyFirst :: l) sh False
  have a2 := Step.act (E := heavyEnv) [] l _ _ sh.learn sh.learn False _ (Acts.drop heavyFirst (by
    unfold checkProblem
    rw [hlow, hgub]; rfl))
  refine ⟨_, _, 2 ^ 33, Init.mk _ heavyFirst_flow, (Relation.ReflTransGen.single a1).tail a2, rfl, by simp, ?_, ⟨⟨fun v => v, ?_, ?_⟩,
    multicuts_ge_of_check ?_ ?_⟩, ?_⟩
  · intro p hp
    change Task.queued p ∈ l at hp
    rw [List.mem_singleton] at hp
    cases hp
  · intro s _ t _ h; exact h
  · decide +kernel
  · decide +kernel
  · decide +kernel
  · show sh.learn.gub < _
    rw [hgub]; decide

end BB
end VieCut
