import Verif.Proof.MulticutDriver
import Verif.Props.BranchBound

/-!
# C46, C47: the multiterminal cut of a graph with several components
-/

namespace VieCut
namespace Driver
open Function MGraph

section
variable (g : MGraph) (k : Nat) (term : Nat → Option Nat) (ord : Nat → Nat → List Nat → List Nat)

/-- The graph is split without an error, and if every problem made from a component is solved to optimality, the
returned value is the smallest weight of the edges between the blocks of a labelling of all vertices that gives every
vertex of a terminal's area to this terminal. -/
theorem C46_value (hg : Consistent g) (hs : g.NoParallel) (hflow : ∀ u e, u < g.n → e < g.len u → (g.edge u e).flow = 0)
    (hk : ∀ v, v < g.n → ∀ t, term v = some t → t < k) (ho : ∀ c, IsOrder (ord c)) :
    ∃ label s, splitComponents g k term ord = some (label, s) ∧
      ∀ results : List (List Nat × Nat), List.Forall₂ (fun q r => q.problem.Optimum q.ots r.2) s.parts results →
        ∃ c sol, multicut g k term ord results = some (c, sol) ∧ IsMinKeeping g.n g.toGraph.wt term c := by
  have hv := consistent_iff.1 hg
  obtain ⟨label, count, s, h1, h2, h3⟩ := split_some hv ord hk
  refine ⟨label, s, h1, fun results hr => ?_⟩
  have hr' : List.Forall₂ (fun (q : Part) d => q.problem.Optimum q.ots d) s.parts (results.map Prod.snd) :=
    List.forall₂_map_right_iff.2 hr
  refine ⟨_, _, by unfold multicut; rw [h1]; rfl, ?_⟩
  exact value_sum hv (simple_of_noParallel hs) hflow hk ho h2 h3 hr'

/-- The result of a run of the branch and bound on problem `q` that has finished, has not exited and in which nothing has
gone astray (see `C41_minimum_partial`). -/
def RunResult (q : Part) (r : List Nat × Nat) : Prop :=
  ∃ s0 s, BB.Init q.env q.problem s0 ∧ Relation.ReflTransGen (BB.Step q.env) s0 s ∧ s.exited = false ∧ ¬ s.stray ∧
    s.tasks = [] ∧ r.1 = (List.range q.orig.n).map s.sh.best ∧ flowValue q.orig.toGraph q.ots s.sh.best = some r.2

/-- The value returned for results of the branch and bound.  Partial in the same way as `C41_minimum_partial`. -/
theorem C46_runs_partial (hg : Consistent g) (hs : g.NoParallel) (hflow : ∀ u e, u < g.n → e < g.len u → (g.edge u e).flow = 0)
    (hk : ∀ v, v < g.n → ∀ t, term v = some t → t < k) (ho : ∀ c, IsOrder (ord c))
    (hbig : ∃ f, Keeps g.n term f ∧ multicutValue g.n g.toGraph.wt f < 2 ^ 32 - 1) :
    ∃ label s, splitComponents g k term ord = some (label, s) ∧
      ∀ results, List.Forall₂ RunResult s.parts results →
        ∃ c sol, multicut g k term ord results = some (c, sol) ∧ IsMinKeeping g.n g.toGraph.wt term c := by
  have hv := consistent_iff.1 hg
  have hsi := simple_of_noParallel hs
  obtain ⟨label, count, s, h1, h2, h3⟩ := split_some hv ord hk
  refine ⟨label, s, h1, fun results hr => ?_⟩
  -- every problem has an optimum, and the sum of the optima is below 2^32 - 1
  have hex : ∃ ds, List.Forall₂ (fun (q : Part) d => q.problem.Optimum q.ots d) s.parts ds := by
    generalize s.parts = l
    induction l with
    | nil => exact ⟨[], List.Forall₂.nil⟩
    | cons q l ih =>
      obtain ⟨ds, hds⟩ := ih
      obtain ⟨d, hd⟩ := Problem.optimum_exists q.ots q.problem
      exact ⟨d :: ds, List.Forall₂.cons hd hds⟩
  obtain ⟨ds, hds⟩ := hex
  have hsum := value_sum hv hsi hflow hk ho h2 h3 hds
  obtain ⟨f, hf1, hf2⟩ := hbig
  have hle : ds.sum < 2 ^ 32 - 1 := Nat.lt_of_le_of_lt (hsum.2 f hf1) hf2
  have hpart : ∀ q ∈ s.parts, ∃ c, c < count ∧ 2 ≤ (occurring k term (namesOf g.n label c)).length ∧
      q = makePart g k term label (ord c) c := by
    intro q hq
    rw [h3.parts] at hq
    obtain ⟨c, hc, rfl⟩ := List.mem_map.1 hq
    obtain ⟨c1, c2⟩ := List.mem_filter.1 hc
    exact ⟨c, List.mem_range.1 c1, by simpa using c2, rfl⟩
  have hrun : ∀ q ∈ s.parts, ∀ d r, q.problem.Optimum q.ots d → d < 2 ^ 32 - 1 → RunResult q r → r.2 = d := by
    rintro q hq d r hd hlt ⟨s0, st, r1, r2, r3, r4, r5, _, r6⟩
    obtain ⟨c, hc, hc2, rfl⟩ := hpart q hq
    obtain ⟨b1, b2, b3, b4, b5, b6, b7, b8⟩ := makePart_spec (label := label) (c := c) hv hsi hk (ho c)
    have hn : (makePart g k term label (ord c) c).env.G.n = (makePart g k term label (ord c) c).orig.n := toGraph_n _
    have hT : IsMinTogether (makePart g k term label (ord c) c).env.G.n (makePart g k term label (ord c) c).env.G.wt
        (makePart g k term label (ord c) c).env.ots (Area k term (namesOf g.n label c)) d := by
      rw [hn]
      exact (b7 d).1 hd
    obtain ⟨_, I2, I3, _⟩ := BB.reach_start (b3 (by intro h; rw [h] at hc2; simp at hc2)) b4 hT
      (by unfold BB.undefinedNode; omega) ⟨b5, b6, hd⟩ r1 r2 r3 r4
    have hfin : st.sh.init = true ∧ st.sh.gub = d := by
      rcases I3 with ⟨t, ht, _⟩ | h
      · rw [r5] at ht; cases ht
      · exact h
    obtain ⟨_, v, e1, e2⟩ := I2.best hfin.1
    have e1' : flowValue (makePart g k term label (ord c) c).orig.toGraph (makePart g k term label (ord c) c).ots st.sh.best = some v := e1
    rw [r6] at e1'
    have : r.2 = v := Option.some.inj e1'
    unfold BB.undefinedNode at e2
    omega
  have hall : List.Forall₂ (fun (q : Part) (r : List Nat × Nat) => q.problem.Optimum q.ots r.2) s.parts results := by
    have : ∀ (l : List Part) (ds : List Nat) (rs : List (List Nat × Nat)), (∀ q ∈ l, q ∈ s.parts) → ds.sum < 2 ^ 32 - 1 →
        List.Forall₂ (fun (q : Part) d => q.problem.Optimum q.ots d) l ds → List.Forall₂ RunResult l rs →
        List.Forall₂ (fun (q : Part) (r : List Nat × Nat) => q.problem.Optimum q.ots r.2) l rs := by
      intro l
      induction l with
      | nil => intro ds rs _ _ _ h; cases h; exact List.Forall₂.nil
      | cons q l ih =>
        intro ds rs hl hlt h1 h2
        cases h1 with
        | cons a1 a2 =>
          cases h2 with
          | cons b1 b2 =>
            rw [List.sum_cons] at hlt
            refine List.Forall₂.cons ?_ (ih _ _ (fun q' h => hl q' (List.mem_cons_of_mem _ h)) (by omega) a2 b2)
            have := hrun q (hl q List.mem_cons_self) _ _ a1 (by omega) b1
            rw [this]
            exact a1
    exact this s.parts ds results (fun _ h => h) hle hds hr
  have hr' : List.Forall₂ (fun (q : Part) d => q.problem.Optimum q.ots d) s.parts (results.map Prod.snd) :=
    List.forall₂_map_right_iff.2 hall
  refine ⟨_, _, by unfold multicut; rw [h1]; rfl, ?_⟩
  exact value_sum hv hsi hflow hk ho h2 h3 hr'

/-! ### The written solution -/

/-- If the components with at least two terminals are numbered before all others (in particular in a connected graph), the
written file gives every vertex a block, the areas of the terminals are in the blocks of their terminals, and the
weight between the blocks is the returned value.

Partial: without the condition on the numbers the code reads outside a vector, see `C47_out_of_bounds`; and the results of
the problems are required to put the `i`-th terminal of the problem into block `i`. -/
theorem C47_written_partial (hg : Consistent g) (hs : g.NoParallel) (hflow : ∀ u e, u < g.n → e < g.len u → (g.edge u e).flow = 0)
    (hk : ∀ v, v < g.n → ∀ t, term v = some t → t < k) (hk0 : 0 < k) (ho : ∀ c, IsOrder (ord c)) (label : Nat → Option Nat)
    (s : Split) (hsplit : splitComponents g k term ord = some (label, s))
    (hnum : ∀ (i : Nat) (q : Part), s.parts[i]? = some q → q.comp = i) (results : List (List Nat × Nat))
    (hr : List.Forall₂ (Solves term) s.parts results) :
    ∃ c sol, multicut g k term ord results = some (c, some sol) ∧ sol.length = g.n ∧ (∀ b ∈ sol, b < k) ∧
      Keeps g.n term (fun v => sol.getD v 0) ∧ multicutValue g.n g.toGraph.wt (fun v => sol.getD v 0) = c := by
  have hv := consistent_iff.1 hg
  obtain ⟨label', count, s', h1, h2, h3⟩ := split_some hv ord hk
  rw [hsplit] at h1
  cases h1
  obtain ⟨f, w1, w2, w3, w4⟩ := written hv (simple_of_noParallel hs) hflow hk hk0 ho h2 h3 hnum hr
  have hget : ∀ v, v < g.n → ((List.range g.n).map f).getD v 0 = f v := by
    intro v hv
    rw [List.getD_eq_getElem?_getD, List.getElem?_map, List.getElem?_range hv]
    rfl
  refine ⟨_, _, by unfold multicut; rw [hsplit, Option.map_some, w1], by simp, ?_, ?_, ?_⟩
  · intro b hb
    obtain ⟨v, hv, rfl⟩ := List.mem_map.1 hb
    exact w2 v (List.mem_range.1 hv)
  · intro v hv t ht
    show ((List.range g.n).map f).getD v 0 = t
    rw [hget v hv]
    exact w3 v hv t ht
  · rw [← w4]
    refine multicut_congr fun u v hu hv => ?_
    rw [hget u hu, hget v hv]

/-- In a connected graph the condition on the numbers holds. -/
theorem C47_connected_numbers (hg : Consistent g) (hflow : ∀ u e, u < g.n → e < g.len u → (g.edge u e).flow = 0)
    (hk : ∀ v, v < g.n → ∀ t, term v = some t → t < k)
    (hc : ∀ u v, u < g.n → v < g.n → Relation.ReflTransGen (fun a b => a < g.n ∧ 0 < g.toGraph.wt a b) u v)
    (label : Nat → Option Nat) (s : Split) (hsplit : splitComponents g k term ord = some (label, s)) (i : Nat) (q : Part)
    (hq : s.parts[i]? = some q) : q.comp = i := by
  have hv := consistent_iff.1 hg
  obtain ⟨label', count, s', h1, h2, h3⟩ := split_some hv ord hk
  rw [hsplit] at h1
  cases h1
  have hsame : ∀ u v, u < g.n → v < g.n → label u = label v := by
    intro u v hu hv'
    have := hc u v hu hv'
    induction this with
    | refl => rfl
    | tail _ hbc ih =>
      rename_i b c _
      rw [ih hbc.1]
      by_contra hne
      have hb := hbc.1
      have hw := hbc.2
      have := zero_between hv hflow h2 b c hb hv' hne
      omega
  have hcount : count ≤ 1 := by
    by_contra hlt
    obtain ⟨u, hu, e1⟩ := h2.onto 0 (by omega)
    obtain ⟨v, hv', e2⟩ := h2.onto 1 (by omega)
    have := hsame u v hu hv'
    rw [e1, e2] at this
    cases this
  rw [h3.parts, List.getElem?_map] at hq
  cases hx : ((List.range count).filter fun c => decide (2 ≤ (occurring k term (namesOf g.n label c)).length))[i]? with
  | none => rw [hx] at hq; cases hq
  | some y =>
    rw [hx, Option.map_some, Option.some.injEq] at hq
    subst hq
    show y = i
    have hy := List.mem_range.1 (List.mem_filter.1 (List.mem_of_getElem? hx)).1
    have hi := (List.getElem?_eq_some_iff.1 hx).1
    have := List.length_filter_le (fun c => decide (2 ≤ (occurring k term (namesOf g.n label c)).length)) (List.range count)
    rw [List.length_range] at this
    omega

/-- If a component with fewer than two terminals is numbered before one with at least two, writing the solution reads
outside the vector of the solutions, whatever the results are. -/
theorem C47_out_of_bounds (hg : Consistent g) (hk : ∀ v, v < g.n → ∀ t, term v = some t → t < k) (label : Nat → Option Nat)
    (s : Split) (hsplit : splitComponents g k term ord = some (label, s))
    (hnum : ∃ (i : Nat) (q : Part), s.parts[i]? = some q ∧ q.comp ≠ i) (results : List (List Nat × Nat))
    (hlen : results.length = s.parts.length) :
    ∃ c, multicut g k term ord results = some (c, none) := by
  have hv := consistent_iff.1 hg
  obtain ⟨label', count, s', h1, h2, h3⟩ := split_some hv ord hk
  rw [hsplit] at h1
  cases h1
  refine ⟨(results.map Prod.snd).sum, ?_⟩
  unfold multicut
  rw [hsplit, Option.map_some]
  -- some component with at least two terminals has a number that is too large
  have hbig : ∃ c, c < count ∧ 2 ≤ (occurring k term (namesOf g.n label c)).length ∧ s.parts.length ≤ c := by
    by_contra hno
    push Not at hno
    obtain ⟨i, q, hi, hne⟩ := hnum
    rw [h3.parts, List.length_map] at hno
    rw [h3.parts, List.getElem?_map] at hi
    generalize hL : ((List.range count).filter fun c => decide (2 ≤ (occurring k term (namesOf g.n label c)).length)) = L at hno hi
    have hmem : ∀ c ∈ L, c ∈ List.range L.length := by
      intro c hc
      rw [← hL, List.mem_filter] at hc
      exact List.mem_range.2 (hno c (List.mem_range.1 hc.1) (by simpa using hc.2))
    have hsort : L.Pairwise (· < ·) := by rw [← hL]; exact List.pairwise_lt_range.filter _
    have hnd : L.Nodup := hsort.imp fun h => Nat.ne_of_lt h
    have hperm : L.Perm (List.range L.length) :=
      (List.subperm_of_subset hnd hmem).perm_of_length_le (by simp)
    have heq : L = List.range L.length :=
      hperm.eq_of_pairwise (fun a b _ _ h1 h2 => absurd h1 (by omega)) hsort List.pairwise_lt_range
    cases hx : L[i]? with
    | none => rw [hx] at hi; cases hi
    | some y =>
      rw [hx, Option.map_some, Option.some.injEq] at hi
      subst hi
      have hil := (List.getElem?_eq_some_iff.1 hx).1
      rw [heq, List.getElem?_range hil] at hx
      exact hne (Option.some.inj hx).symm
  obtain ⟨c, hc, h2c, hle⟩ := hbig
  obtain ⟨v, hvn, hvc⟩ := h2.onto c hc
  obtain ⟨n1, _⟩ := h3.near v c hvn hvc hc h2c
  have hwb : writeBlock k label s (results.map Prod.fst) v = none := by
    unfold writeBlock
    rw [n1]
    have : (results.map Prod.fst)[c]? = none := List.getElem?_eq_none (by rw [List.length_map]; omega)
    simp only [this, Option.bind_eq_bind, Option.bind_none]
  have hfold : ∀ m, v < m → writeSolution m k label s (results.map Prod.fst) = none := by
    intro m hm
    unfold writeSolution
    induction m with
    | zero => omega
    | succ m ih =>
      rw [List.range_succ, List.foldl_append, List.foldl_cons, List.foldl_nil]
      by_cases hvm : v < m
      · rw [ih hvm]; rfl
      · have : v = m := by omega
        rw [← this, hwb]
        cases (List.foldl (fun r i => r.bind fun l => (writeBlock k label s (results.map Prod.fst) i).map fun b => l ++ [b])
          (some []) (List.range v)) <;> rfl
  rw [hfold g.n hvn]

end

/-! ### Concrete cases -/

/-- Terminal 0 has the vertices 0 and 4, terminal 1 the vertices 1 and 2, terminal 2 the vertex 3; vertex 5 is alone. -/
def splitGraph : MGraph := (Problem.sample 6 [(0, 1, 1), (0, 2, 1), (1, 2, 5), (3, 4, 3)]).graph

def splitTerm (v : Nat) : Option Nat := [some 0, some 1, some 1, some 2, some 0, none].getD v none

def splitParts : List Part := ((splitComponents splitGraph 3 splitTerm fun _ _ l => l).map fun ls => ls.2.parts).getD []

theorem splitGraph_ok : Consistent splitGraph ∧ splitGraph.NoParallel ∧
    (∀ u e, u < splitGraph.n → e < splitGraph.len u → (splitGraph.edge u e).flow = 0) ∧
    (∀ v, v < splitGraph.n → ∀ t, splitTerm v = some t → t < 3) ∧ ∀ c, IsOrder ((fun _ _ l => l : Nat → Nat → List Nat → List Nat) c) := by
  have h : Problem.Ok [] (Problem.sample 6 [(0, 1, 1), (0, 2, 1), (1, 2, 5), (3, 4, 3)]) :=
    Problem.ok_of_check (by decide +kernel) (by decide +kernel) (by decide +kernel) (by decide +kernel) (by decide +kernel)
  refine ⟨h.consistent, h.simple, ?_, ?_, fun _ => BB.isOrder_id⟩
  · exact fun u e hu he => (by decide +kernel : ∀ u < splitGraph.n, ∀ e < splitGraph.len u, (splitGraph.edge u e).flow = 0) u hu e he
  · exact fun v hv t ht => (by decide +kernel : ∀ v < splitGraph.n, ∀ t ∈ splitTerm v, t < 3) v hv t ht

/-- A run in which the first isolating flow already closes the problem. -/
theorem run_simple {q : Part} (hE : BB.EnvOk q.env) {p' : Problem} (hf : BB.IsolatingFlow q.ots q.problem p')
    (hdrop : BB.checkProblem { BB.Shared.start with gub := min p'.upper BB.Shared.start.gub } p' = false) {v : Nat}
    (hv : flowValue q.orig.toGraph q.ots (BB.getSolution p') = some v)
    (hle : (v : Int) ≤ min p'.upper BB.Shared.start.gub ∧ (v : Int) ≤ BB.undefinedFlow) : ∃ r, RunResult q r := by
  let sh : BB.Shared := { BB.Shared.start with gub := min p'.upper BB.Shared.start.gub }
  have a1 := BB.Step.act (E := q.env) [] [.record (BB.getSolution p') q.problem.terminals.length] _ _ sh sh False _
    (BB.Acts.drop p' hdrop)
  obtain ⟨sh1, b1, b2, b3⟩ := BB.best_step hE (sol := BB.getSolution p') hv q.problem.terminals.length (sh := sh) (Or.inr hle)
  have a2 := BB.Step.act (E := q.env) [] [] _ _ _ _ (False ∨ False) _ b1
  have hbest : BB.BestOk q.env sh1 := BB.step_best hE a2 (fun h => absurd h (by simp [sh, BB.Shared.start]))
  obtain ⟨w, hw⟩ := hbest b3
  exact ⟨(_, w), _, _, BB.Init.mk _ hf, (Relation.ReflTransGen.single a1).tail a2, rfl, by tauto, rfl, rfl, hw⟩

theorem splitParts_run : ∀ q ∈ splitParts, ∃ r, RunResult q r := by
  have c1 : ∀ q ∈ splitParts, ∀ u < q.problem.graph.n, (∀ e < q.problem.graph.len u,
      (q.problem.graph.edge u e).target < q.problem.graph.n ∧ (q.problem.graph.edge u e).target ≠ u ∧
      (q.problem.graph.edge u e).rev < q.problem.graph.len (q.problem.graph.edge u e).target ∧
      (q.problem.graph.edge (q.problem.graph.edge u e).target (q.problem.graph.edge u e).rev).target = u ∧
      (q.problem.graph.edge (q.problem.graph.edge u e).target (q.problem.graph.edge u e).rev).rev = e ∧
      (q.problem.graph.edge (q.problem.graph.edge u e).target (q.problem.graph.edge u e).rev).weight = (q.problem.graph.edge u e).weight ∧
      ∀ e' < q.problem.graph.len u, (q.problem.graph.edge u e).target = (q.problem.graph.edge u e').target → e = e') ∧
      q.problem.graph.wdeg u = ((List.range (q.problem.graph.len u)).map fun e => (q.problem.graph.edge u e).weight).sum ∧
      q.problem.graph.cont u ≠ [] ∧ (q.problem.graph.cont u).Nodup ∧ ∀ v ∈ q.problem.graph.cont u, v < q.problem.graph.posSize := by
    decide +kernel
  have c2 : ∀ q ∈ splitParts, q.problem.graph.numEdges = ((List.range q.problem.graph.n).map q.problem.graph.len).sum := by
    decide +kernel
  have c3 : ∀ q ∈ splitParts, ∀ v < q.problem.graph.posSize, q.problem.graph.pos v < q.problem.graph.n ∧
      (q.problem.graph.cont (q.problem.graph.pos v)).count v = 1 ∧
      ∀ x < q.problem.graph.n, x ≠ q.problem.graph.pos v → v ∉ q.problem.graph.cont x := by
    decide +kernel
  have c4 : ∀ q ∈ splitParts, ∀ o ∈ q.ots, q.problem.mapped o < q.problem.graph.posSize := by decide +kernel
  have c5 : ∀ q ∈ splitParts, (q.problem.spots q.ots).Nodup := by decide +kernel
  have c6 : ∀ q ∈ splitParts, ∀ t ∈ (q.problem.setTerminals q.ots).terminals, t.position < q.problem.graph.n ∧
      ∀ l ∈ boolLists q.problem.graph.n, l.getD t.position false = true →
      (∀ s ∈ q.problem.spots q.ots, s ≠ t.position → l.getD s false = false) →
      cutValue q.problem.graph.n q.problem.graph.toGraph.wt (fun u => l.getD u false) ≤
        cutValue q.problem.graph.n q.problem.graph.toGraph.wt (fun u => decide (u = t.position)) →
      ∀ u < q.problem.graph.n, l.getD u false = true → u = t.position := by
    decide +kernel
  have c7 : ∀ q ∈ splitParts,
      let p' := q.problem.maximumIsolatingFlow q.ots (fun _ l => l) fun i => [(q.problem.setTerminals q.ots).tpos.getD i 0]
      BB.checkProblem { BB.Shared.start with gub := min p'.upper BB.Shared.start.gub } p' = false ∧
      flowValue q.orig.toGraph q.ots (BB.getSolution p') = some p'.upper.toNat ∧
      (p'.upper.toNat : Int) ≤ min p'.upper BB.Shared.start.gub ∧ (p'.upper.toNat : Int) ≤ BB.undefinedFlow := by
    decide +kernel
  intro q hq
  have hok : Problem.Ok q.ots q.problem := Problem.ok_of_check (c1 q hq) (c2 q hq) (c3 q hq) (c4 q hq) (c5 q hq)
  obtain ⟨d1, d2, d3⟩ := c7 q hq
  have hE : BB.EnvOk q.env := by
    obtain ⟨h1, h2, h3, h4, h5⟩ := splitGraph_ok
    obtain ⟨label, count, s, s1, s2, s3⟩ := split_some (consistent_iff.1 h1) (fun _ _ l => l) h4
    have : splitParts = s.parts := by unfold splitParts; rw [s1]; rfl
    rw [this, s3.parts] at hq
    obtain ⟨c, hc, rfl⟩ := List.mem_map.1 hq
    have h2c : 2 ≤ (occurring 3 splitTerm (namesOf splitGraph.n label c)).length := by simpa using (List.mem_filter.1 hc).2
    exact (makePart_spec (label := label) (c := c) (consistent_iff.1 h1) (simple_of_noParallel h2) h4 BB.isOrder_id).2.2.1
      (by intro h; rw [h] at h2c; simp at h2c)
  refine run_simple hE (BB.isolatingFlow_single hok (fun i => [(q.problem.setTerminals q.ots).tpos.getD i 0]) ?_ (c6 q hq)) d1 d2 d3
  intro i t hit
  unfold Problem.tpos
  rw [List.getD_eq_getElem?_getD, List.getElem?_map, hit]
  rfl

/-- The hypotheses of `C46_value` and `C46_runs_partial` are met: two problems, both solved by runs. -/
example : splitParts.length = 2 ∧ ∃ results c sol, List.Forall₂ RunResult splitParts results ∧
    multicut splitGraph 3 splitTerm (fun _ _ l => l) results = some (c, sol) ∧ IsMinKeeping splitGraph.n splitGraph.toGraph.wt splitTerm c := by
  obtain ⟨h1, h2, h3, h4, h5⟩ := splitGraph_ok
  obtain ⟨label, s, s1, s2⟩ := C46_runs_partial splitGraph 3 splitTerm (fun _ _ l => l) h1 h2 h3 h4 h5
    ⟨fun v => (splitTerm v).getD 0, fun v _ t ht => by dsimp only; rw [ht]; rfl, by decide +kernel⟩
  have hp : splitParts = s.parts := by unfold splitParts; rw [s1]; rfl
  have hex : ∀ l : List Part, (∀ q ∈ l, ∃ r, RunResult q r) → ∃ rs, List.Forall₂ RunResult l rs := by
    intro l
    induction l with
    | nil => exact fun _ => ⟨[], List.Forall₂.nil⟩
    | cons q l ih =>
      intro h
      obtain ⟨r, hr⟩ := h q List.mem_cons_self
      obtain ⟨rs, hrs⟩ := ih fun q' h' => h q' (List.mem_cons_of_mem _ h')
      exact ⟨r :: rs, List.Forall₂.cons hr hrs⟩
  obtain ⟨rs, hrs⟩ := hex _ splitParts_run
  obtain ⟨c, sol, e1, e2⟩ := s2 rs (by rw [← hp]; exact hrs)
  exact ⟨by decide +kernel, rs, c, sol, hrs, e1, e2⟩

/-- The hypotheses of `C47_written_partial` are met, and the written blocks. -/
example : (∃ label s, splitComponents splitGraph 3 splitTerm (fun _ _ l => l) = some (label, s) ∧
      (∀ (i : Nat) (q : Part), s.parts[i]? = some q → q.comp = i) ∧
      List.Forall₂ (Solves splitTerm) s.parts [([0, 1, 1], 2), ([1, 0], 3)]) ∧
    multicut splitGraph 3 splitTerm (fun _ _ l => l) [([0, 1, 1], 2), ([1, 0], 3)] = some (5, some [0, 1, 1, 2, 0, 0]) := by
  refine ⟨?_, by decide +kernel⟩
  obtain ⟨h1, h2, h3, h4, h5⟩ := splitGraph_ok
  obtain ⟨label, count, s, s1, s2, s3⟩ := split_some (consistent_iff.1 h1) (fun _ _ l => l) h4
  have hp : splitParts = s.parts := by unfold splitParts; rw [s1]; rfl
  have hlen : splitParts.length = 2 := by decide +kernel
  have hc : ∀ i < 2, ∀ q ∈ splitParts[i]?, q.comp = i ∧ q.names = [[0, 1, 2], [3, 4]].getD i [] ∧ q.index = [[0, 1], [0, 2]].getD i [] ∧
      multicutValue q.orig.n q.orig.toGraph.wt (fun j => ([[0, 1, 1], [1, 0]].getD i []).getD j 0) = [2, 3].getD i 0 := by
    decide +kernel
  have hlt : ∀ (i : Nat) (q : Part), splitParts[i]? = some q → i < 2 := fun i q h => by
    rw [← hlen]; exact (List.getElem?_eq_some_iff.1 h).1
  refine ⟨label, s, s1, ?_, ?_⟩
  · rw [← hp]
    exact fun i q h => (hc i (hlt i q h) q h).1
  · rw [← hp]
    match hl : splitParts, hlen with
    | [a, b], _ =>
      obtain ⟨_, a2, a3, a4⟩ := hc 0 (by decide) a (by rw [hl]; rfl)
      obtain ⟨_, b2, b3, b4⟩ := hc 1 (by decide) b (by rw [hl]; rfl)
      refine List.Forall₂.cons ⟨by rw [a2]; rfl, by rw [a3]; decide, ?_, a4⟩
        (List.Forall₂.cons ⟨by rw [b2]; rfl, by rw [b3]; decide, ?_, b4⟩ List.Forall₂.nil)
      · rw [a2, a3]
        exact fun i t hi ht => (by decide : ∀ i < 3, ∀ t ∈ splitTerm (([0, 1, 2] : List Nat).getD i 0),
          ([0, 1] : List Nat)[([0, 1, 1] : List Nat).getD i 0]? = some t) i hi t ht
      · rw [b2, b3]
        exact fun i t hi ht => (by decide : ∀ i < 2, ∀ t ∈ splitTerm (([3, 4] : List Nat).getD i 0),
          ([0, 2] : List Nat)[([1, 0] : List Nat).getD i 0]? = some t) i hi t ht

/-- The same graph with the isolated vertex in front: the results of the problems are optimal, but writing the solution
reads outside the vector. -/
theorem C47_not_written : multicut (Problem.sample 5 [(1, 2, 1), (3, 4, 3)]).graph 3
    (fun v => [none, some 0, some 1, some 2, some 0].getD v none) (fun _ _ l => l) [([0, 1], 1), ([1, 0], 3)] = some (4, none) := by
  decide +kernel

end Driver
end VieCut
