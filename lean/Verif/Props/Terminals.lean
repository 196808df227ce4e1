import Verif.Proof.Terminals
import Verif.Proof.Distant
import Verif.Props.MulticutDriver

/-!
# C48, C49: areas around terminals, distant terminals
-/

namespace VieCut
namespace Terminals
open Function

/-! ### C48 -/

/-- The areas around distinct terminals: every terminal is in its own area; every vertex of an area is connected to the
terminal inside the area; an area has at most `bfs` vertices (one, if `bfs` is smaller); and if areas are wanted, an
area that is smaller than `bfs` cannot grow, because all neighbours of its vertices belong to some area.  Areas are
disjoint because every vertex has at most one entry. -/
theorem C48_areas (G : Graph) (hG : G.WF) (bfs : Nat) (terminals : List Nat) (hn : terminals.Nodup)
    (hlt : ∀ t ∈ terminals, t < G.n) :
    (∀ i t, terminals[i]? = some t → surround G bfs terminals t = some i) ∧
    (∀ v i, surround G bfs terminals v = some i → v < G.n ∧ ∃ t, terminals[i]? = some t ∧
      Relation.ReflTransGen (Inside G (surround G bfs terminals) i) t v) ∧
    (∀ i, i < terminals.length → ((Finset.range G.n).filter fun v => surround G bfs terminals v = some i).card ≤ max 1 bfs) ∧
    (1 < bfs → ∀ i, i < terminals.length →
      ((Finset.range G.n).filter fun v => surround G bfs terminals v = some i).card < bfs →
      ∀ v, surround G bfs terminals v = some i → ∀ e ∈ G.edges v, surround G bfs terminals e.1 ≠ none) := by
  have h := surround_inv hG bfs hn hlt
  refine ⟨h.own, h.area, h.size, fun hb i hi hs => ?_⟩
  rw [if_pos hb] at h
  exact h.full i hi hs

/-- The search around a terminal ends within `n` iterations, whatever the other areas are. -/
theorem C48_loop_ends (G : Graph) (hG : G.WF) (bfs i t : Nat) (ht : t < G.n) (map : Nat → Option Nat) (N : Nat) (hN : G.n ≤ N) :
    ((areaStep G bfs i)^[N] { queue := [t], map := update map t (some i), size := 1 }).queue = [] ∨
    bfs ≤ ((areaStep G bfs i)^[N] { queue := [t], map := update map t (some i), size := 1 }).size := by
  refine area_ends hG N _ ?_
  have := freeOf_lt (n := G.n) (m := update map t (some i)) ht (by rw [update_self]; simp)
  simp only [List.length_singleton]
  omega

/-- The multiterminal cut of a graph with distinct terminals and without areas: if every problem made from a component is
solved to optimality, the value is the weight of a minimum multiterminal cut. -/
theorem C48_multicut (g : MGraph) (ord : Nat → Nat → List Nat → List Nat) (hg : MGraph.Consistent g) (hs : g.NoParallel)
    (hflow : ∀ u e, u < g.n → e < g.len u → (g.edge u e).flow = 0) (ho : ∀ c, IsOrder (ord c)) (bfs : Nat) (hb : bfs ≤ 1)
    (terminals : List Nat) (hn : terminals.Nodup) (hlt : ∀ t ∈ terminals, t < g.n) :
    ∃ label s, Driver.splitComponents g terminals.length (surround g.toGraph bfs terminals) ord = some (label, s) ∧
      ∀ results : List (List Nat × Nat), List.Forall₂ (fun q r => q.problem.Optimum q.ots r.2) s.parts results →
        ∃ c sol, Driver.multicut g terminals.length (surround g.toGraph bfs terminals) ord results = some (c, sol) ∧
          IsMinMulticut g.n g.toGraph.wt terminals c := by
  have hv := MGraph.consistent_iff.1 hg
  have hlt' : ∀ t ∈ terminals, t < g.toGraph.n := by rw [MGraph.toGraph_n]; exact hlt
  obtain ⟨_, h2, _⟩ := C48_areas g.toGraph hv.wf bfs terminals hn hlt'
  obtain ⟨label, s, s1, s2⟩ := Driver.C46_value g terminals.length (surround g.toGraph bfs terminals) ord hg hs hflow
    (fun v _ t ht => by
      obtain ⟨_, x, hx, _⟩ := h2 v t ht
      exact (List.getElem?_eq_some_iff.1 hx).1) ho
  refine ⟨label, s, s1, fun results hr => ?_⟩
  obtain ⟨c, sol, e1, e2⟩ := s2 results hr
  exact ⟨c, sol, e1, (keeping_iff hb hn hlt c).1 e2⟩

/-- If a terminal is given twice, one of the two numbers has no vertex. -/
theorem C48_repeated (G : Graph) (bfs : Nat) (hb : bfs ≤ 1) (terminals : List Nat) (i j t : Nat) (hij : i < j)
    (hi : terminals[i]? = some t) (hj : terminals[j]? = some t) : ∀ v, surround G bfs terminals v ≠ some i := by
  intro v hv
  unfold surround at hv
  rw [if_neg (by omega)] at hv
  obtain ⟨h1, h2⟩ := start_last terminals v i hv
  rw [hi] at h1
  have := Option.some.inj h1
  subst this
  exact h2 j hij hj

/-- A path with seven vertices. -/
def path7 : Graph := ⟨[[(1, 1)], [(0, 1), (2, 1)], [(1, 1), (3, 1)], [(2, 1), (4, 1)], [(3, 1), (5, 1)], [(4, 1), (6, 1)], [(5, 1)]]⟩

theorem path7_wf : path7.WF := Graph.wf_of_check (by decide +kernel)

/-- The hypotheses of `C48_areas` are met; the area of the first terminal cannot grow to four vertices, because it is
enclosed by the others. -/
example : [1, 3].Nodup ∧ (∀ t ∈ [1, 3], t < path7.n) ∧
    (List.range 7).map (surround path7 4 [1, 3]) = [some 0, some 0, some 0, some 1, some 1, some 1, some 1] := by
  decide +kernel

/-- A terminal that is given twice leaves a number without a terminal, also with areas. -/
example : (List.range 7).map (surround path7 1 [1, 1]) = [none, some 1, none, none, none, none, none] ∧
    (List.range 7).map (surround path7 2 [1, 1]) = [some 0, some 1, some 1, none, none, none, none] := by
  decide +kernel

/-! ### C49 -/

/-- The number of vertices in the component of `r`. -/
noncomputable def componentSize (G : Graph) (r : Nat) : Nat :=
  by classical exact ((Finset.range G.n).filter fun v => ∃ k, Walk G r v k).card

/-- Every terminal is as far as possible from the random start vertex and the earlier terminals. -/
theorem C49_distance (G : Graph) (hG : G.WF) (r : Nat) (hr : r < G.n) (k : Nat) :
    (distant G r k).length = k ∧ ∀ i t, (distant G r k)[i]? = some t →
      t < G.n ∧ ∃ d, IsDistFrom G (r :: (distant G r k).take i) t d ∧
        ∀ v d', IsDistFrom G (r :: (distant G r k).take i) v d' → d' ≤ d := by
  refine ⟨distant_length G r k, fun i t hit => ?_⟩
  have hi : i < k := by
    have := (List.getElem?_eq_some_iff.1 hit).1
    rwa [distant_length] at this
  obtain ⟨h1, h2⟩ := distant_get (G := G) (r := r) hi
  rw [h1] at hit
  have ht := (Option.some.inj hit).symm
  subst ht
  rw [h2]
  refine ⟨?_, farthest_spec hG (by simp)⟩
  obtain ⟨l, hl⟩ := distant_reach hG r k _ (List.mem_of_getElem? h1)
  exact walk_lt hG hr hl

/-- There are as many different terminals as wanted, if the component of the random start vertex has more vertices than
that; the start vertex is not among them. -/
theorem C49_distinct_partial (G : Graph) (hG : G.WF) (r k : Nat) (hk : k < componentSize G r) : (r :: distant G r k).Nodup := by
  refine distant_nodup hG r k _ ?_ hk
  intro v hv
  classical
  simp only [Finset.mem_filter] at hv
  exact hv.2

/-- All terminals are in the component of the random start vertex, so that more terminals than vertices of this component
repeat, whatever the number of vertices of the graph is. -/
theorem C49_repeats (G : Graph) (hG : G.WF) (r : Nat) (hr : r < G.n) (k : Nat) :
    (∀ t ∈ distant G r k, ∃ l, Walk G r t l) ∧ (componentSize G r < k → ¬ (distant G r k).Nodup) := by
  refine ⟨distant_reach hG r k, fun hk hn => ?_⟩
  classical
  have hsub : (distant G r k).toFinset ⊆ (Finset.range G.n).filter fun v => ∃ k, Walk G r v k := by
    intro v hv
    obtain ⟨l, hl⟩ := distant_reach hG r k v (List.mem_toFinset.1 hv)
    exact Finset.mem_filter.2 ⟨Finset.mem_range.2 (walk_lt hG hr hl), l, hl⟩
  have h1 := Finset.card_le_card hsub
  rw [List.toFinset_card_of_nodup hn, distant_length] at h1
  have h2 : componentSize G r = ((Finset.range G.n).filter fun v => ∃ k, Walk G r v k).card := by
    unfold componentSize
    congr
  omega

/-- The search for a terminal ends. -/
theorem C49_loop_ends (G : Graph) (hG : G.WF) (starts : List Nat) (hs : starts ≠ []) (N : Nat) (hN : G.n + starts.length ≤ N) :
    ((searchStep G)^[N] (searchInit starts)).queue = [] := by
  obtain ⟨δ, hδ⟩ := exists_dists G starts
  exact (search_end hG hs hδ hN).2.2

/-- The hypothesis of `C49_distinct_partial` is met. -/
example : 4 < componentSize path7 2 ∧ distant path7 2 4 = [6, 4, 0, 5] := by
  refine ⟨?_, by decide +kernel⟩
  classical
  have hall : (Finset.range 7) ⊆ ((Finset.range path7.n).filter fun v => ∃ k, Walk path7 2 v k) := by
    intro v hv
    have hv' := Finset.mem_range.1 hv
    refine Finset.mem_filter.2 ⟨Finset.mem_range.2 hv', ?_⟩
    have w2 : Walk path7 2 2 0 := .nil
    have w1 : Walk path7 2 1 1 := w2.snoc (by decide +kernel)
    have w0 : Walk path7 2 0 2 := w1.snoc (by decide +kernel)
    have w3 : Walk path7 2 3 1 := w2.snoc (by decide +kernel)
    have w4 : Walk path7 2 4 2 := w3.snoc (by decide +kernel)
    have w5 : Walk path7 2 5 3 := w4.snoc (by decide +kernel)
    have w6 : Walk path7 2 6 4 := w5.snoc (by decide +kernel)
    match v, hv' with
    | 0, _ => exact ⟨_, w0⟩
    | 1, _ => exact ⟨_, w1⟩
    | 2, _ => exact ⟨_, w2⟩
    | 3, _ => exact ⟨_, w3⟩
    | 4, _ => exact ⟨_, w4⟩
    | 5, _ => exact ⟨_, w5⟩
    | 6, _ => exact ⟨_, w6⟩
  have := Finset.card_le_card hall
  rw [Finset.card_range] at this
  have h2 : componentSize path7 2 = ((Finset.range path7.n).filter fun v => ∃ k, Walk path7 2 v k).card := by
    unfold componentSize
    congr
  omega

/-- A graph with six vertices and two components: the random vertex 0 gives the same terminal three times, so that the
multiterminal cut has one terminal only, although a cut between three terminals of the other component is not zero. -/
theorem C49_distinct_false :
    distant ⟨[[(1, 5)], [(0, 5)], [(3, 1), (5, 1)], [(2, 1), (4, 1)], [(3, 1), (5, 1)], [(4, 1), (2, 1)]]⟩ 0 3 = [1, 1, 1] ∧
    (List.range 6).map (surround ⟨[[(1, 5)], [(0, 5)], [(3, 1), (5, 1)], [(2, 1), (4, 1)], [(3, 1), (5, 1)], [(4, 1), (2, 1)]]⟩ 0 [1, 1, 1]) =
      [none, some 2, none, none, none, none] := by
  decide +kernel

/-! ### C51: terminals given by the user -/

/-- Terminals given by number: the numbers that denote vertices, in their order; negative and too large numbers and text
that is not a number are left out. -/
theorem C51_numbers (n : Nat) (hn : n ≤ 2 ^ 31) (args : List (Option Int)) (hr : ∀ x, some x ∈ args → -2 ^ 31 ≤ x ∧ x < 2 ^ 31) :
    byID n args = (args.filterMap fun a => a.bind fun x => if 0 ≤ x ∧ x < n then some x.toNat else none) := by
  unfold byID
  refine List.filterMap_congr fun a ha => ?_
  cases a with
  | none => rfl
  | some x =>
    show (if (x % 2 ^ 32).toNat < n then some (x % 2 ^ 32).toNat else none) = (if 0 ≤ x ∧ x < n then some x.toNat else none)
    obtain ⟨h1, h2⟩ := hr x ha
    by_cases h0 : 0 ≤ x
    · have e : x % 2 ^ 32 = x := Int.emod_eq_of_lt h0 (by omega)
      rw [e]
      by_cases hx : x < n
      · rw [if_pos (by omega), if_pos ⟨h0, hx⟩]
      · rw [if_neg (by omega), if_neg (by omega)]
    · rw [if_neg (by omega), if_neg (by omega)]

theorem order_inner (n size i : Nat) (v o : List Nat) (m : Nat → Option Nat) (x : Nat) : ∀ c,
    (List.range c).foldl (fun m x => if v.getD x 0 = i ∧ o.getD x 0 ≤ size then update m x (some i) else m) m x =
      if x < c ∧ v.getD x 0 = i ∧ o.getD x 0 ≤ size then some i else m x := by
  intro c
  induction c with
  | zero => simp
  | succ c ih =>
    rw [List.range_succ, List.foldl_append]
    simp only [List.foldl_cons, List.foldl_nil]
    by_cases hc : v.getD c 0 = i ∧ o.getD c 0 ≤ size
    · rw [if_pos hc]
      by_cases hxc : x = c
      · subst hxc
        rw [update_self, if_pos ⟨by omega, hc⟩]
      · rw [update_of_ne hxc, ih]
        by_cases hx : x < c ∧ v.getD x 0 = i ∧ o.getD x 0 ≤ size
        · rw [if_pos hx, if_pos ⟨by omega, hx.2⟩]
        · rw [if_neg hx, if_neg (fun h => hx ⟨by omega, h.2⟩)]
    · rw [if_neg hc, ih]
      by_cases hx : x < c ∧ v.getD x 0 = i ∧ o.getD x 0 ≤ size
      · rw [if_pos hx, if_pos ⟨by omega, hx.2⟩]
      · rw [if_neg hx, if_neg]
        rintro ⟨h1, h2⟩
        by_cases hxc : x = c
        · subst hxc; exact hc h2
        · exact hx ⟨by omega, h2⟩

/-- Terminals given by a file with blocks and a file with positions: a vertex belongs to the terminal of its block, if its
position in the block is small enough.  Both files need an entry for every vertex; otherwise a vector is read out of
bounds. -/
theorem C51_order (n k size : Nat) (v o : List Nat) :
    (n ≤ v.length ∧ n ≤ o.length → ∃ m, order n k size v o = some m ∧
      ∀ x i : Nat, m x = some i ↔ x < n ∧ i < k ∧ v[x]? = some i ∧ ∃ p, o[x]? = some p ∧ p ≤ size) ∧
    (v.length < n ∨ o.length < n → order n k size v o = none) := by
  constructor
  · intro hl
    unfold order
    rw [if_pos hl]
    refine ⟨_, rfl, ?_⟩
    intro x i
    have key : ∀ c, (List.range c).foldl (fun m i => (List.range n).foldl
        (fun m x => if v.getD x 0 = i ∧ o.getD x 0 ≤ size then update m x (some i) else m) m) noTerminal x =
        if x < n ∧ v.getD x 0 < c ∧ o.getD x 0 ≤ size then some (v.getD x 0) else none := by
      intro c
      induction c with
      | zero => simp [noTerminal]
      | succ c ih =>
        rw [List.range_succ, List.foldl_append]
        simp only [List.foldl_cons, List.foldl_nil]
        rw [order_inner n size c v o _ x n, ih]
        by_cases h1 : x < n ∧ v.getD x 0 = c ∧ o.getD x 0 ≤ size
        · rw [if_pos h1, if_pos ⟨h1.1, by omega, h1.2.2⟩, h1.2.1]
        · rw [if_neg h1]
          by_cases h2 : x < n ∧ v.getD x 0 < c ∧ o.getD x 0 ≤ size
          · rw [if_pos h2, if_pos ⟨h2.1, by omega, h2.2.2⟩]
          · rw [if_neg h2, if_neg]
            rintro ⟨h3, h4, h5⟩
            by_cases h6 : v.getD x 0 = c
            · exact h1 ⟨h3, h6, h5⟩
            · exact h2 ⟨h3, by omega, h5⟩
    rw [key k]
    by_cases hx : x < n
    · have hv : v[x]? = some (v.getD x 0) := by
        rw [List.getD_eq_getElem?_getD, List.getElem?_eq_getElem (by omega)]; rfl
      have ho : o[x]? = some (o.getD x 0) := by
        rw [List.getD_eq_getElem?_getD, List.getElem?_eq_getElem (by omega)]; rfl
      rw [hv, ho]
      generalize v.getD x 0 = a
      generalize o.getD x 0 = b
      constructor
      · intro h
        by_cases h1 : x < n ∧ a < k ∧ b ≤ size
        · rw [if_pos h1] at h
          have := Option.some.inj h
          subst this
          exact ⟨hx, h1.2.1, rfl, b, rfl, h1.2.2⟩
        · rw [if_neg h1] at h; cases h
      · rintro ⟨_, h1, h2, p, h3, h4⟩
        have e1 := Option.some.inj h2
        have e2 := Option.some.inj h3
        subst e1 e2
        rw [if_pos ⟨hx, h1, h4⟩]
    · constructor
      · intro h
        rw [if_neg (fun h1 => hx h1.1)] at h; cases h
      · exact fun h => absurd h.1 hx
  · intro hl
    unfold order
    rw [if_neg (by omega)]

/-- Terminals given by a file with blocks: vertices with the block `k` belong to no terminal, all others to the terminal of
their block.  This is below the number of terminals exactly if the file has no numbers above `k`. -/
theorem C51_preset_partial (k : Nat) (v : List Nat) :
    (∀ (x i : Nat), (preset k v)[x]? = some (some i) ↔ v[x]? = some i ∧ i ≠ k) ∧
    (∀ x : Nat, (preset k v)[x]? = some none ↔ v[x]? = some k) ∧
    ((∀ i, some i ∈ preset k v → i < k) ↔ ∀ i ∈ v, i ≤ k) := by
  unfold preset
  refine ⟨fun x i => ?_, fun x => ?_, ?_⟩
  · rw [List.getElem?_map]
    cases h : v[x]? with
    | none => simp
    | some a =>
      by_cases ha : a = k
      · simp only [Option.map_some, Option.some.injEq, if_pos ha]
        constructor
        · intro h; cases h
        · rintro ⟨rfl, h2⟩; exact absurd ha h2
      · simp only [Option.map_some, Option.some.injEq, if_neg ha]
        constructor
        · rintro rfl; exact ⟨rfl, ha⟩
        · exact fun h => h.1
  · rw [List.getElem?_map]
    cases h : v[x]? with
    | none => simp
    | some a =>
      by_cases ha : a = k
      · simp [ha]
      · simp [ha]
  · constructor
    · intro h i hi
      by_contra hc
      have := h i (List.mem_map.2 ⟨i, hi, if_neg (by omega)⟩)
      omega
    · intro h i hi
      obtain ⟨a, ha, he⟩ := List.mem_map.1 hi
      by_cases hk : a = k
      · rw [if_pos hk] at he; cases he
      · rw [if_neg hk] at he
        have := Option.some.inj he
        subst this
        have := h a ha
        omega

/-- A number above `k` in the file with blocks makes the split into components read out of bounds. -/
theorem C51_out_of_bounds (g : MGraph) (k : Nat) (v : List Nat) (hl : v.length = g.n) (i : Nat) (hi : i ∈ v) (hk : k < i)
    (ord : Nat → Nat → List Nat → List Nat) : Driver.splitComponents g k (fun x => ((preset k v)[x]?).join) ord = none := by
  obtain ⟨x, hx⟩ := List.mem_iff_getElem?.1 hi
  have hxl := (List.getElem?_eq_some_iff.1 hx).1
  have h1 := ((C51_preset_partial k v).1 x i).2 ⟨hx, by omega⟩
  unfold Driver.splitComponents
  cases sccMutable g none with
  | none => rfl
  | some r =>
    show (if _ then _ else _) = _
    rw [if_neg]
    intro hall
    have := hall x (by omega) i (by show i ∈ ((preset k v)[x]?).join; rw [h1]; rfl)
    omega

example : byID 5 [some 3, some (-1), none, some 0, some 5] = [3, 0] ∧ preset 2 [0, 2, 1] = [some 0, none, some 1] ∧
    (order 4 2 1 [0, 1, 0, 7] [1, 1, 2, 1]).map (fun m => (List.range 4).map m) = some [some 0, some 1, none, none] := by
  decide +kernel

end Terminals
end VieCut
