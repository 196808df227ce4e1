import Verif.Model.ParallelMinCut
import Verif.Props.ParallelCapforest
import Verif.Props.NOI

/-!
# C29: the parallel exact minimum cut

`exact_parallel_minimum_cut` returns the minimum cut if in no round of parallel CAPFOREST the race of `C29_race_unsound` happens,
whatever else the threads do and however many of their unions are lost.
-/

namespace VieCut
namespace PCF

variable {γ : Type} [GraphLike γ] {good : γ → Prop}

theorem Outcome.safe {H : Graph} (hH : H.WF) {L : Nat} (hL : 2 * (L + 1) < 2 ^ 32) {uf : UF} (h : Outcome H L uf) {a b : Nat}
    (hab : uf.root a = uf.root b) : Safe H L a b := by
  obtain ⟨-, -, starts, sched, hs, hag, hl⟩ := h
  exact Linked.least (Safe.equivalence H L) (fun x y hxy S hS => C29_safe_partial H hH L hL starts hs false sched hag _ hxy S hS)
    (hl a b hab)

/-- Everything was merged under a valid bound. -/
theorem _root_.VieCut.NOIInv.final_merged {G : Graph} {save : Bool} {s : NOIState γ} (h : NOIInv good G save s) {uf : UF} (hi : uf.Inv)
    (hsz : uf.size = s.view.n) (hsafe : ∀ {a b}, uf.root a = uf.root b → Safe s.view s.mincut a b) (hc : uf.cnt ≤ 1) :
    IsMinCut G.n G.wt s.mincut := by
  refine ⟨h.attained, ?_⟩
  intro S hS
  by_contra hlt
  have hsat := h.sat S (by omega)
  obtain ⟨⟨u, hu, hSu⟩, ⟨v, hv, hSv⟩⟩ := hS
  have hone : ∀ p q, p < s.view.n → q < s.view.n → uf.root p = uf.root q := by
    intro p q hp hq
    have hcard : ((Finset.range uf.size).image uf.root).card ≤ 1 := by rw [UF.image_root_card hi]; exact hc
    exact Finset.card_le_one.1 hcard _ (Finset.mem_image.2 ⟨p, Finset.mem_range.2 (by omega), rfl⟩) _
      (Finset.mem_image.2 ⟨q, Finset.mem_range.2 (by omega), rfl⟩)
  -- `S` is the pull-back of a cut `T` of the last graph
  choose g hg using h.surj
  let T : Nat → Bool := fun p => if hp : p < s.view.n then S (g p hp) else false
  have hT : ∀ x, x < G.n → T (coarseID s.maps x) = S x := by
    intro x hx
    have hp := h.lt x hx
    show (if hp : coarseID s.maps x < s.view.n then S (g _ hp) else false) = S x
    rw [dif_pos hp]
    exact hsat _ _ (hg _ hp).1 hx (hg _ hp).2
  have hval : cutValue s.view.n s.view.wt T = cutValue G.n G.wt S := by
    rw [h.cut]
    exact cutValue_congr hT
  have := hsafe (hone _ _ (h.lt u hu) (h.lt v hv)) T (by rw [hT u hu, hT v hv, hSu, hSv]; simp)
  omega

theorem parLoop_spec {G : Graph} (hG : G.WF) (hb : G.totalWeight < 2 ^ 64) (hd : 2 * (G.minDegree + 1) < 2 ^ 32) {cfg : NOICfg}
    (hf : CfgFits cfg G) {c : Nat → γ → UF → γ × (Nat → Nat)} (hc : ∀ l, ContractOK good (c l)) {parUF : Nat → Graph → Nat → UF}
    (hpar : ∀ l H b, H.WF → 0 < H.n → Outcome H b (parUF l H b)) (f : Nat) :
    ∀ (lvl : Nat) (s : NOIState γ), NOIInv good G cfg.save s → s.view.n ≤ f →
    NOIInv good G cfg.save (parLoop cfg c parUF f lvl s) ∧ IsMinCut G.n G.wt (parLoop cfg c parUF f lvl s).mincut ∧
    ∀ k, parLoop cfg c parUF (f + k) lvl s = parLoop cfg c parUF f lvl s := by
  induction f with
  | zero =>
    intro lvl s h hs
    refine ⟨h, h.final (by omega), fun k => ?_⟩
    cases k with
    | zero => rfl
    | succ k =>
      show (if _ then _ else _) = s
      rw [if_neg (by omega)]
  | succ f ih =>
    intro lvl s h hs
    by_cases hcond : s.view.n > 2 ∧ s.mincut > 0
    · have hL : 2 * (s.mincut + 1) < 2 ^ 32 := by have := h.le; omega
      -- the union-find that is contracted
      have huf : ∃ uf : UF, uf.Inv ∧ uf.size = s.view.n ∧ (∀ {a b}, uf.root a = uf.root b → Safe s.view s.mincut a b) ∧
          uf.cnt < s.view.n ∧
          parStep cfg c parUF lvl s = if uf.cnt > 1 then some (VieCut.coarsen cfg.save (c lvl) uf s) else none := by
        have ho := hpar lvl s.view s.mincut h.wf (by omega)
        by_cases hn : (parUF lvl s.view s.mincut).cnt = s.view.n
        · obtain ⟨K, ⟨lp⟩, hK⟩ := selectPQ_lawful (h.fits hG hf)
          have hstart : cfg.rnd lvl % s.view.n < s.view.n := Nat.mod_lt _ (by omega)
          have hinv := @capforest_inv _ _ _ cfg.limited s.mincut (cfg.rnd lvl % s.view.n) lp h.wf hK hstart
          have hprog := @capforest_progress _ _ _ cfg.limited s.mincut (cfg.rnd lvl % s.view.n) lp h.wf hK hstart hcond.2
            (h.mindeg (by omega))
          refine ⟨_, hinv.1, hinv.2, @capforest_safe _ _ _ cfg.limited s.mincut (cfg.rnd lvl % s.view.n) lp h.wf hK hstart,
            hprog, ?_⟩
          unfold parStep
          dsimp only
          rw [if_pos hn]
        · refine ⟨_, ho.1, ho.2.1, ho.safe h.wf hL, ?_, ?_⟩
          · have h1 : (parUF lvl s.view s.mincut).cnt ≤ s.view.n := by
              rw [← ho.2.1]
              have := ho.1.bd 0
              omega
            omega
          · unfold parStep
            dsimp only
            rw [if_neg hn]
      obtain ⟨uf, hi, hsz, hsafe, hlt, hstep⟩ := huf
      have hloop : ∀ m, parLoop cfg c parUF (m + 1) lvl s =
          if uf.cnt > 1 then parLoop cfg c parUF m (lvl + 1) (VieCut.coarsen cfg.save (c lvl) uf s) else s := by
        intro m
        conv_lhs => unfold parLoop
        rw [if_pos hcond, hstep]
        by_cases h1 : uf.cnt > 1
        · rw [if_pos h1, if_pos h1]
        · rw [if_neg h1, if_neg h1]
      by_cases h1 : uf.cnt > 1
      · obtain ⟨k1, k2⟩ := h.coarsen hG hb (hc lvl) hi hsz hsafe
        obtain ⟨r1, r2, r3⟩ := ih (lvl + 1) _ k1 (by rw [k2]; omega)
        rw [hloop, if_pos h1]
        refine ⟨r1, r2, fun k => ?_⟩
        rw [show f + 1 + k = (f + k) + 1 by omega, hloop, if_pos h1]
        exact r3 k
      · rw [hloop, if_neg h1]
        refine ⟨h, h.final_merged hi hsz hsafe (by omega), fun k => ?_⟩
        rw [show f + 1 + k = (f + k) + 1 by omega, hloop, if_neg h1]
    · have hloop : ∀ m, parLoop cfg c parUF (m + 1) lvl s = s := by
        intro m
        conv_lhs => unfold parLoop
        rw [if_neg hcond]
      rw [hloop]
      refine ⟨h, h.final hcond, fun k => ?_⟩
      rw [show f + 1 + k = (f + k) + 1 by omega, hloop]

theorem NOIInv_bound {x : γ} (hx : good x) {G : Graph} (hGx : GraphLike.view x = G) (hG : G.WF) (save : Bool) {bound : Nat}
    (inCut0 : Nat → Bool) (hatt : ∃ S, ProperCut G.n S ∧ cutValue G.n G.wt S = bound) (hle : bound ≤ G.minDegree)
    (hfl : save = true → ProperCut G.n inCut0 ∧ cutValue G.n G.wt inCut0 = bound) :
    NOIInv good G save { cur := x, maps := [], mincut := bound, inCut := inCut0 } := by
  subst hGx
  refine ⟨hx, hG, fun u hu => hu, fun p hp => ⟨p, hp, rfl⟩, fun T => rfl, fun _ u hu => le_trans hle (Graph.minDegree_le hu), ?_, hatt,
    hfl, hle⟩
  intro S _ u v _ _ h
  have : u = v := h
  rw [this]

/-- C29 for the whole algorithm, without the race: started with a bound that some cut attains and that is at most the minimum
degree (which `viecut` returns, `C12_viecut`), the parallel algorithm returns the value of a minimum cut, for all outcomes of
the parallel rounds.  With `save_cut` the flags left on the input are a minimum cut, if those left by `viecut` are a cut
of the value it returned.  Missing from the full property: rounds with the race. -/
theorem C29_exact_partial (G : Graph) (hG : G.WF) (hb : G.totalWeight < 2 ^ 64)
    (hd : 2 * (G.minDegree + 1) < 2 ^ 32) (cfg : NOICfg)
    (hfit : PQFits cfg.kind G.n (if cfg.limited then G.minDegree else G.totalWeight))
    (ord : Nat → Nat → List Nat → List Nat) (hord : ∀ l, IsOrder (ord l)) (parUF : Nat → Graph → Nat → UF)
    (hpar : ∀ lvl H bound, H.WF → 0 < H.n → Outcome H bound (parUF lvl H bound))
    (bound : Nat) (inCut0 : Nat → Bool) (hatt : ∃ S, ProperCut G.n S ∧ cutValue G.n G.wt S = bound) (hle : bound ≤ G.minDegree)
    (hfl : cfg.save = true → ProperCut G.n inCut0 ∧ cutValue G.n G.wt inCut0 = bound) :
    let s := parFinal cfg (fun l H uf => fromUnionFind H uf (ord l)) parUF G bound inCut0
    IsMinCut G.n G.wt s.mincut ∧ (cfg.save = true → ProperCut G.n s.inCut ∧ cutValue G.n G.wt s.inCut = s.mincut) := by
  intro s
  obtain ⟨h1, h2, -⟩ := parLoop_spec hG hb hd hfit (fun l => fromUnionFind_ok (hord l)) hpar G.n 0 _
    (NOIInv_bound (good := Graph.WF) (x := G) hG rfl hG cfg.save inCut0 hatt hle hfl) (le_refl _)
  exact ⟨h2, h1.flags⟩

/-- The loop stops by itself: more than `n` iterations change nothing. -/
theorem C29_driver_terminates (G : Graph) (hG : G.WF) (hb : G.totalWeight < 2 ^ 64)
    (hd : 2 * (G.minDegree + 1) < 2 ^ 32) (cfg : NOICfg)
    (hfit : PQFits cfg.kind G.n (if cfg.limited then G.minDegree else G.totalWeight))
    (ord : Nat → Nat → List Nat → List Nat) (hord : ∀ l, IsOrder (ord l)) (parUF : Nat → Graph → Nat → UF)
    (hpar : ∀ lvl H bound, H.WF → 0 < H.n → Outcome H bound (parUF lvl H bound))
    (bound : Nat) (inCut0 : Nat → Bool) (hatt : ∃ S, ProperCut G.n S ∧ cutValue G.n G.wt S = bound) (hle : bound ≤ G.minDegree)
    (hfl : cfg.save = true → ProperCut G.n inCut0 ∧ cutValue G.n G.wt inCut0 = bound) (k : Nat) :
    parLoop cfg (fun l H uf => fromUnionFind H uf (ord l)) parUF (G.n + k) 0 ⟨G, [], bound, inCut0⟩ =
      parFinal cfg (fun l H uf => fromUnionFind H uf (ord l)) parUF G bound inCut0 :=
  (parLoop_spec hG hb hd hfit (fun l => fromUnionFind_ok (hord l)) hpar G.n 0 _
    (NOIInv_bound (good := Graph.WF) (x := G) hG rfl hG cfg.save inCut0 hatt hle hfl) (le_refl _)).2.2 k

/-! ### The hypotheses are met -/

/-- The union-find after the requests of a run whose ends are vertices. -/
def ufOf (H : Graph) (bound : Nat) (starts : Nat → Nat) (sched : List Nat) : UF :=
  UF.run H.n (((run H bound false (start (queue bound) starts) sched).reqs.filter fun p => p.1 < H.n ∧ p.2 < H.n).map
    fun p => .union p.1 p.2)

theorem outcome_ufOf {H : Graph} {bound : Nat} {starts : Nat → Nat} {sched : List Nat} (hs : ∀ i, starts i < H.n)
    (hag : ReadsAgree (P := queue bound) H bound false starts sched) : Outcome H bound (ufOf H bound starts sched) := by
  have hreq : ∀ l : List (Nat × Nat), UF.reqs (l.map fun p => UF.Op.union p.1 p.2) = l := by
    intro l
    induction l with
    | nil => rfl
    | cons a l ih =>
      show (a.1, a.2) :: UF.reqs (l.map _) = a :: l
      rw [ih]
  obtain ⟨h1, h2⟩ := UF.run_rep H.n (((run H bound false (start (queue bound) starts) sched).reqs.filter
    fun p => p.1 < H.n ∧ p.2 < H.n).map fun p => .union p.1 p.2) (by
      intro o ho
      obtain ⟨p, hp, rfl⟩ := List.mem_map.1 ho
      have := (List.mem_filter.1 hp).2
      simpa [UF.Op.ok] using this)
  refine ⟨h1.inv, h2, starts, sched, hs, hag, fun a b hab => ?_⟩
  have := (h1.iff a b).1 hab
  rw [hreq] at this
  exact Linked.mono (fun p hp => (List.mem_filter.1 hp).1) this

/-- One thread that runs alone, in every round. -/
def soloUF : Nat → Graph → Nat → UF := fun _ H bound => ufOf H bound (fun i => i % H.n) (List.replicate 27 0)

/-- The rounds of `soloUF` merge vertices of `raceGraph`, whose minimum cut 2 is found from the bound 3. -/
example : (∀ lvl H bound, H.WF → 0 < H.n → Outcome H bound (soloUF lvl H bound)) ∧
    (soloUF 0 raceGraph 3).cnt = 3 ∧ raceGraph.minDegree = 3 ∧
    cutValue raceGraph.n raceGraph.wt (fun v => decide (v = 0)) = 3 ∧
    (parFinal ⟨.bqueue, true, true, fun _ => 0⟩ (fun _ H uf => fromUnionFind H uf (fun _ l => l)) soloUF raceGraph 3
      (fun v => decide (v = 0))).mincut = 2 :=
  ⟨fun _ H bound _ h0 => outcome_ufOf (fun i => Nat.mod_lt _ h0) (readsAgree_one_thread H bound _ false 0 27),
    by decide +kernel, by decide +kernel, by decide +kernel, by decide +kernel⟩

end PCF
end VieCut
