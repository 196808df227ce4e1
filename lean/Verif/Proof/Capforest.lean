import Verif.Model.Capforest
import Verif.Proof.Cut
import Verif.Proof.UnionFind

namespace VieCut
open Finset

/-- Sum of the weights of the edges of `l` that lead to `u`. -/
def sumTo (l : List (Nat × Nat)) (u : Nat) : Nat := ((l.filter (fun e => e.1 == u)).map (·.2)).sum

theorem sumTo_cons (e : Nat × Nat) (l : List (Nat × Nat)) (u : Nat) :
    sumTo (e :: l) u = (if e.1 = u then e.2 else 0) + sumTo l u := by
  unfold sumTo
  by_cases h : e.1 = u <;> simp [h]

theorem wt_eq_sumTo (G : Graph) (u v : Nat) : G.wt u v = sumTo (G.edges u) v := rfl

def keyOf (limited : Bool) (L r : Nat) : Nat := if limited then min r L else r

/-- Abstract queue content determined by the other variables. -/
def content (limited : Bool) (L start : Nat) (vis seen : Nat → Bool) (r : Nat → Nat) (u : Nat) : Option Nat :=
  if vis u then none else if seen u then some (keyOf limited L (r u)) else if u = start then some 0 else none

section
variable {P : PQ} {N K : Nat}

structure Core (lp : P.Lawful N K) (limited : Bool) (L start : Nat) (vis : Nat → Bool)
    (s : CFState P) (ps : List (Nat × Nat)) : Prop where
  vis_eq : s.visited = vis
  pq : lp.Rel s.pq (content limited L start vis s.seen s.r)
  uf : UF.Rep s.uf ps
  size : s.uf.size = N

/-- The pair requested (if any) when scanning edge `e`. -/
def newPair (limited : Bool) (L cur : Nat) (r : Nat → Nat) (e : Nat × Nat) : List (Nat × Nat) :=
  if (r e.1 < L ∨ (limited = true ∧ L = 0)) ∧ L ≤ r e.1 + e.2 then [(cur, e.1)] else []

theorem scanEdge_visited (limited : Bool) (L cur : Nat) (s : CFState P) (e : Nat × Nat)
    (h : s.visited e.1 = true) : scanEdge P limited L cur s e = s := by
  unfold scanEdge scanEdgeLimited scanEdgeUnlimited
  cases limited <;> simp [h]

theorem toGain_of_lt {k : Nat} (h : k < 2 ^ 32) : toGain k = k := Nat.mod_eq_of_lt h

theorem scanEdge_core (lp : P.Lawful N K) (hK : K < 2 ^ 32) {limited : Bool} {L start cur : Nat}
    {vis : Nat → Bool} {s : CFState P} {ps : List (Nat × Nat)} (h : Core lp limited L start vis s ps)
    (hcur : cur < N) (hstart : vis start = true) {e : Nat × Nat} (he : e.1 < N)
    (hv : vis e.1 = false) (hk : keyOf limited L (s.r e.1 + e.2) ≤ K) :
    Core lp limited L start vis (scanEdge P limited L cur s e) (ps ++ newPair limited L cur s.r e) ∧
    (scanEdge P limited L cur s e).r = Function.update s.r e.1 (s.r e.1 + e.2) ∧
    (scanEdge P limited L cur s e).seen = Function.update s.seen e.1 true := by
  have hvs : s.visited e.1 = false := by rw [h.vis_eq]; exact hv
  have hne : e.1 ≠ start := by rintro he; rw [he] at hv; simp_all
  have hun := (UF.union_spec h.uf (l := cur) (r := e.1) (by rw [h.size]; exact hcur)
    (by rw [h.size]; exact he))
  -- the union-find part
  have huf : ∀ b : Bool, (b = true ↔ ((s.r e.1 < L ∨ (limited = true ∧ L = 0)) ∧ L ≤ s.r e.1 + e.2)) →
      UF.Rep (if b then (s.uf.union cur e.1).2 else s.uf) (ps ++ newPair limited L cur s.r e) ∧
      (if b then (s.uf.union cur e.1).2 else s.uf).size = N := by
    intro b hb
    unfold newPair
    cases b with
    | true =>
      rw [if_pos (hb.1 rfl), if_pos rfl]
      exact ⟨hun.1, by rw [hun.2.2, h.size]⟩
    | false =>
      have : ¬ ((s.r e.1 < L ∨ (limited = true ∧ L = 0)) ∧ L ≤ s.r e.1 + e.2) := by
        intro hc; exact absurd (hb.2 hc) (by simp)
      rw [if_neg this]
      simpa using ⟨h.uf, h.size⟩
  -- the queue part
  have hq_ins : s.seen e.1 = false →
      lp.Rel (P.insert s.pq e.1 (keyOf limited L (s.r e.1 + e.2)))
        (content limited L start vis (Function.update s.seen e.1 true)
          (Function.update s.r e.1 (s.r e.1 + e.2))) := by
    intro hs
    have := lp.insert s.pq _ e.1 _ h.pq he hk (by simp [content, hv, hs, hne])
    convert this using 1
    funext u
    by_cases hu : u = e.1
    · subst hu; simp [content, hv]
    · simp [content, hu]
  have hq_inc : s.seen e.1 = true →
      lp.Rel (P.increaseKey s.pq e.1 (keyOf limited L (s.r e.1 + e.2)))
        (content limited L start vis (Function.update s.seen e.1 true)
          (Function.update s.r e.1 (s.r e.1 + e.2))) := by
    intro hs
    have := lp.increaseKey s.pq _ e.1 (keyOf limited L (s.r e.1 + e.2)) (keyOf limited L (s.r e.1))
      h.pq he hk (by simp [content, hv, hs]) (by unfold keyOf; split <;> omega)
    convert this using 1
    funext u
    by_cases hu : u = e.1
    · subst hu; simp [content, hv]
    · simp [content, hu]
  have hseen : s.seen e.1 = true → Function.update s.seen e.1 true = s.seen := by
    intro hs
    funext u
    by_cases hu : u = e.1
    · subst hu; simp [hs]
    · simp [hu]
  have hq_same : s.seen e.1 = true → keyOf limited L (s.r e.1 + e.2) = keyOf limited L (s.r e.1) →
      lp.Rel s.pq (content limited L start vis s.seen (Function.update s.r e.1 (s.r e.1 + e.2))) := by
    intro hs hkey
    convert h.pq using 1
    funext u
    by_cases hu : u = e.1
    · subst hu; simp [content, hkey]
    · simp [content, hu]
  have hgain : toGain (keyOf limited L (s.r e.1 + e.2)) = keyOf limited L (s.r e.1 + e.2) :=
    toGain_of_lt (by omega)
  cases limited with
  | true =>
    have hk1 : keyOf true L (s.r e.1 + e.2) = min (s.r e.1 + e.2) L := rfl
    rw [hk1] at hgain hq_ins hq_inc
    obtain ⟨u1, u2⟩ := huf ((decide (s.r e.1 < L) || L == 0) && decide (s.r e.1 + e.2 ≥ L)) (by
      simp only [Bool.and_eq_true, Bool.or_eq_true, decide_eq_true_eq, beq_iff_eq, true_and, ge_iff_le])
    simp only [scanEdge, scanEdgeLimited, hvs, if_true, if_false, Bool.false_eq_true,
      Function.update_self, hgain, Bool.not_false, Bool.and_true]
    by_cases hs : s.seen e.1 = true
    · simp only [hs, if_true]
      refine ⟨⟨h.vis_eq, ?_, u1, u2⟩, trivial, (hseen hs).symm⟩
      simp only
      by_cases hinc : (decide (s.r e.1 < L) || L == 0) = true
      · rw [if_pos hinc]
        have := hq_inc hs
        rwa [hseen hs] at this
      · rw [if_neg hinc]
        refine hq_same hs ?_
        simp only [Bool.or_eq_true, decide_eq_true_eq, beq_iff_eq, not_or] at hinc
        unfold keyOf
        simp only [if_true]; omega
    · simp only [hs]
      have hs' : s.seen e.1 = false := by simpa using hs
      exact ⟨⟨h.vis_eq, hq_ins hs', u1, u2⟩, rfl, rfl⟩
  | false =>
    have hk1 : keyOf false L (s.r e.1 + e.2) = s.r e.1 + e.2 := rfl
    rw [hk1] at hgain hq_ins hq_inc
    obtain ⟨u1, u2⟩ := huf (decide (s.r e.1 < L) && decide (s.r e.1 + e.2 ≥ L)) (by simp)
    have hueq : (if s.r e.1 < L then (if s.r e.1 + e.2 ≥ L then (s.uf.union cur e.1).2 else s.uf) else s.uf)
        = (if (decide (s.r e.1 < L) && decide (s.r e.1 + e.2 ≥ L)) = true then (s.uf.union cur e.1).2
            else s.uf) := by
      by_cases h1 : s.r e.1 < L <;> by_cases h2 : s.r e.1 + e.2 ≥ L <;> simp [h1, h2]
    simp only [scanEdge, scanEdgeUnlimited, hvs, if_false, Bool.false_eq_true,
      Function.update_self, hgain, Bool.not_false, if_true, hueq]
    by_cases hs : s.seen e.1 = true
    · simp only [hs, if_true]
      refine ⟨⟨h.vis_eq, ?_, u1, u2⟩, trivial, (hseen hs).symm⟩
      have := hq_inc hs
      rwa [hseen hs] at this
    · simp only [hs]
      have hs' : s.seen e.1 = false := by simpa using hs
      exact ⟨⟨h.vis_eq, hq_ins hs', u1, u2⟩, rfl, rfl⟩

/-- Effect of scanning a list of edges of `cur`. -/
theorem scanEdges_core (lp : P.Lawful N K) (hK : K < 2 ^ 32) {limited : Bool} {L start cur : Nat}
    {vis : Nat → Bool} (hcur : cur < N) (hstart : vis start = true) (l : List (Nat × Nat))
    (hl : ∀ e ∈ l, e.1 < N) (s : CFState P) (ps : List (Nat × Nat))
    (h : Core lp limited L start vis s ps)
    (hk : ∀ u, vis u = false → u < N → keyOf limited L (s.r u + sumTo l u) ≤ K) :
    ∃ qs, Core lp limited L start vis (l.foldl (scanEdge P limited L cur) s) (ps ++ qs) ∧
    (∀ u, (l.foldl (scanEdge P limited L cur) s).r u = if vis u then s.r u else s.r u + sumTo l u) ∧
    (∀ u, (l.foldl (scanEdge P limited L cur) s).seen u = true ↔
      s.seen u = true ∨ (vis u = false ∧ ∃ e ∈ l, e.1 = u)) ∧
    (∀ p ∈ qs, p.1 = cur ∧ vis p.2 = false ∧ p.2 < N ∧ L ≤ s.r p.2 + sumTo l p.2) ∧
    (∀ u, vis u = false → s.r u < L → L ≤ s.r u + sumTo l u → (cur, u) ∈ qs) := by
  induction l generalizing s ps with
  | nil =>
    refine ⟨[], by simpa using h, ?_, ?_, by simp, ?_⟩
    · intro u; simp [sumTo]
    · simp
    · intro u _ h1 h2; simp [sumTo] at h2; omega
  | cons e l ih =>
    have he : e.1 < N := hl e (by simp)
    have hl' : ∀ e ∈ l, e.1 < N := fun x hx => hl x (by simp [hx])
    simp only [List.foldl_cons]
    cases hv : vis e.1 with
    | true =>
      have hs : scanEdge P limited L cur s e = s := scanEdge_visited _ _ _ _ _ (by rw [h.vis_eq]; exact hv)
      rw [hs]
      have hst : ∀ u, vis u = false → sumTo (e :: l) u = sumTo l u := by
        intro u hu
        rw [sumTo_cons, if_neg, Nat.zero_add]
        rintro rfl; rw [hu] at hv; simp at hv
      obtain ⟨qs, q1, q2, q3, q4, q5⟩ := ih hl' s ps h (by
        intro u hu hun; rw [← hst u hu]; exact hk u hu hun)
      refine ⟨qs, q1, ?_, ?_, ?_, ?_⟩
      · intro u
        rw [q2]
        cases hu : vis u with
        | true => simp
        | false => simp [hst u hu]
      · intro u
        rw [q3]
        constructor
        · rintro (h1 | ⟨h1, x, hx, h2⟩)
          · exact Or.inl h1
          · exact Or.inr ⟨h1, x, by simp [hx], h2⟩
        · rintro (h1 | ⟨h1, x, hx, h2⟩)
          · exact Or.inl h1
          · rcases List.mem_cons.1 hx with rfl | hx
            · rw [h2, h1] at hv; simp at hv
            · exact Or.inr ⟨h1, x, hx, h2⟩
      · intro p hp
        obtain ⟨a, b, c, d⟩ := q4 p hp
        exact ⟨a, b, c, by rw [hst _ b]; exact d⟩
      · intro u hu h1 h2
        rw [hst u hu] at h2
        exact q5 u hu h1 h2
    | false =>
      have hk0 : keyOf limited L (s.r e.1 + e.2) ≤ K := by
        refine le_trans ?_ (hk e.1 hv he)
        rw [sumTo_cons, if_pos rfl]
        unfold keyOf; split <;> omega
      obtain ⟨c1, c2, c3⟩ := scanEdge_core lp hK h hcur hstart he hv hk0
      generalize hs' : scanEdge P limited L cur s e = s' at *
      have hr : ∀ u, s'.r u + sumTo l u = s.r u + sumTo (e :: l) u := by
        intro u
        rw [c2, sumTo_cons]
        by_cases hu : u = e.1
        · subst hu; simp; omega
        · simp [hu, Ne.symm hu]
      obtain ⟨qs, q1, q2, q3, q4, q5⟩ := ih hl' s' _ c1 (by
        intro u hu hun; rw [hr]; exact hk u hu hun)
      refine ⟨newPair limited L cur s.r e ++ qs, by rwa [← List.append_assoc], ?_, ?_, ?_, ?_⟩
      · intro u
        rw [q2]
        cases hu : vis u with
        | true =>
          have : u ≠ e.1 := by rintro rfl; rw [hu] at hv; simp at hv
          simp [c2, this]
        | false => simp [hr]
      · intro u
        rw [q3, c3]
        by_cases hu : u = e.1
        · subst hu; simp [hv]
        · simp [hu, Ne.symm hu]
      · intro p hp
        rcases List.mem_append.1 hp with hp | hp
        · unfold newPair at hp
          split at hp
          · rename_i hc
            simp only [List.mem_singleton] at hp
            subst hp
            refine ⟨rfl, hv, he, ?_⟩
            have := hr e.1
            simp only [c2, Function.update_self] at this
            simp only
            omega
          · simp at hp
        · obtain ⟨a, b, c, d⟩ := q4 p hp
          exact ⟨a, b, c, by rw [← hr]; exact d⟩
      · intro u hu h1 h2
        by_cases hrl : s'.r u < L
        · exact List.mem_append_right _ (q5 u hu hrl (by rw [hr]; exact h2))
        · have hue : u = e.1 := by
            by_contra hue
            rw [c2, Function.update_of_ne hue] at hrl
            exact hrl h1
          subst hue
          refine List.mem_append_left _ ?_
          rw [c2, Function.update_self] at hrl
          unfold newPair
          rw [if_pos ⟨Or.inl h1, by omega⟩]
          simp

end

/-- No cut lighter than `L` separates `a` and `b`. -/
def Safe (G : Graph) (L a b : Nat) : Prop := ∀ S : Nat → Bool, S a ≠ S b → L ≤ cutValue G.n G.wt S

theorem Safe.equivalence (G : Graph) (L : Nat) : Equivalence (Safe G L) where
  refl := fun a S h => absurd rfl h
  symm := fun h S hS => h S hS.symm
  trans := fun {a b c} h1 h2 S hS => by
    by_cases hab : S a = S b
    · exact h2 S (by rw [← hab]; exact hS)
    · exact h1 S hab

/-- Loop invariant of `modified_capforest`; `A` lists the visited vertices, last visited first. -/
structure LoopInv {P : PQ} {K : Nat} (G : Graph) (lp : P.Lawful G.n K) (limited : Bool) (L start : Nat)
    (s : CFState P) (A : List Nat) (ps : List (Nat × Nat)) : Prop where
  core : Core lp limited L start s.visited s ps
  nodup : A.Nodup
  lt : ∀ a ∈ A, a < G.n
  vis : ∀ u, s.visited u = true ↔ u ∈ A
  start_mem : A ≠ [] → start ∈ A
  start_lt : start < G.n
  nil_seen : A = [] → ∀ u, s.seen u = false
  seen_lt : ∀ u, s.seen u = true → u < G.n
  unseen : ∀ u, s.seen u = false → s.r u = 0
  rA : ∀ u, u ∉ A → s.r u = into G.wt A.toFinset u
  nbr : ∀ a ∈ A, ∀ e ∈ G.edges a, e.1 ∈ A ∨ s.seen e.1 = true
  ma : ∀ S : Nat → Bool, ∀ x rest, A = x :: rest → ∀ u, u ∉ A → u < G.n → S u ≠ S x →
    min (into G.wt A.toFinset u) L ≤ inner G.wt S (insert u A.toFinset)
  good : ∀ p ∈ ps, p.1 < G.n ∧ p.2 < G.n ∧ p.1 ≠ p.2 ∧ Safe G L p.1 p.2
  cross : 0 < L → ∀ u, L ≤ s.r u → ∃ c, (c, u) ∈ ps
  head : ∀ x rest, A = x :: rest → s.r x = into G.wt rest.toFinset x

theorem into_le_deg {G : Graph} (hG : G.WF) (A : Finset Nat) (hA : A ⊆ range G.n) (u : Nat) :
    into G.wt A u ≤ G.deg u := by
  rw [hG.deg_eq, into]
  refine le_trans (Finset.sum_le_sum_of_subset hA) ?_
  exact le_of_eq (Finset.sum_congr rfl fun v _ => hG.wt_symm v u)

theorem into_insert {w : Nat → Nat → Nat} {A : Finset Nat} {c u : Nat} (hc : c ∉ A) :
    into w (insert c A) u = into w A u + w c u := by
  unfold into
  rw [Finset.sum_insert hc]; omega

/-- The bound on the priority-queue keys that the code relies on: capped keys, or uncapped keys when
limiting is disabled, must fit the queue and its 32-bit key type. -/
def KeyBound (limited : Bool) (G : Graph) (L K : Nat) : Prop :=
  K < 2 ^ 32 ∧ (if limited then L ≤ K else G.maxDegree ≤ K)

section
variable {P : PQ} {K : Nat} {G : Graph} {lp : P.Lawful G.n K} {limited : Bool} {L start : Nat}

theorem loopInv_init (hs : start < G.n) :
    LoopInv G lp limited L start (cfInit P G start) [] [] := by
  refine ⟨⟨rfl, ?_, UF.init_rep _, rfl⟩, by simp, by simp, ?_, by simp, hs,
    fun _ _ => rfl, ?_, ?_, ?_, by simp, ?_, by simp, ?_, ?_⟩
  · have := lp.insert P.init _ start 0 lp.init hs (Nat.zero_le _) rfl
    simp only [cfInit]
    convert this using 1
    funext u
    by_cases hu : u = start
    · subst hu; simp [content]
    · simp [content, hu]
  · simp [cfInit]
  · simp [cfInit]
  · simp [cfInit]
  · simp [cfInit, into]
  · intro S x rest h; simp at h
  · intro hL u hu; simp [cfInit] at hu; omega
  · intro x rest h; simp at h

theorem keyOf_mono_min {a b L : Nat} (h : keyOf limited L a ≤ keyOf limited L b) : min a L ≤ min b L := by
  unfold keyOf at h
  split at h
  · exact h
  · omega

theorem loopInv_step (hG : G.WF) (hK : KeyBound limited G L K) {s : CFState P} {A : List Nat}
    {ps : List (Nat × Nat)} (h : LoopInv G lp limited L start s A ps) (hne : P.empty s.pq = false) :
    ∃ c qs, LoopInv G lp limited L start (scanNode P limited G L s) (c :: A) (ps ++ qs) := by
  obtain ⟨k, hmk, hmax, hrel⟩ := lp.deleteMax s.pq _ h.core.pq hne
  generalize hdm : P.deleteMax s.pq = dm at *
  obtain ⟨cur, pq'⟩ := dm
  simp only at hmk hmax hrel
  -- properties of the chosen vertex
  have hcv : s.visited cur = false := by
    cases hv : s.visited cur with
    | false => rfl
    | true => simp [content, hv] at hmk
  have hcA : cur ∉ A := by rw [← h.vis]; simp [hcv]
  -- if A is empty the chosen vertex is the start vertex, otherwise it has been seen
  have hnil : A = [] → cur = start := by
    intro hA
    have hsn := h.nil_seen hA cur
    simp only [content, hcv, hsn, Bool.false_eq_true, if_false] at hmk
    split at hmk
    · assumption
    · simp at hmk
  have hsn : A ≠ [] → s.seen cur = true := by
    intro hA
    cases hsn : s.seen cur with
    | true => rfl
    | false =>
      have hst := h.start_mem hA
      simp only [content, hcv, hsn, Bool.false_eq_true, if_false] at hmk
      split at hmk
      · rename_i hcs; exact absurd (hcs ▸ hst) hcA
      · simp at hmk
  have hcn : cur < G.n := by
    by_cases hA : A = []
    · rw [hnil hA]; exact h.start_lt
    · exact h.seen_lt _ (hsn hA)
  have hAr : A.toFinset ⊆ range G.n := fun x hx => by
    simp only [List.mem_toFinset] at hx; simpa using h.lt x hx
  have hcf : cur ∉ A.toFinset := by simpa using hcA
  have hAr' : insert cur A.toFinset ⊆ range G.n := by
    intro x hx
    rcases Finset.mem_insert.1 hx with rfl | hx
    · simpa using hcn
    · exact hAr hx
  -- maximality of the chosen vertex
  have hmaxr : A ≠ [] → ∀ u, u ∉ A → min (s.r u) L ≤ min (s.r cur) L := by
    intro hA u hu
    have hk : k = keyOf limited L (s.r cur) := by
      simp [content, hcv, hsn hA] at hmk; exact hmk.symm
    cases hsu : s.seen u with
    | false => rw [h.unseen u hsu]; simp
    | true =>
      have huv : s.visited u = false := by
        cases hv : s.visited u with
        | false => rfl
        | true => exact absurd ((h.vis u).1 hv) hu
      have := hmax u (keyOf limited L (s.r u)) (by simp [content, huv, hsu])
      rw [hk] at this
      exact keyOf_mono_min this
  -- the scan of the edges of `cur`
  set vis' := Function.update s.visited cur true with hvis'
  have hv' : ∀ u, vis' u = true ↔ u ∈ cur :: A := by
    intro u
    by_cases hu : u = cur
    · subst hu; simp [hvis']
    · simp [hvis', hu, h.vis]
  have hv'f : ∀ u, vis' u = false ↔ u ∉ cur :: A := by
    intro u; rw [← hv']; simp
  have hcore1 : Core lp limited L start vis' { s with pq := pq', visited := vis' } ps := by
    refine ⟨rfl, ?_, h.core.uf, h.core.size⟩
    simp only
    convert hrel using 1
    funext u
    by_cases hu : u = cur
    · subst hu; simp [content, hvis']
    · simp [content, hvis', hu]
  have hstart : vis' start = true := by
    rw [hv']
    by_cases hA : A = []
    · rw [hnil hA]; simp
    · simp [h.start_mem hA]
  have hnotA : ∀ u, vis' u = false → u ∉ A ∧ u ≠ cur := by
    intro u hu
    have := (hv'f u).1 hu
    simp only [List.mem_cons, not_or] at this
    exact ⟨this.2, this.1⟩
  have hinto : ∀ u, vis' u = false → s.r u + sumTo (G.edges cur) u = into G.wt (insert cur A.toFinset) u := by
    intro u hu
    rw [into_insert hcf, h.rA u (hnotA u hu).1]; rfl
  obtain ⟨qs, q1, q2, q3, q4, q5⟩ := scanEdges_core lp hK.1 hcn hstart (G.edges cur)
    (hG.tgt_lt cur) { s with pq := pq', visited := vis' } ps hcore1 (by
      intro u hu hun
      have hKb := hK.2
      unfold keyOf
      cases limited with
      | true => simp only [if_true] at hKb ⊢; omega
      | false =>
        simp only [if_false, Bool.false_eq_true] at hKb ⊢
        rw [hinto u hu]
        exact le_trans (into_le_deg hG _ hAr' u) (le_trans (Graph.deg_le_maxDegree hun) hKb))
  have hsc : scanNode P limited G L s = (G.edges cur).foldl (scanEdge P limited L cur)
      { s with pq := pq', visited := vis' } := by
    simp only [scanNode, hdm, hvis']
  rw [← hsc] at q1 q2 q3
  simp only at q2 q3 q4 q5
  generalize scanNode P limited G L s = s' at *
  have hsvis : s'.visited = vis' := q1.vis_eq
  have hfin : (cur :: A).toFinset = insert cur A.toFinset := by simp
  -- the key step: the scan order bounds every cut
  have hma : ∀ S : Nat → Bool, ∀ u, u ∉ cur :: A → u < G.n → S u ≠ S cur →
      min (into G.wt (insert cur A.toFinset) u) L ≤ inner G.wt S (insert u (insert cur A.toFinset)) := by
    intro S u hu hun hS
    have huc : u ≠ cur := by rintro rfl; simp at hu
    have huA : u ∉ A := by intro hx; simp [hx] at hu
    have huf : u ∉ A.toFinset := by simpa using huA
    have huf' : u ∉ insert cur A.toFinset := by simp [huc, huA]
    rw [into_insert hcf]
    match hA : A with
    | [] =>
      have := inner_insert_ge (w := G.wt) (S := S) (A := {cur}) (u := u) (c := cur) (by simpa using huc)
        (fun a _ => hG.wt_symm a u) (by simp) (fun e => hS e.symm)
      simp only [List.toFinset_nil, insert_empty_eq, into, Finset.sum_empty, Nat.zero_add]
      omega
    | x :: rest =>
      by_cases hx : S u = S x
      · have hcx : S cur ≠ S x := by rw [← hx]; exact fun e => hS e.symm
        have h1 := h.ma S x rest rfl cur hcA hcn hcx
        have h2 := hmaxr (by simp) u huA
        rw [h.rA u huA, h.rA cur hcA] at h2
        have h3 := inner_insert_ge (w := G.wt) (S := S) (A := insert cur (x :: rest).toFinset) (u := u)
          (c := cur) huf' (fun a _ => hG.wt_symm a u) (by simp) (fun e => hS e.symm)
        omega
      · have h1 := h.ma S x rest rfl u huA hun hx
        have h3 := inner_insert_ge (w := G.wt) (S := S) (A := insert u (x :: rest).toFinset) (u := cur)
          (c := u) (by simp only [Finset.mem_insert, not_or]; exact ⟨fun e => huc e.symm, hcf⟩)
          (fun a _ => hG.wt_symm a cur) (by simp) hS
        rw [Finset.insert_comm, hG.wt_symm u cur] at h3
        omega
  refine ⟨cur, qs, ?_⟩
  refine ⟨by rw [hsvis]; exact q1, ?_, ?_, ?_, ?_, h.start_lt, by simp, ?_, ?_, ?_, ?_, ?_, ?_, ?_, ?_⟩
  · exact List.nodup_cons.2 ⟨hcA, h.nodup⟩
  · intro a ha
    rcases List.mem_cons.1 ha with rfl | ha
    · exact hcn
    · exact h.lt a ha
  · intro u; rw [hsvis]; exact hv' u
  · intro _; exact (hv' start).1 hstart
  · intro u hu
    rcases (q3 u).1 hu with hu | ⟨_, e, he, rfl⟩
    · exact h.seen_lt u hu
    · exact hG.tgt_lt cur e he
  · intro u hu
    have hnu : ¬ (s.seen u = true ∨ (vis' u = false ∧ ∃ e ∈ G.edges cur, e.1 = u)) := by
      rw [← q3]; simp [hu]
    rw [not_or] at hnu
    have h0 := h.unseen u (by simpa using hnu.1)
    rw [q2]
    cases huv : vis' u with
    | true => simpa using h0
    | false =>
      have : sumTo (G.edges cur) u = 0 := by
        unfold sumTo
        have : (G.edges cur).filter (fun e => e.1 == u) = [] := by
          rw [List.filter_eq_nil_iff]
          intro e he heu
          exact hnu.2 ⟨huv, e, he, by simpa using heu⟩
        simp [this]
      simp [h0, this]
  · intro u hu
    have huv : vis' u = false := (hv'f u).2 hu
    rw [q2, huv, hfin, ← hinto u huv]
    simp
  · intro a ha e he
    cases hev : vis' e.1 with
    | true => exact Or.inl ((hv' _).1 hev)
    | false =>
      right
      rw [q3]
      rcases List.mem_cons.1 ha with rfl | ha
      · exact Or.inr ⟨hev, e, he, rfl⟩
      · rcases h.nbr a ha e he with h1 | h1
        · exact absurd h1 (hnotA _ hev).1
        · exact Or.inl h1
  · intro S x rest hx u hu hun hS
    injection hx with hx1 hx2
    subst hx1 hx2
    rw [hfin]
    exact hma S u hu hun hS
  · intro p hp
    rcases List.mem_append.1 hp with hp | hp
    · exact h.good p hp
    · obtain ⟨h1, h2, h3, h4⟩ := q4 p hp
      refine ⟨by rw [h1]; exact hcn, h3, by rw [h1]; exact fun e => (hnotA _ h2).2 e.symm, ?_⟩
      intro S hS
      rw [h1] at hS
      rw [hinto _ h2] at h4
      have := hma S p.2 ((hv'f _).1 h2) h3 (fun e => hS e.symm)
      rw [Nat.min_eq_right h4] at this
      refine le_trans this ?_
      rw [← inner_range]
      refine inner_mono ?_
      intro x hx
      rcases Finset.mem_insert.1 hx with rfl | hx
      · simpa using h3
      · exact hAr' hx
  · intro hL u hu
    rw [q2] at hu
    cases huv : vis' u with
    | true =>
      rw [huv] at hu
      obtain ⟨c, hc⟩ := h.cross hL u (by simpa using hu)
      exact ⟨c, by simp [hc]⟩
    | false =>
      rw [huv] at hu
      simp only [Bool.false_eq_true, if_false] at hu
      by_cases hlt : s.r u < L
      · exact ⟨cur, List.mem_append_right _ (q5 u huv hlt hu)⟩
      · obtain ⟨c, hc⟩ := h.cross hL u (by omega)
        exact ⟨c, by simp [hc]⟩
  · intro x rest hx
    injection hx with hx1 hx2
    subst hx1 hx2
    rw [q2, (hv' _).2 (by simp)]
    simp only [if_true]
    exact h.rA _ hcA

theorem loopInv_loop (hG : G.WF) (hK : KeyBound limited G L K) (f : Nat) {s : CFState P} {A : List Nat}
    {ps : List (Nat × Nat)} (h : LoopInv G lp limited L start s A ps) (hf : G.n ≤ f + A.length) :
    ∃ A' ps', LoopInv G lp limited L start (cfLoop P limited G L f s) A' ps' ∧
      P.empty (cfLoop P limited G L f s).pq = true := by
  have hlen : ∀ {A : List Nat}, A.Nodup → (∀ a ∈ A, a < G.n) → A.length ≤ G.n := by
    intro A hnd hlt
    have := (List.nodup_iff_injective_get.1 hnd)
    have h2 : A.toFinset ⊆ range G.n := fun x hx => by simpa using hlt x (by simpa using hx)
    have h3 := Finset.card_le_card h2
    rwa [List.toFinset_card_of_nodup hnd, Finset.card_range] at h3
  induction f generalizing s A ps with
  | zero =>
    refine ⟨A, ps, h, ?_⟩
    by_contra hne
    obtain ⟨c, qs, h'⟩ := loopInv_step hG hK h (by simpa [cfLoop] using hne)
    have := hlen h'.nodup h'.lt
    simp at this
    omega
  | succ f ih =>
    unfold cfLoop
    by_cases he : P.empty s.pq = true
    · rw [if_pos he]
      exact ⟨A, ps, h, he⟩
    · rw [if_neg he]
      obtain ⟨c, qs, h'⟩ := loopInv_step hG hK h (by simpa using he)
      exact ih h' (by simp; omega)

theorem cfFinal_inv (lp : P.Lawful G.n K) (hG : G.WF) (hK : KeyBound limited G L K) (hs : start < G.n) :
    ∃ A ps, LoopInv G lp limited L start (cfFinal P limited G L start) A ps ∧
      P.empty (cfFinal P limited G L start).pq = true :=
  loopInv_loop hG hK G.n (loopInv_init hs) (by simp)

/-- All vertices merged by CAPFOREST are inseparable below the bound. -/
theorem capforest_safe (lp : P.Lawful G.n K) (hG : G.WF) (hK : KeyBound limited G L K) (hs : start < G.n)
    {a b : Nat} (h : (capforest P limited G L start).root a = (capforest P limited G L start).root b) :
    Safe G L a b := by
  obtain ⟨A, ps, hi, _⟩ := cfFinal_inv (L := L) lp hG hK hs
  have hl : Linked ps a b := (hi.core.uf.iff a b).1 h
  exact Linked.least (Safe.equivalence G L) (fun x y hxy => (hi.good (x, y) hxy).2.2.2) hl

theorem capforest_inv (lp : P.Lawful G.n K) (hG : G.WF) (hK : KeyBound limited G L K) (hs : start < G.n) :
    (capforest P limited G L start).Inv ∧ (capforest P limited G L start).size = G.n := by
  obtain ⟨A, ps, hi, _⟩ := cfFinal_inv (L := L) lp hG hK hs
  exact ⟨hi.core.uf.inv, hi.core.size⟩

theorem cnt_lt_of_merge {u : UF} (h : u.Inv) {a b : Nat} (ha : a < u.size) (hb : b < u.size) (hab : a ≠ b)
    (hr : u.root a = u.root b) : u.cnt < u.size := by
  rw [← UF.image_root_card h]
  refine lt_of_le_of_ne ?_ ?_
  · have := Finset.card_image_le (s := range u.size) (f := u.root); simpa using this
  · intro hc
    have : Set.InjOn u.root (range u.size : Finset Nat) := by
      rw [← Finset.card_image_iff]; simpa using hc
    exact hab (this (by simpa using ha) (by simpa using hb) hr)

theorem capforest_progress (lp : P.Lawful G.n K) (hG : G.WF) (hK : KeyBound limited G L K) (hs : start < G.n)
    (hL : 0 < L) (hd : ∀ u, u < G.n → L ≤ G.deg u) :
    (capforest P limited G L start).cnt < G.n := by
  obtain ⟨A, ps, hi, he⟩ := cfFinal_inv (L := L) lp hG hK hs
  unfold capforest
  generalize cfFinal P limited G L start = s at *
  have hnone := (lp.empty_iff _ _ hi.core.pq).1 he
  have hseen : ∀ u, s.seen u = true → u ∈ A := by
    intro u hu
    rw [← hi.vis]
    by_contra hv
    have := hnone u
    simp [content, hv, hu] at this
  cases A with
  | nil =>
    have := hnone start
    have hv : s.visited start = false := by
      have := hi.vis start
      simpa using this
    simp [content, hv, hi.nil_seen rfl] at this
  | cons x rest =>
    have hx : x < G.n := hi.lt x (by simp)
    have hr := hi.head x rest rfl
    have hdeg : into G.wt rest.toFinset x = G.deg x := by
      rw [hG.deg_eq, into]
      have h1 : ∀ v ∈ range G.n, v ∉ rest.toFinset → G.wt x v = 0 := by
        intro v _ hv
        by_contra hne
        have : ∃ e ∈ G.edges x, e.1 = v := by
          by_contra hno
          push Not at hno
          apply hne
          unfold Graph.wt
          have : (G.edges x).filter (fun e => e.1 == v) = [] := by
            rw [List.filter_eq_nil_iff]
            intro e he' hev
            exact hno e he' (by simpa using hev)
          simp [this]
        obtain ⟨e, he', rfl⟩ := this
        have hmem : e.1 ∈ x :: rest := by
          rcases hi.nbr x (by simp) e he' with h | h
          · exact h
          · exact hseen _ h
        rcases List.mem_cons.1 hmem with h | h
        · exact hG.no_loop x e he' h
        · exact hv (by simpa using h)
      have h2 : rest.toFinset ⊆ range G.n := by
        intro v hv
        simpa using hi.lt v (by simp at hv; simp [hv])
      rw [← Finset.sum_subset h2 h1]
      exact Finset.sum_congr rfl fun v _ => hG.wt_symm v x
    obtain ⟨c, hc⟩ := hi.cross hL x (by rw [hr, hdeg]; exact hd x hx)
    obtain ⟨g1, g2, g3, _⟩ := hi.good _ hc
    rw [← hi.core.size]
    exact cnt_lt_of_merge hi.core.uf.inv (by rw [hi.core.size]; exact g1) (by rw [hi.core.size]; exact g2) g3
      ((hi.core.uf.iff _ _).2 (Linked.of_mem hc))

end

end VieCut
