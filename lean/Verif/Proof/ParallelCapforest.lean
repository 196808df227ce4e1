import Verif.Model.ParallelCapforest
import Verif.Proof.Capforest
import Verif.Proof.BucketPQ

/-! # Parallel CAPFOREST: every thread requests only safe pairs -/

namespace VieCut
open Function Finset

namespace PCF

/-- Counted weight that crosses `S`. -/
def cross (n : Nat) (c : Nat → Nat → Nat) (S : Nat → Bool) : Nat :=
  ∑ a ∈ range n, ∑ b ∈ range n, if S a ≠ S b then c a b else 0

/-- Counting one more arc. -/
def bump (c : Nat → Nat → Nat) (x u w : Nat) : Nat → Nat → Nat := fun a b => if a = x ∧ b = u then c a b + w else c a b

theorem sum_pair {n x u w : Nat} (hx : x < n) (hu : u < n) (f : Nat → Nat → Nat) :
    (∑ a ∈ range n, ∑ b ∈ range n, (f a b + if a = x ∧ b = u then w else 0)) = (∑ a ∈ range n, ∑ b ∈ range n, f a b) + w := by
  simp only [Finset.sum_add_distrib]
  congr 1
  rw [Finset.sum_eq_single x]
  · rw [Finset.sum_eq_single u]
    · simp
    · intro b _ hb; simp [hb]
    · intro h; exact absurd (mem_range.2 hu) h
  · intro a _ ha; simp [ha]
  · intro h; exact absurd (mem_range.2 hx) h

theorem cross_bump {n x u w : Nat} (hx : x < n) (hu : u < n) (c : Nat → Nat → Nat) (S : Nat → Bool) :
    cross n (bump c x u w) S = cross n c S + if S x ≠ S u then w else 0 := by
  unfold cross
  rw [← sum_pair hx hu]
  refine Finset.sum_congr rfl fun a _ => Finset.sum_congr rfl fun b _ => ?_
  unfold bump
  by_cases h : a = x ∧ b = u
  · obtain ⟨rfl, rfl⟩ := h
    by_cases hS : S a = S b <;> simp [hS]
  · simp only [h, if_false]
    rfl

/-- Counted weights, each edge in one direction, are at most the cut. -/
theorem cross_le {G : Graph} (hG : G.WF) {c : Nat → Nat → Nat} (hc : ∀ a b, c a b + c b a ≤ G.wt a b) (S : Nat → Bool) :
    cross G.n c S ≤ cutValue G.n G.wt S := by
  have h1 : cross G.n c S = (∑ a ∈ range G.n, ∑ b ∈ range G.n, if S a = true ∧ S b = false then c a b else 0) +
      ∑ a ∈ range G.n, ∑ b ∈ range G.n, if S a = true ∧ S b = false then c b a else 0 := by
    have h2 : (∑ a ∈ range G.n, ∑ b ∈ range G.n, if S a = true ∧ S b = false then c b a else 0) =
        ∑ a ∈ range G.n, ∑ b ∈ range G.n, if S b = true ∧ S a = false then c a b else 0 := Finset.sum_comm
    rw [h2, ← Finset.sum_add_distrib]
    refine Finset.sum_congr rfl fun a _ => ?_
    rw [← Finset.sum_add_distrib]
    refine Finset.sum_congr rfl fun b _ => ?_
    cases S a <;> cases S b <;> simp
  rw [h1, ← Finset.sum_add_distrib]
  unfold cutValue
  refine Finset.sum_le_sum fun a _ => ?_
  rw [← Finset.sum_add_distrib]
  refine Finset.sum_le_sum fun b _ => ?_
  split
  · exact hc a b
  · exact Nat.le_refl _

/-- What is known about a thread; `x` is the vertex deleted last from its queue, `c` the counted weights, `m` the queue
content, `exc` a vertex whose key is not up to date. -/
structure TCore {P : PQClass} (G : Graph) (L K : Nat) (Rel : P.σ → (Nat → Option Nat) → Prop) (th : Thread P) (exc : Option Nat)
    (x : Nat) (c : Nat → Nat → Nat) (m : Nat → Option Nat) : Prop where
  rel : Rel th.pq m
  dom : ∀ u k, m u = some k → u < G.n ∧ th.loc u = false
  key : ∀ u k, m u = some k → if exc = some u then k ≤ th.r u else k = th.r u
  inq : ∀ u, th.loc u = false → exc ≠ some u → 0 < th.r u → m u = some (th.r u)
  rL : ∀ u, th.r u ≤ L
  cut : ∀ S : Nat → Bool, ∀ u, th.loc u = false → S u ≠ S x → th.r u ≤ cross G.n c S
  cw : ∀ a b, c a b + c b a ≤ G.wt a b
  cl : ∀ a b, c a b ≠ 0 → th.loc a = true

/-- … and, depending on where it is: -/
def TInv {P : PQClass} (G : Graph) (L K : Nat) (Rel : P.σ → (Nat → Option Nat) → Prop) (th : Thread P)
    (x : Nat) (c : Nat → Nat → Nat) (m : Nat → Option Nat) : Prop :=
  match th.pc with
  | .outer => TCore G L K Rel th none x c m
  | .seen cur => TCore G L K Rel th none x c m ∧ x = cur ∧ cur < G.n ∧ th.loc cur = true ∧ ∀ u, c cur u = 0
  | .mark cur => TCore G L K Rel th none x c m ∧ x = cur ∧ cur < G.n ∧ th.loc cur = true ∧ ∀ u, c cur u = 0
  | .inner cur rest => TCore G L K Rel th none x c m ∧ x = cur ∧ cur < G.n ∧ th.loc cur = true ∧
      (∀ e ∈ rest, e.1 < G.n) ∧ ∀ u, th.loc u = false → c cur u + sumTo rest u ≤ G.wt cur u
  | .again cur rest tgt rv => TCore G L K Rel th (some tgt) x c m ∧ x = cur ∧ cur < G.n ∧ th.loc cur = true ∧
      (∀ e ∈ rest, e.1 < G.n) ∧ (∀ u, th.loc u = false → c cur u + sumTo rest u ≤ G.wt cur u) ∧
      tgt < G.n ∧ th.loc tgt = false ∧ rv = th.r tgt
  | .done => True

/-- The invariant of all threads. -/
structure Inv {P : PQClass} (G : Graph) (L K : Nat) (Rel : P.σ → (Nat → Option Nat) → Prop) (s : St P) : Prop where
  thr : ∀ t, ∃ x c m, TInv G L K Rel (s.thr t) x c m
  safe : ∀ p ∈ s.reqs, p.1 < G.n ∧ p.2 < G.n ∧ Safe G L p.1 p.2

section
variable {P : PQClass} {G : Graph} {L K : Nat} {Rel : P.σ → (Nat → Option Nat) → Prop}

theorem TCore.pc {th : Thread P} {exc : Option Nat} {x : Nat} {c : Nat → Nat → Nat} {m : Nat → Option Nat}
    (h : TCore G L K Rel th exc x c m) (p : PC) (b : Nat → Bool) : TCore G L K Rel { th with pc := p, black := b } exc x c m :=
  ⟨h.rel, h.dom, h.key, h.inq, h.rL, h.cut, h.cw, h.cl⟩

theorem Inv.start (sim : PQSim P G.n K Rel) (starts : Nat → Nat) (hs : ∀ i, starts i < G.n) : Inv G L K Rel (start P starts) := by
  refine ⟨fun t => ⟨0, fun _ _ => 0, update (fun _ => none) (starts t) (some 0), ?_⟩, fun p hp => by simp [PCF.start] at hp⟩
  show TCore _ _ _ _ _ _ _ _ _
  refine ⟨sim.insert _ _ _ _ sim.init (hs t) (Nat.zero_le _) rfl, fun u k hu => ?_, fun u k hu => ?_, fun u _ _ h => ?_, fun u => Nat.zero_le _,
    fun S u _ _ => Nat.zero_le _, fun a b => Nat.zero_le _, fun a b h => absurd rfl h⟩
  · by_cases h : u = starts t
    · subst h; exact ⟨hs t, rfl⟩
    · rw [update_of_ne h] at hu; cases hu
  · rw [if_neg (by simp)]
    by_cases h : u = starts t
    · subst h; rw [update_self] at hu; cases hu; rfl
    · rw [update_of_ne h] at hu; cases hu
  · exact absurd h (Nat.lt_irrefl 0)

/-- Changing one thread. -/
theorem Inv.set {s : St P} (h : Inv G L K Rel s) {t : Nat} {th : Thread P} {vis : Nat → Bool} {reqs : List (Nat × Nat)}
    (ht : ∃ x c m, TInv G L K Rel th x c m) (hr : ∀ p ∈ reqs, p.1 < G.n ∧ p.2 < G.n ∧ Safe G L p.1 p.2) :
    Inv G L K Rel (({ s with visited := vis, reqs := reqs } : St P).set t th) := by
  refine ⟨fun t' => ?_, hr⟩
  show ∃ x c m, TInv G L K Rel (update s.thr t th t') x c m
  by_cases htt : t' = t
  · subst htt; rw [update_self]; exact ht
  · rw [update_of_ne htt]; exact h.thr t'

/-- `deleteMax`. -/
theorem TCore.pop (sim : PQSim P G.n K Rel) {th : Thread P} {x : Nat} {c : Nat → Nat → Nat} {m : Nat → Option Nat}
    (h : TCore G L K Rel th none x c m) (he : P.empty th.pq = false) :
    ∃ m', TCore G L K Rel { th with pq := (P.deleteMax th.pq).2, loc := update th.loc (P.deleteMax th.pq).1 true } none
      (P.deleteMax th.pq).1 c m' ∧ (P.deleteMax th.pq).1 < G.n ∧ ∀ u, c (P.deleteMax th.pq).1 u = 0 := by
  obtain ⟨k, hk, hmax, hrel⟩ := sim.lawful.deleteMax _ _ h.rel he
  change Rel _ _ at hrel
  change m (P.deleteMax th.pq).1 = some k at hk
  generalize P.deleteMax th.pq = dm at *
  obtain ⟨y, pq'⟩ := dm
  dsimp only at *
  obtain ⟨hyn, hyl⟩ := h.dom y k hk
  have hky : k = th.r y := by have := h.key y k hk; rwa [if_neg (by simp)] at this
  have hge : ∀ u, th.loc u = false → th.r u ≤ th.r y := by
    intro u hu
    by_cases h0 : 0 < th.r u
    · rw [← hky]; exact hmax u _ (h.inq u hu (by simp) h0)
    · omega
  have hloc : ∀ u, update th.loc y true u = false → u ≠ y ∧ th.loc u = false := by
    intro u hu
    by_cases huy : u = y
    · subst huy; rw [update_self] at hu; cases hu
    · rw [update_of_ne huy] at hu; exact ⟨huy, hu⟩
  refine ⟨update m y none, ⟨hrel, fun u k' hu => ?_, fun u k' hu => ?_, fun u hu _ h0 => ?_, h.rL, fun S u hu hS => ?_, h.cw, fun a b hab => ?_⟩, hyn, ?_⟩
  · have huy : u ≠ y := by rintro rfl; rw [update_self] at hu; cases hu
    rw [update_of_ne huy] at hu
    refine ⟨(h.dom u k' hu).1, ?_⟩
    show update th.loc y true u = false
    rw [update_of_ne huy]; exact (h.dom u k' hu).2
  · have huy : u ≠ y := by rintro rfl; rw [update_self] at hu; cases hu
    rw [update_of_ne huy] at hu
    exact h.key u k' hu
  · obtain ⟨huy, hu⟩ := hloc u hu
    rw [update_of_ne huy]
    exact h.inq u hu (by simp) h0
  · obtain ⟨huy, hu⟩ := hloc u hu
    show th.r u ≤ _
    by_cases hyx : S y = S x
    · exact h.cut S u hu (by rw [← hyx]; exact hS)
    · exact Nat.le_trans (hge u hu) (h.cut S y hyl hyx)
  · show update th.loc y true a = true
    by_cases hay : a = y
    · subst hay; rw [update_self]
    · rw [update_of_ne hay]; exact h.cl a b hab
  · intro u
    by_contra hc
    rw [h.cl y u hc] at hyl; cases hyl

/-- A requested pair is safe. -/
theorem TCore.request (hG : G.WF) {th : Thread P} {cur : Nat} {c : Nat → Nat → Nat} {m : Nat → Option Nat} {u w : Nat} {rest : List (Nat × Nat)}
    (h : TCore G L K Rel th none cur c m) (hcur : cur < G.n) (hu : u < G.n) (hul : th.loc u = false)
    (hc : c cur u + sumTo ((u, w) :: rest) u ≤ G.wt cur u) (hr : L ≤ th.r u + w) : Safe G L cur u := by
  intro S hS
  have h1 := h.cut S u hul (Ne.symm hS)
  have hcu : c u cur = 0 := by
    by_contra hc'
    rw [h.cl u cur hc'] at hul; cases hul
  rw [sumTo_cons, if_pos rfl] at hc
  have h2 : ∀ a b, bump c cur u w a b + bump c cur u w b a ≤ G.wt a b := by
    intro a b
    unfold bump
    have h3 := h.cw a b
    by_cases hab : a = cur ∧ b = u
    · obtain ⟨rfl, rfl⟩ := hab
      have hne : ¬ (b = a ∧ a = b) := by rintro ⟨rfl, -⟩; exact hS rfl
      rw [if_pos ⟨rfl, rfl⟩, if_neg hne, hcu]; omega
    · by_cases hba : b = cur ∧ a = u
      · obtain ⟨rfl, rfl⟩ := hba
        rw [if_neg hab, if_pos ⟨rfl, rfl⟩, hcu, hG.wt_symm]; omega
      · rw [if_neg hab, if_neg hba]; exact h3
  have h4 := cross_le hG h2 S
  rw [cross_bump hcur hu, if_pos hS] at h4
  omega

/-- Counting an arc to `u`. -/
theorem TCore.count (hG : G.WF) (hL : L < 2 ^ 32) {th : Thread P} {cur : Nat} {c : Nat → Nat → Nat} {m : Nat → Option Nat} {u w : Nat} {rest : List (Nat × Nat)}
    (h : TCore G L K Rel th none cur c m) (hcur : cur < G.n) (hcl : th.loc cur = true) (hu : u < G.n) (hul : th.loc u = false)
    (hc : c cur u + sumTo ((u, w) :: rest) u ≤ G.wt cur u) :
    TCore G L K Rel { th with r := update th.r u (min (th.r u + w) L % 2 ^ 32) } (some u) cur (bump c cur u w) m := by
  have hmod : min (th.r u + w) L % 2 ^ 32 = min (th.r u + w) L := Nat.mod_eq_of_lt (by omega)
  rw [hmod]
  have hne : cur ≠ u := by rintro rfl; rw [hcl] at hul; cases hul
  have hcu : c u cur = 0 := by
    by_contra hc'
    rw [h.cl u cur hc'] at hul; cases hul
  rw [sumTo_cons, if_pos rfl] at hc
  refine ⟨h.rel, h.dom, fun v k hv => ?_, fun v hv hne h0 => ?_, fun v => ?_, fun S v hv hS => ?_, fun a b => ?_, fun a b hab => ?_⟩
  · have := h.key v k hv
    rw [if_neg (by simp)] at this
    show if some u = some v then k ≤ update th.r u _ v else k = update th.r u _ v
    by_cases hvu : u = v
    · subst hvu
      have := h.rL u
      rw [if_pos rfl, update_self]; omega
    · rw [if_neg (by simpa using hvu), update_of_ne (Ne.symm hvu)]; exact this
  · have hvu : v ≠ u := by rintro rfl; exact hne rfl
    change 0 < update th.r u _ v at h0
    show m v = some (update th.r u _ v)
    rw [update_of_ne hvu] at h0 ⊢
    exact h.inq v hv (by simp) h0
  · show update th.r u _ v ≤ L
    by_cases hvu : v = u
    · subst hvu; rw [update_self]; omega
    · rw [update_of_ne hvu]; exact h.rL v
  · show update th.r u _ v ≤ _
    have := h.cut S v hv hS
    rw [cross_bump hcur hu]
    by_cases hvu : v = u
    · subst hvu; rw [update_self, if_pos (Ne.symm hS)]; omega
    · rw [update_of_ne hvu]; omega
  · unfold bump
    have h3 := h.cw a b
    by_cases hab : a = cur ∧ b = u
    · obtain ⟨rfl, rfl⟩ := hab
      have hne' : ¬ (b = a ∧ a = b) := by rintro ⟨rfl, -⟩; exact hne rfl
      rw [if_pos ⟨rfl, rfl⟩, if_neg hne', hcu]; omega
    · by_cases hba : b = cur ∧ a = u
      · obtain ⟨rfl, rfl⟩ := hba
        rw [if_neg hab, if_pos ⟨rfl, rfl⟩, hcu, hG.wt_symm]; omega
      · rw [if_neg hab, if_neg hba]; exact h3
  · unfold bump at hab
    show th.loc a = true
    split at hab
    · next hab' => rw [hab'.1]; exact hcl
    · exact h.cl a b hab

/-- The queue is brought up to date. -/
theorem TCore.queue (sim : PQSim P G.n K Rel) (hK : L ≤ K) {th : Thread P} {x : Nat} {c : Nat → Nat → Nat} {m : Nat → Option Nat} {u : Nat}
    (h : TCore G L K Rel th (some u) x c m) (hu : u < G.n) (hul : th.loc u = false) :
    ∃ m', TCore G L K Rel { th with pq := if P.contains th.pq u then P.increaseKey th.pq u (th.r u) else P.insert th.pq u (th.r u) } none x c m' := by
  have hrel : Rel (if P.contains th.pq u then P.increaseKey th.pq u (th.r u) else P.insert th.pq u (th.r u)) (update m u (some (th.r u))) := by
    have ha := (sim.agrees _ _ h.rel).contains u
    split
    · next hc =>
      obtain ⟨k, hk⟩ := ha.1 hc
      have := h.key u k hk
      rw [if_pos rfl] at this
      exact sim.increaseKey _ _ u _ k h.rel hk this (Nat.le_trans (h.rL u) hK)
    · next hc =>
      refine sim.insert _ _ u _ h.rel hu (Nat.le_trans (h.rL u) hK) ?_
      cases hm : m u with
      | none => rfl
      | some k => exact absurd (ha.2 ⟨k, hm⟩) hc
  refine ⟨update m u (some (th.r u)), hrel, fun v k hv => ?_, fun v k hv => ?_, fun v hv _ h0 => ?_, h.rL, h.cut, h.cw, h.cl⟩
  · by_cases hvu : v = u
    · subst hvu; exact ⟨hu, hul⟩
    · rw [update_of_ne hvu] at hv; exact h.dom v k hv
  · rw [if_neg (by simp)]
    by_cases hvu : v = u
    · subst hvu; rw [update_self] at hv; cases hv; rfl
    · rw [update_of_ne hvu] at hv
      have := h.key v k hv
      rwa [if_neg (by simpa using Ne.symm hvu)] at this
  · by_cases hvu : v = u
    · subst hvu; rw [update_self]
    · rw [update_of_ne hvu]
      exact h.inq v hv (by simpa using Ne.symm hvu) h0

theorem Inv.step (hG : G.WF) (sim : PQSim P G.n K Rel) (hK : L ≤ K) (hL : L < 2 ^ 32) {s : St P} (h : Inv G L K Rel s) (dis : Bool) (t : Nat)
    (hag : ∀ cur rest tgt rv, (s.thr t).pc = .again cur rest tgt rv → s.visited tgt = false) :
    Inv G L K Rel (step G L dis s t) := by
  have hsafe := h.safe
  obtain ⟨x, c, m, ht⟩ := h.thr t
  unfold PCF.step
  unfold TInv at ht
  dsimp only
  cases hpc : (s.thr t).pc with
  | outer =>
    rw [hpc] at ht
    dsimp only at ht ⊢
    cases he : P.empty (s.thr t).pq with
    | true =>
      refine h.set ?_ hsafe
      exact ⟨x, c, m, trivial⟩
    | false =>
      obtain ⟨m', h1, h2, h3⟩ := ht.pop sim he
      simp only [Bool.false_eq_true, if_false]
      split
      · refine h.set ?_ hsafe
        refine ⟨_, c, m', h1.pc _ _, rfl, h2, update_self .., fun e he => (hG.tgt_lt _ e he), fun u _ => ?_⟩
        rw [h3, Nat.zero_add]; exact Nat.le_of_eq (wt_eq_sumTo G _ u).symm
      · refine h.set ?_ hsafe
        exact ⟨_, c, m', h1.pc _ _, rfl, h2, update_self .., h3⟩
  | seen cur =>
    rw [hpc] at ht
    dsimp only at ht ⊢
    obtain ⟨h1, rfl, h2, h3, h4⟩ := ht
    refine h.set ?_ hsafe
    split
    · exact ⟨x, c, m, h1.pc _ _⟩
    · exact ⟨x, c, m, h1.pc _ _, rfl, h2, h3, h4⟩
  | mark cur =>
    rw [hpc] at ht
    dsimp only at ht ⊢
    obtain ⟨h1, rfl, h2, h3, h4⟩ := ht
    refine h.set ?_ hsafe
    refine ⟨x, c, m, h1.pc _ _, rfl, h2, h3, fun e he => (hG.tgt_lt _ e he), fun u _ => ?_⟩
    rw [h4, Nat.zero_add]; exact Nat.le_of_eq (wt_eq_sumTo G _ u).symm
  | inner cur rest =>
    rw [hpc] at ht
    dsimp only at ht
    obtain ⟨h1, rfl, h2, h3, h4, h5⟩ := ht
    cases rest with
    | nil =>
      refine h.set ?_ hsafe
      exact ⟨x, c, m, h1.pc _ _⟩
    | cons e rest =>
      obtain ⟨u, w⟩ := e
      have hrest : ∀ v, (s.thr t).loc v = false → c x v + sumTo rest v ≤ G.wt x v := by
        intro v hv
        have := h5 v hv
        rw [sumTo_cons] at this
        omega
      have hskip : ∃ y c m, TInv G L K Rel { s.thr t with pc := .inner x rest } y c m :=
        ⟨x, c, m, h1.pc _ _, rfl, h2, h3, fun e he => h4 e (List.mem_cons_of_mem _ he), hrest⟩
      dsimp only
      split
      · exact h.set hskip hsafe
      · next hul =>
        have hul : (s.thr t).loc u = false := by simpa using hul
        have hu : u < G.n := h4 (u, w) (by simp)
        split
        · have hreq : ∀ p ∈ (if (s.thr t).r u + w ≥ L ∧ (s.thr t).black u = false then (x, u) :: s.reqs else s.reqs),
              p.1 < G.n ∧ p.2 < G.n ∧ Safe G L p.1 p.2 := by
            intro p hp
            split at hp
            · next hc =>
              rcases List.mem_cons.1 hp with rfl | hp
              · exact ⟨h2, hu, h1.request hG h2 hu hul (h5 u hul) hc.1⟩
              · exact hsafe p hp
            · exact hsafe p hp
          split
          · exact h.set hskip hreq
          · have hb := h1.count hG hL h2 h3 hu hul (h5 u hul)
            refine h.set ?_ hreq
            refine ⟨x, bump c x u w, m, hb.pc _ _, rfl, h2, h3, fun e he => h4 e (List.mem_cons_of_mem _ he), fun v hv => ?_, hu, hul, ?_⟩
            · have := h5 v hv
              rw [sumTo_cons] at this
              unfold bump
              by_cases hvu : v = u
              · subst hvu; rw [if_pos ⟨rfl, rfl⟩]; rw [if_pos rfl] at this; omega
              · rw [if_neg (by rintro ⟨-, h⟩; exact hvu h)]; omega
            · show min ((s.thr t).r u + w) L = update (s.thr t).r u (min ((s.thr t).r u + w) L % 2 ^ 32) u
              rw [update_self]
              exact (Nat.mod_eq_of_lt (by omega)).symm
        · exact h.set hskip hsafe
  | again cur rest tgt rv =>
    rw [hpc] at ht
    dsimp only at ht ⊢
    obtain ⟨h1, rfl, h2, h3, h4, h5, h6, h7, h8⟩ := ht
    rw [hag _ _ _ _ hpc, h7]
    have hg : toGain rv = (s.thr t).r tgt := by
      rw [h8]; exact toGain_of_lt (Nat.lt_of_le_of_lt (h1.rL tgt) hL)
    rw [hg]
    obtain ⟨m', h9⟩ := h1.queue sim hK h6 h7
    refine h.set ?_ hsafe
    exact ⟨x, c, m', h9.pc _ _, rfl, h2, h3, h4, h5⟩
  | done => exact h

end
end PCF
end VieCut
