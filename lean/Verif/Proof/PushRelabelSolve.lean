import Verif.Proof.PushRelabelGlobal
import Verif.Spec.Multiterminal
import Mathlib.Algebra.BigOperators.Group.List.Basic
import Mathlib.Algebra.BigOperators.Group.Finset.Basic

namespace VieCut
open Finset Function

namespace PushRelabel

variable {P : PQ} {c : Cfg} {K : Nat}

/-! ### Initialisation -/

theorem init_ok (hc : CfgOk c) (hL : P.Lawful c.g.n K) (hK : ∀ d, d ≤ 2 * c.g.n → qkey c.limited d ≤ K) :
    Preflow c.g c.src (init P c).flow (init P c).excess ∧ Queue hL c.g.n (init P c) ∧
    ((init P c).reached = true → c.limited = true ∧ c.limit ≤ (init P c).excess c.sink) ∧
    (∀ v, ¬ REdge c.g (init P c).flow c.src v) ∧ (init P c).dist = update (fun _ => 0) c.src c.g.n ∧
    (init P c).count = update (update (fun _ => 0) 0 ((c.g.n : Int) - 1)) c.g.n 1 := by
  have hsn := hc.lt _ hc.src
  have key : ∀ k, k ≤ c.g.len c.src → ∀ s, (List.range k).foldl (fun s e =>
      push P c { s with excess := update s.excess c.src (s.excess c.src + (c.g.edge c.src e).weight) } c.src e c.g.n)
      ({ flow := c.flow0, excess := fun _ => 0, dist := update (fun _ => 0) c.src c.g.n,
         active := fun v => c.ts.contains v, count := update (update (fun _ => 0) 0 (c.g.n - 1)) c.g.n 1,
         q := P.init, work := 0, reached := false } : PR P.σ) = s →
      Preflow c.g c.src s.flow s.excess ∧ Queue hL c.g.n s ∧
      (s.reached = true → c.limited = true ∧ c.limit ≤ s.excess c.sink) ∧
      (∀ e, e < k → s.flow c.src e = (c.g.edge c.src e).weight) ∧ (∀ e, k ≤ e → s.flow c.src e = 0) ∧
      s.dist = update (fun _ => 0) c.src c.g.n ∧ s.count = update (update (fun _ => 0) 0 ((c.g.n : Int) - 1)) c.g.n 1 := by
    intro k
    induction k with
    | zero =>
      rintro - s rfl
      refine ⟨⟨fun u e _ _ => ?_, fun u v _ _ => ?_, fun v _ _ => ?_, fun v => le_refl _⟩, ⟨⟨_, hL.init, ?_⟩, ?_, ?_⟩, ?_,
        fun e he => by omega, fun e _ => hc.fresh _ _, rfl, rfl⟩
      · exact (hc.fresh u e).le.trans (Int.natCast_nonneg _)
      · simp [net, hc.fresh]
      · simp [out, hc.fresh]
      · intro v
        constructor
        · intro h; exact absurd rfl h
        · rintro ⟨-, h1, h2⟩; exact absurd (List.contains_iff_mem.1 h1) h2
      · intro t ht; simpa using ht
      · intro v _ _ _ hx; simp at hx
      · intro h; simp at h
    | succ k ih =>
      intro hk s hs
      rw [List.range_succ, List.foldl_append] at hs
      obtain ⟨i1, i2, i3, i4, i5, i6, i7⟩ := ih (by omega) _ rfl
      generalize (List.range k).foldl (fun s e =>
        push P c { s with excess := update s.excess c.src (s.excess c.src + (c.g.edge c.src e).weight) } c.src e c.g.n) _ = s1
        at hs i1 i2 i3 i4 i5 i6 i7
      simp only [List.foldl_cons, List.foldl_nil] at hs
      have hk' : k < c.g.len c.src := by omega
      have hne := hc.cons.noLoop c.src k hsn hk'
      -- the state with the extra excess
      obtain ⟨s2, hs2⟩ : ∃ s2 : PR P.σ, { s1 with excess := update s1.excess c.src (s1.excess c.src + (c.g.edge c.src k).weight) } = s2 :=
        ⟨_, rfl⟩
      rw [hs2] at hs
      have f1 : s2.flow = s1.flow := by rw [← hs2]
      have f2 : s2.excess = update s1.excess c.src (s1.excess c.src + (c.g.edge c.src k).weight) := by rw [← hs2]
      have f3 : s2.dist = s1.dist := by rw [← hs2]
      have f4 : s2.count = s1.count := by rw [← hs2]
      have f5 : s2.reached = s1.reached := by rw [← hs2]
      have n0 := i1.nonneg c.src
      have p2 : Preflow c.g c.src s2.flow s2.excess := by
        rw [f1, f2]
        refine ⟨i1.cap, i1.anti, fun v hv hs => by rw [update_of_ne hs]; exact i1.cons v hv hs, fun v => ?_⟩
        by_cases e : v = c.src
        · subst e; rw [update_self]; omega
        · rw [update_of_ne e]; exact i1.nonneg v
      have q2 : Queue hL c.g.n s2 := by
        rw [← hs2]
        refine ⟨i2.rel, i2.term, fun v hv hvt hvn hx => i2.full v hv hvt hvn ?_⟩
        dsimp only at hx
        rwa [update_of_ne (fun e => hvt (by rw [e]; exact hc.src))] at hx
      have r2 : s2.reached = true → c.limited = true ∧ c.limit ≤ s2.excess c.sink := by
        rw [f5, f2]
        intro hr
        obtain ⟨r1, r2⟩ := i3 hr
        refine ⟨r1, ?_⟩
        rw [update_of_ne (hc.sink r1).2]
        exact r2
      have hdk : ¬ c.g.n ≤ s2.dist (c.g.edge c.src k).target := by
        rw [f3, i6, update_of_ne hne]; omega
      have hres : res P c s2 c.src k = (c.g.edge c.src k).weight := by
        unfold res; rw [f1, i5 k (le_refl _)]; omega
      have hx : s2.excess c.src = s1.excess c.src + (c.g.edge c.src k).weight := by rw [f2, update_self]
      have ha : min (res P c s2 c.src k) (s2.excess c.src) = (c.g.edge c.src k).weight := by rw [hres, hx]; omega
      by_cases hw : (c.g.edge c.src k).weight = 0
      · rw [push_skip (Or.inr (by rw [ha, hw]; rfl))] at hs
        rw [← hs]
        refine ⟨p2, q2, r2, fun e he => ?_, fun e he => ?_, f3.trans i6, f4.trans i7⟩
        · rw [f1]
          rcases Nat.lt_succ_iff_lt_or_eq.1 he with h1 | h1
          · exact i4 e h1
          · subst h1; rw [i5 e (le_refl _), hw]; rfl
        · rw [f1]; exact i5 e (by omega)
      · have hP := push_spec hc hK (hL := hL) (x := c.g.n) hsn hk' (by omega : c.g.n ≤ 2 * c.g.n) hdk ha (by omega)
        rw [hs] at hP
        refine ⟨?_, hP.queue q2, ?_, fun e he => ?_, fun e he => ?_, hP.dist.trans (f3.trans i6), hP.count.trans (f4.trans i7)⟩
        · rw [hP.flow, hP.excess]
          exact p2.send hc.cons hsn hk' (by omega) (by rw [f1, i5 k (le_refl _)]; omega) (by rw [hx]; omega)
        · intro hr
          by_cases hsk : c.src = c.sink
          · by_cases hlim : c.limited = true
            · exact absurd hsk.symm (hc.sink hlim).2
            · exact absurd (r2 (hP.unlimited hlim hr)).1 hlim
          · exact hP.reach hsk r2 hr
        · rw [hP.flow, sent_self hc.cons hsn hk', f1]
          rcases Nat.lt_succ_iff_lt_or_eq.1 he with h1 | h1
          · rw [update_of_ne (by omega)]; exact i4 e h1
          · subst h1; rw [update_self, i5 e (le_refl _)]; omega
        · rw [hP.flow, sent_self hc.cons hsn hk', f1, update_of_ne (by omega)]
          exact i5 e (by omega)
  obtain ⟨k1, k2, k3, k4, k5, k6, k7⟩ := key _ (le_refl _) _ rfl
  refine ⟨k1, k2, k3, ?_, k6, k7⟩
  rintro v ⟨-, e, he, -, hlt⟩
  have h0 := k4 e he
  unfold init at hlt
  dsimp only at hlt
  rw [h0] at hlt
  omega

theorem start_inv (hc : CfgOk c) (hL : P.Lawful c.g.n K) (hK : ∀ d, d ≤ 2 * c.g.n → qkey c.limited d ≤ K) :
    Inv hL c.g.n (globalRelabel P c true (init P c)) := by
  obtain ⟨h1, h2, h3, h4, h5, h6⟩ := init_ok hc hL hK
  generalize init P c = s at *
  have hlab := globalRelabel_initial (P := P) hc h4 (fun v hv => by rw [h5, update_of_ne hv]) (by rw [h5, update_self])
    (fun l l1 l2 => by rw [h6, update_of_ne (by omega), update_of_ne (by omega)])
  exact ⟨h1, hlab, ⟨h2.rel, h2.term, h2.full⟩, h3⟩

/-! ### The main loop -/

/-- The state after one round. -/
def round (P : PQ) (c : Cfg) (trigger : Nat → Bool) (s : PR P.σ) : PR P.σ :=
  if trigger s.work then { globalRelabel P c false s with work := 0 } else s

theorem round_ok (hc : CfgOk c) {hL : P.Lawful c.g.n K} (trigger : Nat → Bool) {y : Nat} {s : PR P.σ} (h : Inv hL y s) :
    Inv hL y (round P c trigger s) ∧ (∀ v, v < c.g.n → s.dist v ≤ (round P c trigger s).dist v) ∧
      (round P c trigger s).active = s.active := by
  unfold round
  split
  · obtain ⟨h1, h2⟩ := globalRelabel_ok hc h
    exact ⟨⟨h1.pre, h1.lab, ⟨h1.queue.rel, h1.queue.term, h1.queue.full⟩, h1.reach⟩, h2, rfl⟩
  · exact ⟨h, fun v _ => le_refl _, rfl⟩

theorem pop_ok {hL : P.Lawful c.g.n K} {s : PR P.σ} (h : Inv hL c.g.n s) (he : P.empty s.q = false) :
    (P.deleteMax s.q).1 < c.g.n ∧ (P.deleteMax s.q).1 ∉ c.ts ∧ s.active (P.deleteMax s.q).1 = true ∧
    Inv hL (P.deleteMax s.q).1 { s with q := (P.deleteMax s.q).2, active := update s.active (P.deleteMax s.q).1 false } := by
  obtain ⟨m, hm, hmv⟩ := h.queue.rel
  obtain ⟨k, k1, -, k3⟩ := hL.deleteMax _ _ hm he
  have h1 := (hmv (P.deleteMax s.q).1).1 (by rw [k1]; simp)
  generalize (P.deleteMax s.q).1 = u at *
  refine ⟨h1.1, h1.2.2, h1.2.1, h.pre, h.lab, ⟨⟨_, k3, fun v => ?_⟩, fun t ht => ?_, fun v hv hvt hvu hx => ?_⟩, h.reach⟩
  · dsimp only
    by_cases e : v = u
    · subst e; simp
    · rw [update_of_ne e, update_of_ne e]; exact hmv v
  · dsimp only
    rw [update_of_ne (fun e => h1.2.2 (by rw [← e]; exact ht))]
    exact h.queue.term t ht
  · dsimp only
    rw [update_of_ne hvu]
    exact h.queue.full v hv hvt (by omega) hx

/-- What is known when the main loop ends. -/
structure Final (hL : P.Lawful c.g.n K) (r : PR P.σ × Bool) : Prop where
  inv : Inv hL c.g.n r.1
  limit : r.2 = true → c.limited = true ∧ c.limit ≤ r.1.excess c.sink
  rest : r.2 = false → ∀ v, v < c.g.n → v ∉ c.ts → r.1.excess v = 0

theorem final_of_empty {hL : P.Lawful c.g.n K} {s : PR P.σ} (h : Inv hL c.g.n s) (he : P.empty s.q = true) :
    Final hL (s, false) := by
  refine ⟨h, fun h => by simp at h, fun _ v hv hvt => ?_⟩
  obtain ⟨m, hm, hmv⟩ := h.queue.rel
  have h1 := (hL.empty_iff _ _ hm).1 he v
  have h2 := h.pre.nonneg v
  by_contra hc
  have h3 := h.queue.full v hv hvt (by omega) (by dsimp only at hc; omega)
  exact (hmv v).2 ⟨hv, h3, hvt⟩ h1

theorem mainLoop_final (hc : CfgOk c) {hL : P.Lawful c.g.n K} (hK : ∀ d, d ≤ 2 * c.g.n → qkey c.limited d ≤ K)
    (trigger : Nat → Bool) : ∀ (fuel : Nat) (s : PR P.σ) (r : PR P.σ × Bool), Inv hL c.g.n s →
      mainLoop P c trigger fuel s = some r → Final hL r := by
  intro fuel
  induction fuel with
  | zero => intro s r _ h; simp [mainLoop] at h
  | succ fuel ih =>
    intro s r hs h
    unfold mainLoop at h
    by_cases he : P.empty s.q = true
    · rw [if_pos he] at h
      cases h
      exact final_of_empty hs he
    · rw [if_neg he] at h
      have he' : P.empty s.q = false := by simpa using he
      dsimp only at h
      obtain ⟨p1, p2, p3, p4⟩ := pop_ok hs he'
      obtain ⟨d1, d2, d3⟩ := discharge_ok hc hK p4 p1 p2 c.g.n
      generalize discharge P c _ _ = s1 at *
      split at h
      · rename_i hr
        rw [Bool.and_eq_true] at hr
        cases h
        exact ⟨d1, fun _ => d1.reach hr.2, fun h => by simp at h⟩
      · exact ih _ r (round_ok hc trigger d1).1 h

/-- Sum of the remaining label increases. -/
def room (c : Cfg) (d : Nat → Nat) : Nat := ∑ v ∈ range c.g.n, (2 * c.g.n - d v)

/-- Weight of the active vertices. -/
def load (c : Cfg) (d : Nat → Nat) (a : Nat → Bool) : Nat :=
  ∑ v ∈ range c.g.n, if a v = true ∧ v ∉ c.ts then (c.g.n + 1) ^ d v else 0

theorem room_le {d d' : Nat → Nat} (h : ∀ v, v < c.g.n → d v ≤ d' v) : room c d' ≤ room c d := by
  unfold room
  refine Finset.sum_le_sum fun v hv => ?_
  have := h v (Finset.mem_range.1 hv)
  omega

theorem room_lt {d d' : Nat → Nat} (h : ∀ v, v < c.g.n → d v ≤ d' v) {u : Nat} (hu : u < c.g.n) (h1 : d u < d' u)
    (h2 : d u < 2 * c.g.n) : room c d' < room c d := by
  unfold room
  refine Finset.sum_lt_sum (fun v hv => ?_) ⟨u, Finset.mem_range.2 hu, by omega⟩
  have := h v (Finset.mem_range.1 hv)
  omega

theorem load_lt {d : Nat → Nat} {a a' : Nat → Bool} {u : Nat} (hu : u < c.g.n) (hut : u ∉ c.ts) (hau : a u = true)
    (hd : 1 ≤ d u) (h : ∀ v, a' v = true → (v ≠ u ∧ a v = true) ∨ d v < d u) : load c d a' < load c d a := by
  have h1 : load c d a' ≤ (∑ v ∈ range c.g.n, if (v ≠ u ∧ a v = true) ∧ v ∉ c.ts then (c.g.n + 1) ^ d v else 0) +
      ∑ v ∈ range c.g.n, (c.g.n + 1) ^ (d u - 1) := by
    unfold load
    rw [← Finset.sum_add_distrib]
    refine Finset.sum_le_sum fun v _ => ?_
    by_cases h2 : a' v = true ∧ v ∉ c.ts
    · rw [if_pos h2]
      rcases h v h2.1 with h3 | h3
      · rw [if_pos ⟨h3, h2.2⟩]; omega
      · have : (c.g.n + 1) ^ d v ≤ (c.g.n + 1) ^ (d u - 1) := Nat.pow_le_pow_right (by omega) (by omega)
        omega
    · rw [if_neg h2]; omega
  have h2 : load c d a = (c.g.n + 1) ^ d u +
      ∑ v ∈ range c.g.n, if (v ≠ u ∧ a v = true) ∧ v ∉ c.ts then (c.g.n + 1) ^ d v else 0 := by
    unfold load
    rw [← Finset.add_sum_erase _ _ (Finset.mem_range.2 hu), if_pos ⟨hau, hut⟩,
      ← Finset.add_sum_erase (range c.g.n) (fun v => if (v ≠ u ∧ a v = true) ∧ v ∉ c.ts then (c.g.n + 1) ^ d v else 0)
        (Finset.mem_range.2 hu)]
    rw [if_neg (by simp), zero_add]
    congr 1
    refine Finset.sum_congr rfl fun v hv => ?_
    have := Finset.ne_of_mem_erase hv
    simp [this]
  have h3 : ∑ v ∈ range c.g.n, (c.g.n + 1) ^ (d u - 1) < (c.g.n + 1) ^ d u := by
    rw [Finset.sum_const_nat (m := (c.g.n + 1) ^ (d u - 1)) (fun _ _ => rfl), Finset.card_range]
    obtain ⟨k, hk⟩ : ∃ k, d u = k + 1 := ⟨d u - 1, by omega⟩
    rw [hk, Nat.add_sub_cancel, pow_succ, Nat.mul_comm]
    exact Nat.mul_lt_mul_of_pos_left (by omega) (Nat.pow_pos (by omega))
  omega

theorem mainLoop_terminates (hc : CfgOk c) {hL : P.Lawful c.g.n K} (hK : ∀ d, d ≤ 2 * c.g.n → qkey c.limited d ≤ K)
    (trigger : Nat → Bool) (s : PR P.σ) (hs : Inv hL c.g.n s) : ∃ fuel r, mainLoop P c trigger fuel s = some r := by
  obtain ⟨A, hA⟩ : ∃ A, room c s.dist = A := ⟨_, rfl⟩
  induction A using Nat.strong_induction_on generalizing s with
  | _ A ihA =>
    obtain ⟨B, hB⟩ : ∃ B, load c s.dist s.active = B := ⟨_, rfl⟩
    induction B using Nat.strong_induction_on generalizing s with
    | _ B ihB =>
      by_cases he : P.empty s.q = true
      · exact ⟨1, _, by unfold mainLoop; rw [if_pos he]⟩
      have he' : P.empty s.q = false := by simpa using he
      obtain ⟨p1, p2, p3, p4⟩ := pop_ok hs he'
      obtain ⟨d1, d2, d3⟩ := discharge_ok hc hK p4 p1 p2 c.g.n
      have hstep : ∀ fuel, mainLoop P c trigger (fuel + 1) s =
          (if (c.limited && (discharge P c { s with q := (P.deleteMax s.q).2, active := update s.active (P.deleteMax s.q).1 false }
              (P.deleteMax s.q).1).reached) = true then
            some (discharge P c { s with q := (P.deleteMax s.q).2, active := update s.active (P.deleteMax s.q).1 false }
              (P.deleteMax s.q).1, true)
          else mainLoop P c trigger fuel (round P c trigger (discharge P c { s with q := (P.deleteMax s.q).2, active := update s.active (P.deleteMax s.q).1 false }
              (P.deleteMax s.q).1))) := by
        intro fuel
        rw [mainLoop, if_neg he]
        rfl
      generalize discharge P c _ _ = s1 at *
      obtain ⟨r1, r2, r3⟩ := round_ok hc trigger d1
      generalize round P c trigger s1 = s2 at *
      generalize (P.deleteMax s.q).1 = u at *
      have d2 : ∀ v, v < c.g.n → s.dist v ≤ s1.dist v := d2
      have hmono : ∀ v, v < c.g.n → s.dist v ≤ s2.dist v := fun v hv => (d2 v hv).trans (r2 v hv)
      have hcont : ∃ fuel r, mainLoop P c trigger fuel s2 = some r := by
        by_cases hlt : room c s2.dist < A
        · exact ihA _ hlt s2 r1 rfl
        · have hle := room_le hmono
          have hAeq : room c s2.dist = A := by omega
          have hsame : ∀ v, v < c.g.n → s2.dist v = s.dist v := by
            intro v hv
            by_contra hne
            have h1 := hmono v hv
            have h2 := hs.lab.le v hv
            have := room_lt hmono hv (by omega) (by omega)
            omega
          have hload : load c s2.dist s2.active < B := by
            have e1 : load c s2.dist s2.active = load c s.dist s1.active := by
              unfold load
              rw [r3]
              refine Finset.sum_congr rfl fun v hv => ?_
              rw [hsame v (Finset.mem_range.1 hv)]
            rw [e1, ← hB]
            have hno : ¬ s.dist u < s1.dist u := by
              have h1 := r2 u p1
              have h2 := hsame u p1
              omega
            have d3' := (d3.resolve_left hno).2
            refine load_lt p1 p2 p3 (hs.lab.pos u p1 p2) fun v hv => ?_
            rcases d3' v hv with h1 | h1
            · left
              dsimp only at h1
              by_cases e : v = u
              · rw [e, update_self] at h1; simp at h1
              · rw [update_of_ne e] at h1; exact ⟨e, h1⟩
            · exact Or.inr h1
          exact ihB _ hload s2 r1 hAeq rfl
      obtain ⟨fuel, r, hr⟩ := hcont
      by_cases hcnd : (c.limited && s1.reached) = true
      · exact ⟨fuel + 1, _, by rw [hstep, if_pos hcnd]⟩
      · exact ⟨fuel + 1, r, by rw [hstep, if_neg hcnd]; exact hr⟩

theorem mainLoop_mono (trigger : Nat → Bool) : ∀ (fuel : Nat) (s : PR P.σ) (r : PR P.σ × Bool),
    mainLoop P c trigger fuel s = some r → ∀ k, fuel ≤ k → mainLoop P c trigger k s = some r := by
  intro fuel
  induction fuel with
  | zero => intro s r h; simp [mainLoop] at h
  | succ fuel ih =>
    intro s r h k hk
    obtain ⟨k, rfl⟩ : ∃ j, k = j + 1 := ⟨k - 1, by omega⟩
    unfold mainLoop at h ⊢
    split
    · rename_i he; rw [if_pos he] at h; exact h
    · rename_i he
      rw [if_neg he] at h
      dsimp only at h ⊢
      split
      · rename_i hr; rw [if_pos hr] at h; exact h
      · rename_i hr; rw [if_neg hr] at h
        exact ih _ r h k (by omega)

end PushRelabel
end VieCut
