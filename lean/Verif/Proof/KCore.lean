import Verif.Model.KCore
import Mathlib.Data.Finset.Card
import Mathlib.Data.Finset.Range
import Mathlib.Data.List.Count
import Mathlib.Data.List.Nodup
import Mathlib.Data.Fintype.EquivFin

/-! # Correctness of the k-core decomposition -/

namespace VieCut
open Function
namespace KCores

/-- Number of vertices of degree below `d`. -/
def cnt (n : Nat) (D : Nat → Nat) (d : Nat) : Nat := ((Finset.range n).filter (fun v => D v < d)).card

/-- Number of vertices below `m` of degree `d`. -/
def eqc (m : Nat) (D : Nat → Nat) (d : Nat) : Nat := ((Finset.range m).filter (fun v => D v = d)).card

theorem cnt_succ (n : Nat) (D : Nat → Nat) (d : Nat) : cnt n D (d + 1) = cnt n D d + eqc n D d := by
  unfold cnt eqc
  rw [← Finset.card_union_of_disjoint]
  · congr 1
    ext v
    simp only [Finset.mem_filter, Finset.mem_union, Finset.mem_range]
    omega
  · rw [Finset.disjoint_filter]
    intro v _ h; omega

theorem cnt_mono (n : Nat) (D : Nat → Nat) {d e : Nat} (h : d ≤ e) : cnt n D d ≤ cnt n D e := by
  refine Finset.card_le_card fun v hv => ?_
  simp only [Finset.mem_filter] at hv ⊢
  exact ⟨hv.1, by omega⟩

theorem cnt_zero (n : Nat) (D : Nat → Nat) : cnt n D 0 = 0 := by simp [cnt]

theorem cnt_le (n : Nat) (D : Nat → Nat) (d : Nat) : cnt n D d ≤ n := by
  unfold cnt
  exact (Finset.card_filter_le _ _).trans (by simp)

theorem cnt_congr {n : Nat} {D E : Nat → Nat} (h : ∀ v, v < n → D v = E v) (d : Nat) : cnt n D d = cnt n E d := by
  unfold cnt
  congr 1
  refine Finset.filter_congr fun v hv => ?_
  rw [h v (by simpa using hv)]

theorem eqc_succ (m : Nat) (D : Nat → Nat) (d : Nat) : eqc (m + 1) D d = eqc m D d + (if D m = d then 1 else 0) := by
  unfold eqc
  rw [Finset.range_add_one, Finset.filter_insert]
  split
  · rw [Finset.card_insert_of_notMem (by simp)]
  · simp

theorem eqc_mono {m m' : Nat} (D : Nat → Nat) (d : Nat) (h : m ≤ m') : eqc m D d ≤ eqc m' D d := by
  refine Finset.card_le_card fun v hv => ?_
  simp only [Finset.mem_filter, Finset.mem_range] at hv ⊢
  exact ⟨by omega, hv.2⟩

/-- Rank of `v` in the bucket sort. -/
def rank (n : Nat) (D : Nat → Nat) (v : Nat) : Nat := cnt n D (D v) + eqc v D (D v)

theorem rank_lt {n : Nat} {D : Nat → Nat} {v : Nat} (hv : v < n) : rank n D v < cnt n D (D v + 1) := by
  rw [cnt_succ]
  unfold rank
  have h1 := eqc_mono D (D v) (show v + 1 ≤ n by omega)
  rw [eqc_succ, if_pos rfl] at h1
  omega

theorem rank_inj {n : Nat} {D : Nat → Nat} {u v : Nat} (hu : u < n) (hv : v < n) (h : rank n D u = rank n D v) :
    u = v := by
  have key : ∀ a b, a < n → b < n → D a < D b → rank n D a < rank n D b := by
    intro a b ha _ hab
    have := rank_lt (D := D) ha
    have := cnt_mono n D (show D a + 1 ≤ D b by omega)
    have : cnt n D (D b) ≤ rank n D b := Nat.le_add_right _ _
    omega
  have key2 : ∀ a b, D a = D b → a < b → rank n D a < rank n D b := by
    intro a b hab hlt
    have := eqc_mono D (D b) (show a + 1 ≤ b by omega)
    rw [eqc_succ, if_pos hab] at this
    unfold rank
    rw [hab]; omega
  rcases lt_trichotomy (D u) (D v) with h1 | h1 | h1
  · have := key u v hu hv h1; omega
  · rcases lt_trichotomy u v with h2 | h2 | h2
    · have := key2 u v h1 h2; omega
    · exact h2
    · have := key2 v u h1.symm h2; omega
  · have := key v u hv hu h1; omega

/-- The arrays describe a sorting of the vertices by degree. -/
structure Arr (n : Nat) (s : KCores) : Prop where
  posn : ∀ v, v < n → s.pos v < n ∧ s.vert (s.pos v) = v
  vertn : ∀ i, i < n → s.vert i < n ∧ s.pos (s.vert i) = i
  lo : ∀ v, v < n → cnt n s.deg (s.deg v) ≤ s.pos v
  hi : ∀ v, v < n → s.pos v < cnt n s.deg (s.deg v + 1)
  buck : ∀ d, d < s.size → s.buck d = cnt n s.deg d
  bound : ∀ v, v < n → s.deg v < s.size

theorem Arr.le_of_lt {n : Nat} {s : KCores} (h : Arr n s) {u v : Nat} (hu : u < n) (hv : v < n)
    (hlt : s.pos u ≤ s.pos v) : s.deg u ≤ s.deg v := by
  by_contra hc
  have h1 := h.hi v hv
  have h2 := h.lo u hu
  have := cnt_mono n s.deg (show s.deg v + 1 ≤ s.deg u by omega)
  omega

theorem count_fold (G : Graph) : ∀ m,
    let s := (List.range m).foldl (countStep G)
      { deg := fun _ => 0, vert := fun _ => 0, pos := fun _ => 0, buck := fun _ => 0, size := 1 }
    (∀ v, v < m → s.deg v = G.udeg v ∧ G.udeg v < s.size) ∧ (∀ d, s.buck d = eqc m G.udeg d) ∧ 1 ≤ s.size
  | 0 => by simp [eqc]
  | m + 1 => by
    have ih := count_fold G m
    rw [List.range_succ, List.foldl_append]
    dsimp only at ih ⊢
    generalize (List.range m).foldl (countStep G)
      { deg := fun _ => 0, vert := fun _ => 0, pos := fun _ => 0, buck := fun _ => 0, size := 1 } = s at ih ⊢
    obtain ⟨h1, h2, h3⟩ := ih
    simp only [List.foldl_cons, List.foldl_nil, countStep]
    refine ⟨fun v hv => ?_, fun d => ?_, ?_⟩
    · by_cases hvm : v = m
      · subst hvm
        refine ⟨by simp, ?_⟩
        split <;> omega
      · rw [update_of_ne hvm]
        have := h1 v (by omega)
        refine ⟨this.1, ?_⟩
        split <;> omega
    · rw [eqc_succ]
      by_cases hd : d = G.udeg m
      · subst hd; simp [h2]
      · rw [update_of_ne hd, h2, if_neg (Ne.symm hd)]; rfl
    · split <;> omega

theorem prefix_fold (n : Nat) (D : Nat → Nat) (b : Nat → Nat) (hb : ∀ d, b d = eqc n D d) : ∀ k,
    let r := (List.range k).foldl prefixStep (b, 0)
    (∀ d, d < k → r.1 d = cnt n D d) ∧ (∀ d, k ≤ d → r.1 d = b d) ∧ r.2 = cnt n D k
  | 0 => by simp [cnt_zero]
  | k + 1 => by
    obtain ⟨h1, h2, h3⟩ := prefix_fold n D b hb k
    rw [List.range_succ, List.foldl_append]
    simp only [List.foldl_cons, List.foldl_nil, prefixStep]
    refine ⟨fun d hd => ?_, fun d hd => ?_, ?_⟩
    · by_cases hdk : d = k
      · subst hdk; simp [h3]
      · rw [update_of_ne hdk]; exact h1 d (by omega)
    · rw [update_of_ne (by omega)]; exact h2 d (by omega)
    · rw [h3, h2 k (le_refl _), hb, cnt_succ]

theorem place_fold (G : Graph) (n : Nat) (s0 : KCores) (hb : ∀ d, d < s0.size → s0.buck d = cnt n G.udeg d)
    (hsz : ∀ v, v < n → G.udeg v < s0.size) : ∀ m, m ≤ n →
    let s := (List.range m).foldl (placeStep G) s0
    (∀ v, v < m → s.pos v = rank n G.udeg v ∧ s.vert (s.pos v) = v) ∧
    (∀ d, d < s0.size → s.buck d = cnt n G.udeg d + eqc m G.udeg d) ∧ s.deg = s0.deg ∧ s.size = s0.size
  | 0, _ => by simp [eqc]; exact hb
  | m + 1, hm => by
    have ih := place_fold G n s0 hb hsz m (by omega)
    rw [List.range_succ, List.foldl_append]
    dsimp only at ih ⊢
    generalize (List.range m).foldl (placeStep G) s0 = s at ih ⊢
    obtain ⟨h1, h2, h3, h4⟩ := ih
    have hbm : s.buck (G.udeg m) = rank n G.udeg m := h2 _ (hsz m (by omega))
    simp only [List.foldl_cons, List.foldl_nil, placeStep]
    refine ⟨fun v hv => ?_, fun d hd => ?_, h3, h4⟩
    · by_cases hvm : v = m
      · subst hvm; simp [hbm]
      · obtain ⟨a, b⟩ := h1 v (by omega)
        rw [update_of_ne hvm]
        refine ⟨a, ?_⟩
        rw [hbm, update_of_ne]
        · exact b
        · rw [a]; exact fun hh => hvm (rank_inj (by omega) (by omega) hh)
    · rw [eqc_succ]
      by_cases hdm : d = G.udeg m
      · subst hdm; simp only [update_self, if_true]; rw [h2 _ hd]; omega
      · rw [update_of_ne hdm, h2 d hd, if_neg (Ne.symm hdm)]; rfl

theorem shift_fold (b : Nat → Nat) (M : Nat) : ∀ k, k ≤ M →
    let r := ((List.range k).map (fun i => M - i)).foldl shiftStep b
    (∀ d, M - k < d → d ≤ M → r d = b (d - 1)) ∧ (∀ d, d ≤ M - k → r d = b d)
  | 0, _ => by
    refine ⟨fun d h1 h2 => by omega, fun d _ => rfl⟩
  | k + 1, hk => by
    obtain ⟨h1, h2⟩ := shift_fold b M k (by omega)
    rw [List.range_succ, List.map_append, List.foldl_append]
    simp only [List.map_cons, List.map_nil, List.foldl_cons, List.foldl_nil, shiftStep]
    refine ⟨fun d hd hd' => ?_, fun d hd => ?_⟩
    · by_cases hdk : d = M - k
      · subst hdk; rw [update_self]; exact h2 _ (by omega)
      · rw [update_of_ne hdk]; exact h1 d (by omega) hd'
    · rw [update_of_ne (by omega)]; exact h2 d (by omega)

theorem prepare_arr (G : Graph) : Arr G.n (prepare G) ∧ ∀ v, v < G.n → (prepare G).deg v = G.udeg v := by
  obtain ⟨c1, c2, c3⟩ := count_fold G G.n
  unfold prepare
  dsimp only
  generalize (List.range G.n).foldl (countStep G)
      { deg := fun _ => 0, vert := fun _ => 0, pos := fun _ => 0, buck := fun _ => 0, size := 1 } = s1 at c1 c2 c3 ⊢
  obtain ⟨p1, -, -⟩ := prefix_fold G.n G.udeg s1.buck c2 s1.size
  generalize ((List.range s1.size).foldl prefixStep (s1.buck, 0)).1 = b2 at p1 ⊢
  obtain ⟨q1, q2, q3, q4⟩ := place_fold G G.n { s1 with buck := b2 } p1 (fun v hv => (c1 v hv).2) G.n (le_refl _)
  generalize (List.range G.n).foldl (placeStep G) { s1 with buck := b2 } = s3 at q1 q2 q3 q4 ⊢
  replace q4 : s3.size = s1.size := q4
  replace q2 : ∀ d, d < s1.size → s3.buck d = cnt G.n G.udeg d + eqc G.n G.udeg d := q2
  obtain ⟨r1, r2⟩ := shift_fold s3.buck (s3.size - 1) (s3.size - 1) (le_refl _)
  generalize ((List.range (s3.size - 1)).map (fun i => s3.size - 1 - i)).foldl shiftStep s3.buck = b4 at r1 r2 ⊢
  have hdeg : ∀ v, v < G.n → s3.deg v = G.udeg v := fun v hv => by rw [q3]; exact (c1 v hv).1
  have hcnt : ∀ d, cnt G.n s3.deg d = cnt G.n G.udeg d := fun d => cnt_congr hdeg d
  have hposn : ∀ v, v < G.n → s3.pos v < G.n ∧ s3.vert (s3.pos v) = v := by
    intro v hv
    obtain ⟨a, b⟩ := q1 v hv
    refine ⟨?_, b⟩
    rw [a]
    have := rank_lt (D := G.udeg) hv
    have := cnt_le G.n G.udeg (G.udeg v + 1)
    omega
  refine ⟨{ posn := hposn, vertn := ?_, lo := ?_, hi := ?_, buck := ?_, bound := ?_ }, hdeg⟩
  · intro i hi
    have hsurj : ∃ v, v < G.n ∧ s3.pos v = i := by
      have hinj : Function.Injective (fun v : Fin G.n => (⟨s3.pos v.1, (hposn v.1 v.2).1⟩ : Fin G.n)) := by
        intro u v huv
        have h1 : s3.pos u.1 = s3.pos v.1 := congrArg Fin.val huv
        have h2 := (hposn u.1 u.2).2
        rw [h1, (hposn v.1 v.2).2] at h2
        exact Fin.ext h2.symm
      obtain ⟨v, hv⟩ := (Finite.injective_iff_surjective.1 hinj) ⟨i, hi⟩
      exact ⟨v.1, v.2, congrArg Fin.val hv⟩
    obtain ⟨v, hv, rfl⟩ := hsurj
    show s3.vert (s3.pos v) < G.n ∧ s3.pos (s3.vert (s3.pos v)) = s3.pos v
    rw [(hposn v hv).2]
    exact ⟨hv, rfl⟩
  · intro v hv
    show cnt G.n s3.deg (s3.deg v) ≤ s3.pos v
    rw [hcnt, hdeg v hv, (q1 v hv).1]
    exact Nat.le_add_right _ _
  · intro v hv
    show s3.pos v < cnt G.n s3.deg (s3.deg v + 1)
    rw [hcnt, hdeg v hv, (q1 v hv).1]
    exact rank_lt hv
  · intro d hd
    show update b4 0 0 d = cnt G.n s3.deg d
    change d < s3.size at hd
    rw [hcnt]
    by_cases h0 : d = 0
    · subst h0; rw [update_self, cnt_zero]
    · rw [update_of_ne h0, r1 d (by omega) (by omega), q2 (d - 1) (by omega), ← cnt_succ]
      congr 1; omega
  · intro v hv
    show s3.deg v < s3.size
    rw [hdeg v hv, q4]; exact (c1 v hv).2

theorem cnt_dec {n : Nat} {D : Nat → Nat} {t : Nat} (ht : t < n) (h0 : 0 < D t) (d : Nat) :
    cnt n (update D t (D t - 1)) d = cnt n D d + (if d = D t then 1 else 0) := by
  unfold cnt
  by_cases hd : d = D t
  · rw [if_pos hd]
    have : (Finset.range n).filter (fun v => update D t (D t - 1) v < d) =
        insert t ((Finset.range n).filter (fun v => D v < d)) := by
      ext v
      simp only [Finset.mem_filter, Finset.mem_insert, Finset.mem_range]
      by_cases hv : v = t
      · subst hv; simp only [update_self, true_or, iff_true]; omega
      · rw [update_of_ne hv]; simp [hv]
    rw [this, Finset.card_insert_of_notMem]
    simp [hd]
  · rw [if_neg hd, Nat.add_zero]
    congr 1
    refine Finset.filter_congr fun v _ => ?_
    by_cases hv : v = t
    · subst hv; simp only [update_self]; omega
    · rw [update_of_ne hv]

/-- One edge of the main loop. -/
theorem edge_spec {n : Nat} {s : KCores} (h : Arr n s) {v t : Nat} (hv : v < n) (ht : t < n) :
    ∃ s', edgeStep n v s t = some s' ∧ Arr n s' ∧ s'.size = s.size ∧
      s'.deg = (if s.deg t > s.deg v then update s.deg t (s.deg t - 1) else s.deg) ∧
      (∀ u, u < n → s.pos u ≤ s.pos v → s'.pos u = s.pos u) ∧
      (∀ u, u < n → s.pos v < s.pos u → s.pos v < s'.pos u) := by
  unfold edgeStep
  rw [if_neg (by omega)]
  by_cases hgt : s.deg t > s.deg v
  · rw [if_pos hgt, if_pos hgt]
    have hbt := h.bound t ht
    have hbk := h.buck _ hbt
    have hlt : cnt n s.deg (s.deg t) < n := by
      have := h.lo t ht; have := (h.posn t ht).1; omega
    rw [if_neg (by omega), if_neg (by rw [hbk]; omega), hbk]
    set D := s.deg t with hD
    set p := cnt n s.deg D with hp
    obtain ⟨hxn, hxp⟩ := h.vertn p hlt
    set x := s.vert p with hx
    have hcv : s.pos v < p := by
      have := h.hi v hv; have := cnt_mono n s.deg (show s.deg v + 1 ≤ D by omega); omega
    have hpt : p ≤ s.pos t := h.lo t ht
    have hpt2 : s.pos t < cnt n s.deg (D + 1) := h.hi t ht
    have hcs := cnt_succ n s.deg D
    have hxD : s.deg x = D := by
      have h1 := h.lo x hxn
      have h2 := h.hi x hxn
      rw [hxp] at h1 h2
      rcases lt_trichotomy (s.deg x) D with h3 | h3 | h3
      · have := cnt_mono n s.deg (show s.deg x + 1 ≤ D by omega); omega
      · exact h3
      · have := cnt_mono n s.deg (show D + 1 ≤ s.deg x by omega); omega
    have hinj : ∀ a b, a < n → b < n → s.pos a = s.pos b → a = b := by
      intro a b ha hb hab
      rw [← (h.posn a ha).2, ← (h.posn b hb).2, hab]
    -- the swap, whether or not `t = x`
    let s1 : KCores := { s with pos := update (update s.pos t p) x (s.pos t), vert := update (update s.vert (s.pos t) x) p t }
    have hs1 : (if t ≠ x then s1 else s) = s1 := by
      by_cases htx : t = x
      · rw [if_neg (by simpa using htx)]
        show s = { s with pos := update (update s.pos t p) x (s.pos t), vert := update (update s.vert (s.pos t) x) p t }
        have e1 : update (update s.pos t p) x (s.pos t) = s.pos := by
          funext u
          by_cases hu : u = x
          · subst hu; rw [update_self, htx]
          · rw [update_of_ne hu, update_of_ne (by rw [htx]; exact hu)]
        have hptp : s.pos t = p := by rw [htx]; exact hxp
        have e2 : update (update s.vert (s.pos t) x) p t = s.vert := by
          funext u
          by_cases hu : u = p
          · subst hu; rw [update_self, htx]
          · rw [update_of_ne hu, update_of_ne (by rw [hptp]; exact hu)]
        rw [e1, e2]
      · rw [if_pos htx]
    refine ⟨{ s1 with buck := update s.buck D (p + 1), deg := update s.deg t (D - 1) }, ?_, ?_, rfl, rfl, ?_, ?_⟩
    · show some ({ (if t ≠ x then s1 else s) with
        buck := update (if t ≠ x then s1 else s).buck D ((if t ≠ x then s1 else s).buck D + 1),
        deg := update (if t ≠ x then s1 else s).deg t ((if t ≠ x then s1 else s).deg t - 1) } : KCores) = _
      rw [hs1]
      show some (KCores.mk (update s.deg t (s.deg t - 1)) s1.vert s1.pos (update s.buck D (s.buck D + 1)) s.size) = _
      rw [hbk]
    · -- positions after the swap
      have hP : ∀ u, u < n → s1.pos u = if u = x then s.pos t else if u = t then p else s.pos u := by
        intro u _
        show update (update s.pos t p) x (s.pos t) u = _
        by_cases h1 : u = x
        · subst h1; simp
        · rw [update_of_ne h1, if_neg h1]
          by_cases h2 : u = t
          · subst h2; simp
          · rw [update_of_ne h2, if_neg h2]
      have hcd : ∀ d, cnt n (update s.deg t (D - 1)) d = cnt n s.deg d + (if d = D then 1 else 0) :=
        fun d => cnt_dec ht (by omega) d
      refine { posn := ?_, vertn := ?_, lo := ?_, hi := ?_, buck := ?_, bound := ?_ }
      · intro u hu
        show s1.pos u < n ∧ update (update s.vert (s.pos t) x) p t (s1.pos u) = u
        rw [hP u hu]
        by_cases h1 : u = x
        · rw [if_pos h1]
          refine ⟨(h.posn t ht).1, ?_⟩
          by_cases h2 : s.pos t = p
          · have h3 : t = x := hinj t x ht hxn (by rw [h2, hxp])
            rw [h2, update_self, h3, h1]
          · rw [update_of_ne h2, update_self, h1]
        · rw [if_neg h1]
          by_cases h2 : u = t
          · rw [if_pos h2]
            exact ⟨hlt, by rw [update_self, h2]⟩
          · rw [if_neg h2, update_of_ne, update_of_ne]
            · exact h.posn u hu
            · exact fun hh => h2 (hinj u t hu ht hh)
            · exact fun hh => h1 (hinj u x hu hxn (by rw [hh, hxp]))
      · intro i hi
        show update (update s.vert (s.pos t) x) p t i < n ∧ s1.pos (update (update s.vert (s.pos t) x) p t i) = i
        by_cases h1 : i = p
        · rw [h1, update_self, hP t ht]
          refine ⟨ht, ?_⟩
          by_cases h2 : t = x
          · rw [if_pos h2, h2, hxp]
          · rw [if_neg h2, if_pos rfl]
        · rw [update_of_ne h1]
          by_cases h2 : i = s.pos t
          · rw [h2, update_self, hP x hxn, if_pos rfl]
            exact ⟨hxn, rfl⟩
          · rw [update_of_ne h2]
            obtain ⟨a, b⟩ := h.vertn i hi
            refine ⟨a, ?_⟩
            rw [hP _ a, if_neg, if_neg]
            · exact b
            · intro hh; rw [hh] at b; exact h2 b.symm
            · intro hh; rw [hh] at b; exact h1 (by rw [← b, hxp])
      · intro u hu
        show cnt n (update s.deg t (D - 1)) (update s.deg t (D - 1) u) ≤ s1.pos u
        rw [hcd, hP u hu]
        by_cases h2 : u = t
        · subst h2
          rw [update_self, if_neg (by omega)]
          have := cnt_mono n s.deg (show D - 1 ≤ D by omega)
          split <;> [skip; split] <;> omega
        · rw [update_of_ne h2, if_neg h2]
          by_cases h1 : u = x
          · rw [if_pos h1, h1, hxD, if_pos rfl]
            have : s.pos t ≠ p := fun hh => h2 (by rw [h1]; exact (hinj t x ht hxn (by rw [hh, hxp])).symm)
            omega
          · rw [if_neg h1]
            have h3 := h.lo u hu
            have : s.pos u ≠ p := fun hh => h1 (hinj u x hu hxn (by rw [hh, hxp]))
            split
            · rename_i h4; rw [h4] at h3 ⊢; omega
            · omega
      · intro u hu
        show s1.pos u < cnt n (update s.deg t (D - 1)) (update s.deg t (D - 1) u + 1)
        rw [hcd, hP u hu]
        by_cases h2 : u = t
        · subst h2
          have hDD : D - 1 + 1 = D := by omega
          rw [update_self, hDD, if_pos (rfl : D = D), if_pos (rfl : u = u), ← hp]
          by_cases h1 : u = x
          · rw [if_pos h1]
            have : s.pos u = p := by rw [h1]; exact hxp
            omega
          · rw [if_neg h1]; omega
        · rw [update_of_ne h2, if_neg h2]
          by_cases h1 : u = x
          · rw [if_pos h1, h1, hxD]; omega
          · rw [if_neg h1]; have := h.hi u hu; omega
      · intro d hd
        show update s.buck D (p + 1) d = cnt n (update s.deg t (D - 1)) d
        rw [hcd]
        by_cases h1 : d = D
        · subst h1; rw [update_self, if_pos rfl]
        · rw [update_of_ne h1, if_neg h1, h.buck d hd]; rfl
      · intro u hu
        show update s.deg t (D - 1) u < s.size
        by_cases h1 : u = t
        · subst h1; rw [update_self]; omega
        · rw [update_of_ne h1]; exact h.bound u hu
    · intro u hu hle
      show update (update s.pos t p) x (s.pos t) u = s.pos u
      have h1 : u ≠ x := fun hh => by rw [hh, hxp] at hle; omega
      have h2 : u ≠ t := fun hh => by rw [hh] at hle; omega
      rw [update_of_ne h1, update_of_ne h2]
    · intro u hu hlt'
      show s.pos v < update (update s.pos t p) x (s.pos t) u
      by_cases h1 : u = x
      · rw [h1, update_self]; omega
      · rw [update_of_ne h1]
        by_cases h2 : u = t
        · rw [h2, update_self]; exact hcv
        · rw [update_of_ne h2]; exact hlt'
  · rw [if_neg hgt, if_neg hgt]
    exact ⟨s, rfl, h, rfl, rfl, fun _ _ _ => rfl, fun _ _ hh => hh⟩

/-- All edges of `v`. -/
theorem edges_spec {n v : Nat} (hv : v < n) : ∀ (l : List Nat) (s : KCores), Arr n s → (∀ t ∈ l, t < n) →
    ∃ s', l.foldlM (edgeStep n v) s = some s' ∧ Arr n s' ∧ s'.size = s.size ∧
      (∀ u, u < n → s.pos u ≤ s.pos v → s'.pos u = s.pos u ∧ s'.deg u = s.deg u) ∧
      (∀ u, u < n → s.pos v < s.pos u → s.pos v < s'.pos u ∧ s'.deg u = max (s.deg v) (s.deg u - l.count u))
  | [], s, h, _ => by
    refine ⟨s, rfl, h, rfl, fun _ _ _ => ⟨rfl, rfl⟩, fun u hu hlt => ⟨hlt, ?_⟩⟩
    have := h.le_of_lt hv hu (le_of_lt hlt)
    simp; omega
  | t :: l, s, h, hl => by
    have ht := hl t List.mem_cons_self
    obtain ⟨s1, e1, a1, z1, d1, p1, q1⟩ := edge_spec h hv ht
    obtain ⟨s2, e2, a2, z2, p2, q2⟩ := edges_spec hv l s1 a1 (fun u hu => hl u (List.mem_cons_of_mem _ hu))
    have hpv : s1.pos v = s.pos v := p1 v hv (le_refl _)
    have hdlt : s.deg t > s.deg v → s.pos v < s.pos t := fun hh => by
      by_contra hc
      have := h.le_of_lt ht hv (by omega); omega
    have hdo : ∀ u, u ≠ t → s1.deg u = s.deg u := by
      intro u hu; rw [d1]; split
      · rw [update_of_ne hu]
      · rfl
    have hdt : s1.deg t = if s.deg t > s.deg v then s.deg t - 1 else s.deg t := by
      rw [d1]; split
      · rw [update_self]
      · rfl
    have hdv : s1.deg v = s.deg v := by
      by_cases hvt : v = t
      · subst hvt; rw [hdt, if_neg (by omega)]
      · exact hdo v hvt
    refine ⟨s2, ?_, a2, z2.trans z1, ?_, ?_⟩
    · rw [List.foldlM_cons, e1]; exact e2
    · intro u hu hle
      have h1 := p1 u hu hle
      obtain ⟨h2, h3⟩ := p2 u hu (by rw [h1, hpv]; exact hle)
      refine ⟨h2.trans h1, h3.trans ?_⟩
      by_cases hut : u = t
      · subst hut
        rw [hdt, if_neg]
        intro hh; have := hdlt hh; omega
      · exact hdo u hut
    · intro u hu hlt
      have h1 := q1 u hu hlt
      obtain ⟨h2, h3⟩ := q2 u hu (by rw [hpv]; exact h1)
      refine ⟨by rw [hpv] at h2; exact h2, ?_⟩
      have hge := h.le_of_lt hv hu (le_of_lt hlt)
      rw [h3, hdv, List.count_cons]
      by_cases hut : u = t
      · subst hut
        rw [hdt]
        simp only [beq_self_eq_true, if_true]
        split <;> omega
      · rw [hdo u hut, if_neg (by simpa using Ne.symm hut)]
        rfl

/-- Number of edges of `u` into `P`. -/
def into (G : Graph) (P : Nat → Bool) (u : Nat) : Nat := ((G.edges u).map (·.1)).countP P

/-- Invariant of the main loop. -/
structure Main (G : Graph) (i cd : Nat) (s : KCores) : Prop where
  arr : Arr G.n s
  lo : ∀ u, u < G.n → s.pos u < i → s.deg u ≤ cd
  hi : ∀ u, u < G.n → i ≤ s.pos u → s.deg u = max cd (into G (fun w => decide (i ≤ s.pos w)) u)
  core : ∀ k, k ≤ cd → ∀ u, u < G.n → k ≤ s.deg u → k ≤ into G (fun w => decide (k ≤ s.deg w)) u
  upc : ∀ (H : Nat → Bool) k, (∀ u, u < G.n → H u = true → k ≤ into G H u) → ∀ v, v < G.n → H v = true → s.pos v < i →
    k ≤ s.deg v

theorem into_congr {G : Graph} (ht : ∀ u, ∀ e ∈ G.edges u, e.1 < G.n) {P Q : Nat → Bool}
    (h : ∀ w, w < G.n → P w = Q w) (u : Nat) : into G P u = into G Q u := by
  unfold into
  refine List.countP_congr fun w hw => ?_
  obtain ⟨e, he, rfl⟩ := List.mem_map.1 hw
  rw [h e.1 (ht u e he)]

theorem into_mono {G : Graph} (ht : ∀ u, ∀ e ∈ G.edges u, e.1 < G.n) {P Q : Nat → Bool}
    (h : ∀ w, w < G.n → P w = true → Q w = true) (u : Nat) : into G P u ≤ into G Q u := by
  unfold into
  refine List.countP_mono_left fun w hw hP => ?_
  obtain ⟨e, he, rfl⟩ := List.mem_map.1 hw
  exact h e.1 (ht u e he) hP

theorem countP_split (P Q : Nat → Bool) (v : Nat) (hPv : P v = true) (hQ : ∀ w, w ≠ v → Q w = P w) (hQv : Q v = false) :
    ∀ l : List Nat, l.countP P = l.countP Q + l.count v
  | [] => rfl
  | a :: l => by
    have ih := countP_split P Q v hPv hQ hQv l
    rw [List.countP_cons, List.countP_cons, List.count_cons, ih]
    by_cases ha : a = v
    · subst ha; simp [hPv, hQv]; omega
    · rw [hQ a ha, if_neg (show ¬ (a == v) = true by simpa using ha)]; omega

theorem Main.step {G : Graph} (ht : ∀ u, ∀ e ∈ G.edges u, e.1 < G.n)
    (hsym : ∀ u v, u < G.n → v < G.n → ((G.edges u).map (·.1)).count v = ((G.edges v).map (·.1)).count u)
    {i cd : Nat} {s : KCores} (h : Main G i cd s) (hi : i < G.n) :
    ∃ s', nodeStep G s i = some s' ∧ Main G (i + 1) (s.deg (s.vert i)) s' ∧ s'.size = s.size := by
  obtain ⟨hvn, hvp⟩ := h.arr.vertn i hi
  unfold nodeStep
  set v := s.vert i with hv
  obtain ⟨s', e, a, z, p, q⟩ := edges_spec hvn ((G.edges v).map (·.1)) s h.arr (by
    intro t ht'
    obtain ⟨e, he, rfl⟩ := List.mem_map.1 ht'
    exact ht v e he)
  have hcd : cd ≤ s.deg v := by
    have := h.hi v hvn (by omega); omega
  have hinj : ∀ a b, a < G.n → b < G.n → s.pos a = s.pos b → a = b := by
    intro a b ha hb hab
    rw [← (h.arr.posn a ha).2, ← (h.arr.posn b hb).2, hab]
  -- position classes are unchanged
  have hpos : ∀ u, u < G.n → (i + 1 ≤ s'.pos u ↔ i + 1 ≤ s.pos u) := by
    intro u hu
    by_cases hc : s.pos u ≤ s.pos v
    · rw [(p u hu hc).1]
    · have := (q u hu (by omega)).1; omega
  have hdle : ∀ u, u < G.n → ∀ k, k ≤ s.deg v → (k ≤ s'.deg u ↔ k ≤ s.deg u) := by
    intro u hu k hk
    by_cases hc : s.pos u ≤ s.pos v
    · rw [(p u hu hc).2]
    · have h1 := (q u hu (by omega)).2
      have h2 := h.arr.le_of_lt hvn hu (by omega)
      omega
  refine ⟨s', e, { arr := a, lo := ?_, hi := ?_, core := ?_, upc := ?_ }, z⟩
  · intro u hu hlt
    have hc : s.pos u ≤ s.pos v := by have := (hpos u hu); omega
    rw [(p u hu hc).2]
    exact h.arr.le_of_lt hu hvn hc
  · intro u hu hle
    have hlt : s.pos v < s.pos u := by have := (hpos u hu).1 hle; omega
    rw [(q u hu hlt).2]
    have h1 := h.hi u hu (by omega)
    have h2 := h.arr.le_of_lt hvn hu (le_of_lt hlt)
    have h3 : into G (fun w => decide (i + 1 ≤ s'.pos w)) u = into G (fun w => decide (i + 1 ≤ s.pos w)) u :=
      into_congr ht (fun w hw => by rw [decide_eq_decide]; exact hpos w hw) u
    have h4 : into G (fun w => decide (i ≤ s.pos w)) u =
        into G (fun w => decide (i + 1 ≤ s.pos w)) u + ((G.edges u).map (·.1)).count v := by
      have h5 : into G (fun w => decide (i ≤ s.pos w)) u =
          into G (fun w => decide (i + 1 ≤ s.pos w) || decide (w = v)) u := by
        refine into_congr ht (fun w hw => ?_) u
        rw [Bool.eq_iff_iff]
        simp only [decide_eq_true_eq, Bool.or_eq_true]
        constructor
        · intro h6
          by_cases h7 : s.pos w = i
          · exact Or.inr (hinj w v hw hvn (by omega))
          · exact Or.inl (by omega)
        · rintro (h6 | rfl) <;> omega
      rw [h5]
      refine countP_split _ _ v (by simp) (fun w hw => by simp [hw]) (by simp; omega) _
    rw [h3, hsym v u hvn hu]
    omega
  · intro k hk u hu hku
    rw [hdle u hu k hk] at hku
    have h1 : into G (fun w => decide (k ≤ s'.deg w)) u = into G (fun w => decide (k ≤ s.deg w)) u :=
      into_congr ht (fun w hw => by rw [decide_eq_decide]; exact hdle w hw k hk) u
    rw [h1]
    by_cases hkc : k ≤ cd
    · exact h.core k hkc u hu hku
    · have h2 : ∀ w, w < G.n → (k ≤ s.deg w ↔ i ≤ s.pos w) := by
        intro w hw
        constructor
        · intro h3; by_contra h4
          have := h.lo w hw (by omega); omega
        · intro h3
          have := h.arr.le_of_lt hvn hw (by omega); omega
      rw [into_congr ht (Q := fun w => decide (i ≤ s.pos w)) (fun w hw => by rw [decide_eq_decide]; exact h2 w hw) u]
      have := h.hi u hu ((h2 u hu).1 hku)
      omega
  · intro H k hH u hu hHu hlt
    have hc : s.pos u ≤ s.pos v := by have := (hpos u hu); omega
    rw [(p u hu hc).2]
    by_cases hui : s.pos u < i
    · exact h.upc H k hH u hu hHu hui
    · have huv : u = v := hinj u v hu hvn (by omega)
      rw [huv] at hHu ⊢
      by_cases hex : ∃ w, w < G.n ∧ H w = true ∧ s.pos w < i
      · obtain ⟨w, hw, hHw, hwi⟩ := hex
        have h1 := h.upc H k hH w hw hHw hwi
        have := h.arr.le_of_lt hw hvn (by omega)
        omega
      · push Not at hex
        have h1 := h.hi v hvn (by omega)
        have h2 := hH v hvn hHu
        have h3 : into G H v ≤ into G (fun w => decide (i ≤ s.pos w)) v :=
          into_mono ht (fun w hw hHw => by simpa using hex w hw hHw) v
        omega

theorem main_run {G : Graph} (ht : ∀ u, ∀ e ∈ G.edges u, e.1 < G.n)
    (hsym : ∀ u v, u < G.n → v < G.n → ((G.edges u).map (·.1)).count v = ((G.edges v).map (·.1)).count u) :
    ∀ i, i ≤ G.n → ∃ s cd, (List.range i).foldlM (nodeStep G) (prepare G) = some s ∧ Main G i cd s ∧
      s.size = (prepare G).size
  | 0, _ => by
    obtain ⟨a, b⟩ := prepare_arr G
    refine ⟨prepare G, 0, rfl, { arr := a, lo := ?_, hi := ?_, core := ?_, upc := ?_ }, rfl⟩
    · intro u _ hu; omega
    · intro u hu _
      rw [b u hu]
      simp [into, Graph.udeg]
    · intro k hk; simp [Nat.le_zero.1 hk]
    · intro H k _ v _ _ hv; omega
  | i + 1, hi => by
    obtain ⟨s, cd, h1, h2, h3⟩ := main_run ht hsym i (by omega)
    obtain ⟨s', h4, h5, h6⟩ := h2.step ht hsym (by omega)
    refine ⟨s', _, ?_, h5, h6.trans h3⟩
    rw [List.range_succ, List.foldlM_append, h1]
    simp only [List.foldlM_cons, List.foldlM_nil]
    show (nodeStep G s i).bind some = some s'
    rw [h4]; rfl

end KCores
end VieCut
