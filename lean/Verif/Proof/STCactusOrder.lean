import Verif.Proof.STCactusTable
import Verif.Props.PriorityQueues

/-!
# The order of the components in `findSTCactus`
-/

namespace VieCut
open Finset MGraph Function

namespace STCactus

/-- Exactly one edge between every two vertices, with weights `W`. -/
structure Pairs (k : Nat) (C : MGraph) (W : Nat → Nat → Nat) : Prop where
  n : C.n = k
  edge : ∀ x e, x < k → e < C.len x → (C.edge x e).target < k ∧ (C.edge x e).target ≠ x ∧ (C.edge x e).weight = W x (C.edge x e).target
  inj : ∀ x e e', x < k → e < C.len x → e' < C.len x → (C.edge x e).target = (C.edge x e').target → e = e'
  all : ∀ x y, x < k → y < k → x ≠ y → ∃ e, e < C.len x ∧ (C.edge x e).target = y

theorem Table.pairs {k : Nat} {h : MGraph} {F : Nat → Nat → Nat} (H : Table k h F) (hF : ∀ u v, u < k → v < k → F u v = F v u) :
    Pairs k h F := by
  have hcnt : ∀ u v, u < k → v < k → u ≠ v → h.cnt u v = 1 := by
    intro u v hu hv huv
    rcases Nat.lt_or_gt_of_ne huv with h1 | h1
    · exact H.cnt u v h1 hv
    · rw [cnt_symm H.valid (by rw [H.n]; exact hu) (by rw [H.n]; exact hv)]
      exact H.cnt v u h1 hu
  have hpv : ∀ x e, x < k → e < h.len x → (h.edge x e).target < k ∧ (h.edge x e).target ≠ x := by
    intro x e hx he
    obtain ⟨-, h2, -, -, -, h3⟩ := H.valid.pv x e ⟨by rw [H.n]; exact hx, by simp, he⟩
    exact ⟨by have := h2.1; rwa [H.n] at this, h3⟩
  have hW : ∀ u v, u < k → v < k → u ≠ v → h.W u v = F u v := by
    intro u v hu hv huv
    rcases Nat.lt_or_gt_of_ne huv with h1 | h1
    · have : h.W u v = h.W v u := H.valid.W_symm (by rw [H.n]; exact hu) (by simp) (by rw [H.n]; exact hv) (by simp)
      rw [this, H.wt u v h1 hv]
      exact hF v u hv hu
    · exact H.wt v u h1 hu
  refine ⟨H.n, fun x e hx he => ?_, fun x e e' hx he he' ht => ?_, fun x y hx hy hxy => ?_⟩
  · obtain ⟨h1, h2⟩ := hpv x e hx he
    refine ⟨h1, h2, ?_⟩
    rw [← hW x _ hx h1 (Ne.symm h2)]
    exact (W_eq_weight he rfl (by rw [hcnt x _ hx h1 (Ne.symm h2)])).symm
  · obtain ⟨h1, h2⟩ := hpv x e hx he
    by_contra hne
    have hc := hcnt x _ hx h1 (Ne.symm h2)
    unfold MGraph.cnt rowSum at hc
    dsimp only at hc
    have := Finset.sum_le_sum_of_subset (f := fun j => if (h.edge x j).target = (h.edge x e).target then 1 else 0) (s := {e, e'})
      (t := range (h.len x)) (by intro z hz; simp at hz; rcases hz with rfl | rfl; exact mem_range.2 he; exact mem_range.2 he')
    rw [Finset.sum_pair hne] at this
    simp only [← ht, if_true] at this
    omega
  · by_contra hc
    push Not at hc
    have h1 := hcnt x y hx hy hxy
    unfold MGraph.cnt rowSum at h1
    rw [Finset.sum_eq_zero] at h1
    · cases h1
    · intro e he
      exact if_neg (hc e (mem_range.1 he))

/-- Legal histories of the queue of the main loop. -/
def Hist (K N : Nat) (q : BQ) (m : Nat → Option Nat) : Prop := History (BQ.cls false K) N K q m

theorem Hist.init {K N : Nat} : Hist K N (BQ.new K) (fun _ => none) := History.init (P := BQ.cls false K)

theorem Hist.insert {K N : Nat} {q : BQ} {m : Nat → Option Nat} (h : Hist K N q m) {v x : Nat} (hv : v < N) (hx : x ≤ K) (hm : m v = none) :
    Hist K N (q.insert v x) (update m v (some x)) := History.insert (P := BQ.cls false K) v x h hv hx hm

theorem Hist.changeKey {K N : Nat} {q : BQ} {m : Nat → Option Nat} (h : Hist K N q m) {v x x0 : Nat} (hm : m v = some x0) (hx : x ≤ K) :
    Hist K N (q.changeKey false v x) (update m v (some x)) := History.changeKey (P := BQ.cls false K) v x x0 h hm hx

theorem Hist.deleteMax {K N : Nat} {q : BQ} {m : Nat → Option Nat} (h : Hist K N q m) {v x0 : Nat} (hm : m v = some x0) :
    Hist K N (q.deleteMax false).2 (update m (q.deleteMax false).1 none) := History.deleteMax (P := BQ.cls false K) v x0 h hm

theorem Hist.contains {K N : Nat} (hK : 2 * K < 2 ^ 32) {q : BQ} {m : Nat → Option Nat} (h : Hist K N q m) (v : Nat) :
    ((q.index v).1 != none) = true ↔ ∃ x, m v = some x := (C06_node_bucket_pq N K hK q m h).contains v

theorem Hist.getKey {K N : Nat} (hK : 2 * K < 2 ^ 32) {q : BQ} {m : Nat → Option Nat} (h : Hist K N q m) {v x : Nat} (hm : m v = some x) :
    (q.index v).2 = x := (C06_node_bucket_pq N K hK q m h).getKey v x hm

theorem Hist.max {K N : Nat} (hK : 2 * K < 2 ^ 32) {q : BQ} {m : Nat → Option Nat} (h : Hist K N q m) (hm : ∃ v x, m v = some x) :
    ∃ x, IsMax m (q.deleteMax false).1 x := (C06_node_bucket_pq N K hK q m h).deleteMax hm

/-- A fold that changes each key at most once. -/
theorem fold_keys {K N : Nat} (tgt : Nat → Nat) (f : Nat → Nat → Nat) (step : BQ → Nat → BQ) :
    ∀ (l : List Nat) (q : BQ) (m0 : Nat → Option Nat),
      (∀ q m e, e ∈ l → Hist K N q m → m (tgt e) = m0 (tgt e) → Hist K N (step q e) (update m (tgt e) ((m (tgt e)).map (f (tgt e))))) →
      (l.map tgt).Nodup → Hist K N q m0 →
      Hist K N (l.foldl step q) (fun v => if v ∈ l.map tgt then (m0 v).map (f v) else m0 v) := by
  intro l
  induction l with
  | nil => intro q m _ _ h; simpa using h
  | cons e l ih =>
    intro q m0 hstep hnd h
    rw [List.map_cons, List.nodup_cons] at hnd
    rw [List.foldl_cons]
    have h1 := hstep q m0 e List.mem_cons_self h rfl
    have h2 := ih _ _ (by
      intro q m e' he' hq hm
      have hne : tgt e' ≠ tgt e := fun hh => hnd.1 (hh ▸ List.mem_map_of_mem he')
      rw [update_of_ne hne] at hm
      exact hstep q m e' (List.mem_cons_of_mem _ he') hq hm) hnd.2 h1
    convert h2 using 1
    funext v
    by_cases hv : v = tgt e
    · subst hv
      simp [hnd.1]
    · rw [update_of_ne hv]
      simp [hv]

/-- The targets of the edges of a vertex. -/
theorem Pairs.targets {k : Nat} {C : MGraph} {W : Nat → Nat → Nat} (H : Pairs k C W) {x : Nat} (hx : x < k) :
    ((List.range (C.len x)).map (fun e => (C.edge x e).target)).Nodup ∧
    ∀ v, v ∈ (List.range (C.len x)).map (fun e => (C.edge x e).target) ↔ v < k ∧ v ≠ x := by
  constructor
  · rw [List.nodup_map_iff_inj_on List.nodup_range]
    intro a ha b hb hab
    exact H.inj x a b hx (List.mem_range.1 ha) (List.mem_range.1 hb) hab
  · intro v
    constructor
    · intro hv
      obtain ⟨e, he, rfl⟩ := List.mem_map.1 hv
      obtain ⟨h1, h2, -⟩ := H.edge x e hx (List.mem_range.1 he)
      exact ⟨h1, h2⟩
    · rintro ⟨h1, h2⟩
      obtain ⟨e, he, ht⟩ := H.all x v hx h1 (Ne.symm h2)
      exact List.mem_map.2 ⟨e, List.mem_range.2 he, ht⟩

theorem key_of_lt {w : Nat} (h : w < 2 ^ 32) : key w = w := Nat.mod_eq_of_lt h

/-- The insertions before the main loop. -/
theorem inserts_history {K k s : Nat} : ∀ j, j ≤ k →
    Hist K k ((List.range j).foldl (fun (q : BQ) n => if n ≠ s then q.insert n (key 0) else q) (BQ.new K))
      (fun v => if v < j ∧ v ≠ s then some 0 else none) := by
  intro j
  induction j with
  | zero => intro _; simpa using (Hist.init (N := k) (K := K))
  | succ j ih =>
    intro hj
    rw [List.range_succ, List.foldl_append]
    simp only [List.foldl_cons, List.foldl_nil]
    have h1 := ih (by omega)
    by_cases hs : j = s
    · rw [if_neg (by simpa using hs)]
      convert h1 using 1
      funext v
      have : (v < j + 1 ∧ v ≠ s) ↔ (v < j ∧ v ≠ s) := by omega
      simp only [this]
    · rw [if_pos hs]
      have h2 := h1.insert (v := j) (x := key 0) (by omega) (Nat.zero_le _) (by simp)
      convert h2 using 1
      funext v
      by_cases hv : v = j
      · subst hv; simp [hs, key]
      · rw [update_of_ne hv]
        have : (v < j + 1 ∧ v ≠ s) ↔ (v < j ∧ v ≠ s) := by omega
        simp only [this]

variable {k s t c : Nat} {W : Nat → Nat → Nat} {C : MGraph}

theorem start_history (H : Pairs k C W) (hs : s < k) (hc : c < 2 ^ 32) (hle : ∀ v, v < k → v ≠ s → W s v ≤ c) :
    Hist (c + 1) k (orderStart c C s).q (fun v => if v < k ∧ v ≠ s then some (W s v) else none) := by
  have h1 := inserts_history (K := c + 1) (k := k) (s := s) k (le_refl k)
  obtain ⟨t1, t2⟩ := H.targets hs
  have hf := fold_keys (K := c + 1) (N := k) (fun e => (C.edge s e).target) (fun v _ => W s v)
    (fun q e => q.changeKey false (C.edge s e).target (key (C.edge s e).weight)) (List.range (C.len s)) _ _
    (by
      intro q m e he hq hm
      obtain ⟨e1, e2, e3⟩ := H.edge s e hs (List.mem_range.1 he)
      rw [if_pos ⟨e1, e2⟩] at hm
      have hl := hle _ e1 e2
      rw [hm, e3, key_of_lt (by omega)]
      exact hq.changeKey hm (by omega)) t1 h1
  unfold orderStart
  rw [H.n]
  convert hf using 1
  funext v
  simp only [t2]
  by_cases hv : v < k ∧ v ≠ s
  · simp [hv]
  · simp [hv]

/-- The neighbours of the vertex taken from the queue. -/
theorem raise_history (H : Pairs k C W) (hK : 2 * (c + 1) < 2 ^ 32) {x : Nat} (hx : x < k) {q : BQ} {m : Nat → Option Nat}
    (h : Hist (c + 1) k q m) :
    Hist (c + 1) k ((List.range (C.len x)).foldl (raise c C x) q)
      (fun v => if v < k ∧ v ≠ x then (m v).map (fun a => min (a + W x v) c) else m v) := by
  obtain ⟨t1, t2⟩ := H.targets hx
  have hf := fold_keys (K := c + 1) (N := k) (fun e => (C.edge x e).target) (fun v a => min (a + W x v) c)
    (raise c C x) (List.range (C.len x)) _ _
    (by
      intro q m e he hq hm
      obtain ⟨e1, e2, e3⟩ := H.edge x e hx (List.mem_range.1 he)
      unfold raise
      dsimp only
      cases hmt : m (C.edge x e).target with
      | none =>
        rw [if_neg]
        · simp only [Option.map_none]
          rw [show update m (C.edge x e).target none = m from by rw [← hmt]; exact update_eq_self _ _]
          exact hq
        · rw [hq.contains hK]
          rintro ⟨y, hy⟩
          rw [hmt] at hy; cases hy
      | some a =>
        rw [if_pos ((hq.contains hK _).2 ⟨a, hmt⟩), hq.getKey hK hmt, e3]
        have : min (a + W x (C.edge x e).target) c ≤ c := min_le_right _ _
        rw [key_of_lt (by omega)]
        exact hq.changeKey hmt (by omega)) t1 h
  convert hf using 1
  funext v
  simp only [t2]

/-- The graph whose vertices receive the components one by one. -/
theorem start_graph (H : Pairs k C W) : let st := (List.range C.n).foldl (fun (h : MGraph) _ => h.newNode) (resizePositions (MGraph.start C.n) C.origNodes)
    st = { resizePositions (MGraph.start k) C.origNodes with lastNode := k } := by
  have key : ∀ j, j ≤ k → (List.range j).foldl (fun (h : MGraph) _ => h.newNode) (resizePositions (MGraph.start k) C.origNodes) =
      { resizePositions (MGraph.start k) C.origNodes with lastNode := j } := by
    intro j
    induction j with
    | zero => intro _; rfl
    | succ j ih =>
      intro hj
      rw [List.range_succ, List.foldl_append, ih (by omega)]
      simp only [List.foldl_cons, List.foldl_nil]
      unfold newNode
      rw [if_neg]
      show ¬ j = k
      omega
  intro st
  show (List.range C.n).foldl _ _ = _
  rw [H.n]
  exact key k (le_refl k)

/-- Invariant of the main loop: the components `l` were taken, in this order. -/
structure OInv (k s t c : Nat) (W : Nat → Nat → Nat) (C : MGraph) (l : List Nat) (o : Ordering) : Prop where
  hist : Hist (c + 1) k o.q (fun v => if v < k ∧ v ∉ l then some (linkTo k W (fun u => decide (u ∈ l)) v) else none)
  chain : ChainOrder k W s t c l
  head : ∃ l', l = s :: l'
  map : ∀ i (hi : i < l.length), o.map l[i] = i
  rev : ∀ i (hi : i < l.length), 1 ≤ i → o.rev i = l[i]
  st : ∃ cont pos, o.st = { resizePositions (MGraph.start k) C.origNodes with lastNode := k, cont := cont, pos := pos } ∧
    (∀ i (hi : i < l.length), cont i = C.cont l[i]) ∧ ∀ v i (hi : i < l.length), v ∈ C.cont l[i] → pos v = i

/-- The components contain different vertices. -/
def Disjoint (k : Nat) (C : MGraph) : Prop := ∀ x y v, x < k → y < k → v ∈ C.cont x → v ∈ C.cont y → x = y

theorem first_mem (hC : ChainCuts k W s t c) (hk : 2 ≤ k) : ChainMem k W s t c (fun v => decide (v ∈ [s])) := by
  obtain ⟨b, hb, -, hm⟩ := hC.next (U := fun _ => false) (Or.inl fun _ => rfl) (x := 0) (y := 1) (by omega) (by omega) (by omega) rfl rfl
  have hbs : s = b := by simpa using hm.src
  subst hbs
  convert hm using 1
  funext v
  simp

theorem start_inv (H : Pairs k C W) (hC : ChainCuts k W s t c) (hk : 2 ≤ k) (hc : c < 2 ^ 32) : OInv k s t c W C [s] (orderStart c C s) := by
  have hm := first_mem hC hk
  have hlink : ∀ v, linkTo k W (fun u => decide (u ∈ [s])) v = W s v := by
    intro v
    unfold linkTo
    rw [Finset.sum_eq_single s]
    · simp
    · intro b _ hb; simp [hb]
    · intro h; exact absurd (mem_range.2 hC.src) h
  have hle : ∀ v, v < k → v ≠ s → W s v ≤ c := by
    intro v hv hvs
    have := link_le_cut (k := k) (W := W) (fun u => decide (u ∈ [s])) hv (by simp [hvs])
    rw [hlink, hm.val] at this
    exact this
  refine ⟨?_, ⟨by simp, by simpa using hC.src, ?_⟩, ⟨[], rfl⟩, ?_, ?_, ?_⟩
  · convert start_history H hC.src hc hle using 1
    funext v
    rw [hlink v]
    simp only [List.mem_singleton]
  · intro i h1 _ h2
    have : i = 1 := by simpa using (le_antisymm h2 h1)
    subst this
    simpa using hm
  · intro i hi
    have : i = 0 := by simpa using hi
    subst this; rfl
  · intro i hi h1
    have : i = 0 := by simpa using hi
    omega
  · refine ⟨update (resizePositions (MGraph.start k) C.origNodes).cont 0 (C.cont s),
      fun v => if v ∈ C.cont s then 0 else (resizePositions (MGraph.start k) C.origNodes).pos v, ?_, ?_, ?_⟩
    · unfold orderStart setMembers
      dsimp only
      rw [start_graph H]
    · intro i hi
      have : i = 0 := by simpa using hi
      subst this
      simp [resizePositions]
    · intro v i hi hv
      have : i = 0 := by simpa using hi
      subst this
      simp only [List.getElem_cons_zero] at hv
      simp [hv]

theorem OInv.link_le (hC : ChainCuts k W s t c) {l : List Nat} (hl : ChainOrder k W s t c l) (h1 : 1 ≤ l.length) (h2 : l.length < k)
    {v : Nat} (hv : v < k) (hvl : v ∉ l) : linkTo k W (fun u => decide (u ∈ l)) v ≤ c := by
  have hm := hl.mem l.length h1 h2 (le_refl _)
  rw [List.take_length] at hm
  rw [← hm.val]
  exact link_le_cut _ hv (by simp [hvl])

/-- The vertex taken from the queue continues the order. -/
theorem chain_step (hC : ChainCuts k W s t c) {l : List Nat} (hl : ChainOrder k W s t c l) (h1 : 1 ≤ l.length) (h2 : l.length < k)
    {b : Nat} (hb : b < k) (hbl : b ∉ l)
    (hmax : ∀ v, v < k → v ∉ l → linkTo k W (fun u => decide (u ∈ l)) v ≤ linkTo k W (fun u => decide (u ∈ l)) b) :
    ChainOrder k W s t c (l ++ [b]) := by
  refine ⟨?_, ?_, ?_⟩
  · rw [List.nodup_append]
    refine ⟨hl.nodup, by simp, ?_⟩
    intro a ha b' hb' hab
    have : b' = b := by simpa using hb'
    exact hbl (this ▸ hab ▸ ha)
  · intro x hx
    rcases List.mem_append.1 hx with h | h
    · exact hl.lt x h
    · have : x = b := by simpa using h
      rw [this]; exact hb
  · intro i i1 i2 i3
    rcases Nat.lt_or_ge l.length i with hi | hi
    · have hi' : i = l.length + 1 := by simp at i3; omega
      have hm := hl.mem l.length h1 h2 (le_refl _)
      rw [List.take_length] at hm
      -- another vertex is left
      obtain ⟨y, hy, hyl⟩ : ∃ y, y < k ∧ y ∉ l ++ [b] := by
        by_contra hc
        push Not at hc
        have : range k ⊆ (l ++ [b]).toFinset := fun x hx => List.mem_toFinset.2 (hc x (mem_range.1 hx))
        have := Finset.card_le_card this
        rw [card_range] at this
        have := this.trans (List.toFinset_card_le _)
        simp at this
        omega
      rw [List.mem_append, not_or] at hyl
      have hyb : y ≠ b := by simpa using hyl.2
      obtain ⟨d, hd, hd1, hd2⟩ := hC.next (Or.inr hm) hb hy hyb.symm (by simp [hbl]) (by simp [hyl.1])
      have hdl : d ∉ l := by simpa using hd1
      have hdb : d = b := by
        by_contra hne
        have := hC.heaviest hm hd hd1 hd2 hb (by simp [hbl]) (Ne.symm hne)
        have := hmax d hd hdl
        omega
      subst hdb
      rw [hi', List.take_of_length_le (by simp)]
      convert hd2 using 1
      funext v
      by_cases hv : v = d <;> simp [hv]
    · have := hl.mem i i1 i2 hi
      rwa [List.take_append_of_le_length hi]

theorem OInv.step (H : Pairs k C W) (hD : Disjoint k C) (hC : ChainCuts k W s t c) (hK : 2 * (c + 1) < 2 ^ 32) {l : List Nat} {o : Ordering}
    (h : OInv k s t c W C l o) (h2 : l.length < k) :
    ∃ b, OInv k s t c W C (l ++ [b]) (orderStep c C o l.length) := by
  obtain ⟨l', hl'⟩ := h.head
  have h1 : 1 ≤ l.length := by rw [hl']; simp
  -- a vertex is left
  obtain ⟨y, hy, hyl⟩ : ∃ y, y < k ∧ y ∉ l := by
    by_contra hc
    push Not at hc
    have : range k ⊆ l.toFinset := fun x hx => List.mem_toFinset.2 (hc x (mem_range.1 hx))
    have := Finset.card_le_card this
    rw [card_range] at this
    have := this.trans (List.toFinset_card_le _)
    omega
  obtain ⟨x, hx1, hx2⟩ := h.hist.max hK ⟨y, _, if_pos ⟨hy, hyl⟩⟩
  have hdel := h.hist.deleteMax (v := y) (if_pos ⟨hy, hyl⟩)
  generalize hb : (o.q.deleteMax false).1 = b at *
  dsimp only at hx1
  by_cases hbl : b < k ∧ b ∉ l
  swap
  · rw [if_neg hbl] at hx1; cases hx1
  rw [if_pos hbl] at hx1
  have hmax : ∀ v, v < k → v ∉ l → linkTo k W (fun u => decide (u ∈ l)) v ≤ linkTo k W (fun u => decide (u ∈ l)) b := by
    intro v hv hvl
    rw [Option.some.inj hx1]
    exact hx2 v _ (if_pos ⟨hv, hvl⟩)
  have hch := chain_step hC h.chain h1 h2 hbl.1 hbl.2 hmax
  refine ⟨b, ?_, hch, ⟨l' ++ [b], by rw [hl']; rfl⟩, ?_, ?_, ?_⟩
  · have hr := raise_history H hK hbl.1 hdel
    unfold orderStep
    dsimp only
    rw [hb]
    convert hr using 1
    funext v
    by_cases hvb : v = b
    · subst hvb; simp
    · rw [update_of_ne hvb]
      by_cases hv : v < k
      · by_cases hvl : v ∈ l
        · simp [hvl]
        · have hn : v ∉ l ++ [b] := by simp [hvl, hvb]
          rw [if_pos ⟨hv, hn⟩, if_pos ⟨hv, hvb⟩, if_pos ⟨hv, hvl⟩, Option.map_some]
          congr 1
          have hadd : linkTo k W (fun u => decide (u ∈ l ++ [b])) v = linkTo k W (fun u => decide (u ∈ l)) v + W b v := by
            unfold linkTo
            rw [show W b v = ∑ u ∈ range k, if u = b then W u v else 0 from by
              rw [Finset.sum_ite_eq' (range k) b, if_pos (mem_range.2 hbl.1)], ← Finset.sum_add_distrib]
            refine Finset.sum_congr rfl fun u _ => ?_
            by_cases hu : u = b
            · subst hu; simp [hbl.2]
            · simp [hu]
          rw [← hadd]
          refine (min_eq_left ?_).symm
          refine OInv.link_le hC hch (by simp) ?_ hv hn
          -- `v` is left
          by_contra hge
          exact hn (ChainOrder.full_mem hch (by simp at hge ⊢; omega) hv)
      · simp [hv]
  · intro i hi
    unfold orderStep
    dsimp only
    rw [hb]
    rcases Nat.lt_or_ge i l.length with hil | hil
    · rw [List.getElem_append_left hil, update_of_ne]
      · exact h.map i hil
      · intro he; exact hbl.2 (he ▸ List.getElem_mem hil)
    · have : i = l.length := by simp at hi; omega
      subst this
      rw [List.getElem_append_right (le_refl _)]
      simp
  · intro i hi i1
    unfold orderStep
    dsimp only
    rw [hb]
    rcases Nat.lt_or_ge i l.length with hil | hil
    · rw [List.getElem_append_left hil, update_of_ne (by omega)]
      exact h.rev i hil i1
    · have : i = l.length := by simp at hi; omega
      subst this
      rw [List.getElem_append_right (le_refl _)]
      simp
  · obtain ⟨cont, pos, s1, s2, s3⟩ := h.st
    refine ⟨update cont l.length (C.cont b), fun v => if v ∈ C.cont b then l.length else pos v, ?_, ?_, ?_⟩
    · unfold orderStep setMembers
      dsimp only
      rw [hb, s1]
    · intro i hi
      rcases Nat.lt_or_ge i l.length with hil | hil
      · rw [List.getElem_append_left hil, update_of_ne (by omega)]
        exact s2 i hil
      · have : i = l.length := by simp at hi; omega
        subst this
        rw [List.getElem_append_right (le_refl _)]
        simp
    · intro v i hi hv
      rcases Nat.lt_or_ge i l.length with hil | hil
      · rw [List.getElem_append_left hil] at hv
        refine (if_neg ?_).trans (s3 v i hil hv)
        intro hvb
        have := hD _ _ v (h.chain.lt _ (List.getElem_mem hil)) hbl.1 hv hvb
        exact hbl.2 (this ▸ List.getElem_mem hil)
      · have : i = l.length := by simp at hi; omega
        subst this
        rw [List.getElem_append_right (le_refl _)] at hv
        simp at hv
        simp [hv]

theorem order_inv (H : Pairs k C W) (hD : Disjoint k C) (hC : ChainCuts k W s t c) (hk : 2 ≤ k) (hK : 2 * (c + 1) < 2 ^ 32) :
    ∃ l, l.length = k ∧ OInv k s t c W C l (order c C s) := by
  have key : ∀ j, j + 1 ≤ k → ∃ l, l.length = j + 1 ∧
      OInv k s t c W C l (((List.range j).map (· + 1)).foldl (orderStep c C) (orderStart c C s)) := by
    intro j
    induction j with
    | zero => intro _; exact ⟨[s], rfl, start_inv H hC hk (by omega)⟩
    | succ j ih =>
      intro hj
      obtain ⟨l, hl, hi⟩ := ih (by omega)
      rw [List.range_succ, List.map_append, List.foldl_append]
      simp only [List.map_cons, List.map_nil, List.foldl_cons, List.foldl_nil]
      obtain ⟨b, hb⟩ := hi.step H hD hC hK (by omega)
      rw [hl] at hb
      exact ⟨l ++ [b], by simp [hl], hb⟩
  obtain ⟨l, hl, hi⟩ := key (k - 1) (by omega)
  refine ⟨l, by omega, ?_⟩
  unfold order
  rw [H.n]
  obtain ⟨cont, pos, s1, s2, s3⟩ := hi.st
  refine ⟨hi.hist, hi.chain, hi.head, hi.map, hi.rev, cont, pos, ?_, s2, s3⟩
  dsimp only
  rw [s1]
  rfl

end STCactus
end VieCut
