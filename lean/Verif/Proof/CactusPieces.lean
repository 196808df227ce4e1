import Verif.Proof.CactusOps
import Verif.Model.HeavyEdges

/-!
# Pieces and cactuses under single steps: contraction, removal of a leaf, attachment of a leaf
-/

namespace VieCut
open Function Finset MGraph

theorem held_iff {E : Nat → Prop} {g : MGraph} : Held E g ↔ PosIn E g ∧ ∀ e, E e → g.pos e < g.n := by
  constructor
  · intro h
    exact ⟨⟨fun p hp v hv => (h.mem p v hp).1 hv, fun v hv hlt => (h.mem _ v hlt).2 ⟨hv, rfl⟩, h.nodup⟩, h.lt⟩
  · rintro ⟨h, hl⟩
    refine ⟨hl, fun p e hp => ⟨fun he => h.back p hp e he, fun he => ?_⟩, h.nodup⟩
    rw [← he.2]
    exact h.mem e he.1 (hl e he.1)

namespace Piece
variable {E : Nat → Prop} {g : MGraph} {c : Nat}

theorem valid (h : Piece E g c) : Valid g := consistent_iff.1 h.consistent
theorem simp0 (h : Piece E g c) : Simple g [] := simple_of_noParallel h.simple
theorem posIn (h : Piece E g c) : PosIn E g := (held_iff.1 h.held).1
theorem posW (h : Piece E g c) : PosW g [] := fun u b hu _ hb => h.positive u b hu hb
theorem allPos (h : Piece E g c) : AllW (fun w => 0 < w) g := h.positive

/-- Every vertex holds an element. -/
theorem exists_elem (h : Piece E g c) {p : Nat} (hp : p < g.n) : ∃ e, E e ∧ g.pos e = p := by
  obtain ⟨e, he⟩ := List.exists_mem_of_ne_nil _ (h.full p hp)
  exact ⟨e, (h.held.mem p e hp).1 he⟩

theorem head_elem (h : Piece E g c) {p : Nat} (hp : p < g.n) : E ((g.cont p).headD 0) ∧ g.pos ((g.cont p).headD 0) = p := by
  have hf := h.full p hp
  cases hc : g.cont p with
  | nil => exact absurd hc hf
  | cons a l => exact (h.held.mem p a hp).1 (by rw [hc]; simp)

/-- A cut of value `c` with positive `c` is proper. -/
theorem proper_of_val {n : Nat} {w : Nat → Nat → Nat} {X : Nat → Bool} (h : cutValue n w X ≠ 0) : ProperCut n X := by
  by_contra hn
  apply h
  unfold cutValue
  refine Finset.sum_eq_zero fun u hu => Finset.sum_eq_zero fun v hv => ?_
  rw [if_neg]
  rintro ⟨h1, h2⟩
  exact hn ⟨⟨u, mem_range.1 hu, h1⟩, ⟨v, mem_range.1 hv, h2⟩⟩

/-- A cut of value `c` gives a split. -/
theorem split_of_cut {X : Nat → Bool} (hX : ProperCut g.n X) (hv : g.cv X = c) : Split g E c (fun e => X (g.pos e)) :=
  ⟨X, hX, hv, fun _ _ => rfl⟩

/-- Contraction of vertices that no cut of value `c` separates. -/
theorem contract (h : Piece E g c) {g' : MGraph} {S : List Nat} {φ : Nat → Nat} (hC : Contracted g g' S φ) (hs : Simple g' [])
    (hm : ∀ X, ProperCut g.n X → g.cv X = c → ∀ u v, u < g.n → v < g.n → u ∈ S → v ∈ S → X u = X v) :
    Piece E g' c ∧ (∀ f, Split g' E c f ↔ Split g E c f) ∧ ∀ e, E e → g'.pos e = φ (g.pos e) := by
  obtain ⟨p1, p2⟩ := hC.posE E h.posIn
  have hpos : ∀ e, E e → g'.pos e = φ (g.pos e) := fun e he => p2 e he (h.held.lt e he)
  have hlt : ∀ u, u < g.n → φ u < g'.n := by
    intro u hu
    have := hC.con.lt u (by rw [toGraph_n]; exact hu)
    rwa [toGraph_n] at this
  have hsurj : ∀ p, p < g'.n → ∃ u, u < g.n ∧ φ u = p := by
    intro p hp
    have := hC.con.surj p (by rw [toGraph_n]; exact hp)
    rwa [toGraph_n] at this
  have hcut : ∀ T, g'.cv T = g.cv (fun x => T (φ x)) := by
    intro T
    have := cutValue_quotient (n := g.toGraph.n) (k := g'.toGraph.n) hC.con.lt hC.con.wt T
    rw [toGraph_n, toGraph_n] at this
    exact this
  have hprop : ∀ T, ProperCut g'.n T → ProperCut g.n (fun x => T (φ x)) := by
    rintro T ⟨⟨a, ha, h1⟩, ⟨b, hb, h2⟩⟩
    obtain ⟨u, hu, rfl⟩ := hsurj a ha
    obtain ⟨v, hv, rfl⟩ := hsurj b hb
    exact ⟨⟨u, hu, h1⟩, ⟨v, hv, h2⟩⟩
  refine ⟨⟨consistent_iff.2 hC.valid, noParallel_of_simple hC.valid hs, hC.last h.ready, hC.csize h.room,
    fun u b hu hb => hC.posw h.posW u b hu (by simp) hb, held_iff.2 ⟨p1, fun e he => ?_⟩, ?_, ?_, ?_⟩, ?_, hpos⟩
  · rw [hpos e he]; exact hlt _ (h.held.lt e he)
  · intro e he; rw [hC.orig]; exact h.known e he
  · intro p hp
    obtain ⟨u, hu, rfl⟩ := hsurj p hp
    obtain ⟨e, he, rfl⟩ := h.exists_elem hu
    have := p1.mem e he (by rw [hpos e he]; exact hlt _ hu)
    rw [hpos e he] at this
    exact List.ne_nil_of_mem this
  · intro X hX
    have := h.least _ (hprop X hX)
    have h2 := hcut X
    unfold cv at h2
    omega
  · intro f
    constructor
    · rintro ⟨T, t1, t2, t3⟩
      refine ⟨fun x => T (φ x), hprop T t1, by rw [← t2]; exact (hcut T).symm, fun e he => ?_⟩
      show T (φ (g.pos e)) = f e
      rw [← hpos e he]
      exact t3 e he
    · rintro ⟨X, x1, x2, x3⟩
      have hconst : ∀ u v, u < g.n → v < g.n → φ u = φ v → X u = X v := by
        intro u v hu hv huv
        rcases (hC.ker u v hu hv).1 huv with h1 | ⟨h1, h2⟩
        · rw [h1]
        · exact hm X x1 x2 u v hu hv h1 h2
      classical
      let T : Nat → Bool := fun p => if hp : ∃ u, u < g.n ∧ φ u = p then X hp.choose else false
      have hT : ∀ u, u < g.n → T (φ u) = X u := by
        intro u hu
        have hp : ∃ u', u' < g.n ∧ φ u' = φ u := ⟨u, hu, rfl⟩
        show (if hp : ∃ u', u' < g.n ∧ φ u' = φ u then X hp.choose else false) = _
        rw [dif_pos hp]
        exact hconst _ _ hp.choose_spec.1 hu hp.choose_spec.2
      refine ⟨T, ?_, ?_, fun e he => ?_⟩
      · obtain ⟨⟨a, ha, h1⟩, ⟨b, hb, h2⟩⟩ := x1
        exact ⟨⟨φ a, hlt a ha, by rw [hT a ha]; exact h1⟩, ⟨φ b, hlt b hb, by rw [hT b hb]; exact h2⟩⟩
      · have e1 := hcut T
        unfold cv at e1
        rw [e1, ← x2]
        exact cutValue_congr fun u hu => hT u hu
      · rw [hpos e he, hT _ (h.held.lt e he)]
        exact x3 e he

end Piece

/-- `u` has one neighbour, `t`, with weight `c` between them. -/
structure LeafAt (g : MGraph) (u t c : Nat) : Prop where
  lt : u < g.n
  ltt : t < g.n
  ne : t ≠ u
  row : ∀ v, v < g.n → g.W u v = if v = t then c else 0

theorem leafAt_of_len {g : MGraph} (hg : Valid g) {u c : Nat} (hu : u < g.n) (hl : g.len u = 1) (hw : (g.edge u 0).weight = c) :
    LeafAt g u (g.edge u 0).target c := by
  obtain ⟨h1, _, _, _, _, h2⟩ := (valid_iff.1 hg).1 u 0 hu (by omega)
  refine ⟨hu, h1, h2, fun v _ => ?_⟩
  unfold W rowSum
  rw [hl, Finset.sum_range_one, hw]
  dsimp only
  by_cases hv : v = (g.edge u 0).target
  · rw [if_pos hv, if_pos hv.symm]
  · rw [if_neg hv, if_neg (fun h => hv h.symm)]

theorem LeafAt.edge {g : MGraph} (hg : Valid g) (hs : Simple g []) (hp : AllW (fun w => 0 < w) g) {u t c : Nat} (hc : 0 < c)
    (h : LeafAt g u t c) : g.len u = 1 ∧ (g.edge u 0).target = t ∧ (g.edge u 0).weight = c := by
  have hall : ∀ b, b < g.len u → (g.edge u b).target = t := by
    intro b hb
    by_contra hne
    have h1 := (valid_iff.1 hg).1 u b h.lt hb
    have h2 := h.row _ h1.1
    rw [if_neg hne, edge_weight_W hs hg h.lt hb] at h2
    have := hp u b h.lt hb
    omega
  have hle : g.len u ≤ 1 := by
    by_contra hgt
    have h0 := hall 0 (by omega)
    have h1 := hall 1 (by omega)
    have := cnt_le_one (hs u t h.lt (by simp) h.ltt (by simp)) (b := 0) (b' := 1) (by omega) (by omega) h0 h1
    omega
  have hne : g.len u ≠ 0 := by
    intro h0
    have := h.row t h.ltt
    rw [if_pos rfl] at this
    unfold W rowSum at this
    rw [h0, Finset.sum_range_zero] at this
    omega
  have hl : g.len u = 1 := by omega
  have ht := hall 0 (by omega)
  refine ⟨hl, ht, ?_⟩
  have := h.row t h.ltt
  rw [if_pos rfl, ← ht, edge_weight_W hs hg h.lt (by omega)] at this
  exact this

/-- The pair of a leaf: a cut is the cut of the rest plus its edge. -/
theorem LeafAt.cut {g : MGraph} (hg : Valid g) {u t c : Nat} (h : LeafAt g u t c) (X : Nat → Bool) :
    g.cv X = g.cv (update X u (X t)) + if X u = X t then 0 else c := by
  by_cases hX : X u = X t
  · rw [if_pos hX, ← hX, update_eq_self, add_zero]
  · rw [if_neg hX]
    have hflip : (update X u (X t)) = update X u (!X u) := by
      congr 1
      cases h1 : X u <;> cases h2 : X t <;> simp_all
    have hf := cut_flip hg.wf X (u := u) (by rw [toGraph_n]; exact h.lt)
    rw [← hflip, toGraph_n] at hf
    have hcr : crossing g.toGraph X u = c := by
      unfold crossing
      rw [toGraph_n, Finset.sum_eq_single t]
      · rw [toGraph_wt g h.lt, h.row t h.ltt, if_pos rfl, if_pos (fun h => hX h.symm)]
      · intro v hv hne
        rw [toGraph_wt g h.lt, h.row v (mem_range.1 hv), if_neg hne]; simp
      · intro hn; exact absurd (mem_range.2 h.ltt) hn
    have hd : g.toGraph.deg u = c := by
      rw [hg.wf.deg_eq, toGraph_n, Finset.sum_eq_single t]
      · rw [toGraph_wt g h.lt, h.row t h.ltt, if_pos rfl]
      · intro v hv hne
        rw [toGraph_wt g h.lt, h.row v (mem_range.1 hv), if_neg hne]
      · intro hn; exact absurd (mem_range.2 h.ltt) hn
    rw [hcr, hd] at hf
    unfold cv
    omega

theorem setMembers_valid {g : MGraph} (hg : Valid g) (p : Nat) (l : List Nat) : Valid (STCactus.setMembers g p l) :=
  hg.of_eq rfl rfl rfl rfl rfl

namespace CactusOf
variable {E : Nat → Prop} {P : (Nat → Bool) → Prop} {C : MGraph} {c : Nat}

theorem valid (h : CactusOf E P C c) : Valid C := consistent_iff.1 h.consistent
theorem simp0 (h : CactusOf E P C c) : Simple C [] := simple_of_noParallel h.simple

/-- A cut of weight zero has everything on one side. -/
theorem const_of_zero (h : CactusOf E P C c) (hc : 0 < c) {X : Nat → Bool} (hX : C.cv X = 0) {u v : Nat} (hu : u < C.n) (hv : v < C.n) :
    X u = X v := by
  by_contra hne
  have hp : ProperCut C.n X := by
    cases h1 : X u <;> cases h2 : X v
    · exact absurd (h1.trans h2.symm) hne
    · exact ⟨⟨v, hv, h2⟩, ⟨u, hu, h1⟩⟩
    · exact ⟨⟨u, hu, h1⟩, ⟨v, hv, h2⟩⟩
    · exact absurd (h1.trans h2.symm) hne
  have := h.least X hp
  unfold cv at hX
  omega

/-- A new vertex `C.n` with the elements of `L` between the vertices of `x0` and `x1`: the weight of a cut does not change when the new
vertex is on the side of one of the two. -/
theorem grow {E' : Nat → Prop} {P' : (Nat → Bool) → Prop} (h : CactusOf E' P' C c) (hc : 0 < c) {L : List Nat} (hL : L.Nodup) {x0 x1 : Nat}
    (hx0 : E' x0) (hx1 : E' x1) (hE : ∀ e, E e ↔ E' e ∨ e ∈ L) (hd : ∀ e ∈ L, ¬ E' e) {R : MGraph} (hR : Valid R) (hRs : Simple R [])
    (rn : R.n = C.n + 1) (rl : R.lastNode = R.n) (rr : R.n ≤ R.contSize)
    (rpos : ∀ e, R.pos e = if e ∈ L then C.n else C.pos e) (rcont : ∀ p, p < C.n → R.cont p = C.cont p) (rcontn : R.cont C.n = L)
    (rw' : AllW (fun w => w = c ∨ 2 * w = c) R)
    (rcut : ∀ X, R.cv X = C.cv X + if X C.n = X (C.pos x0) ∨ X C.n = X (C.pos x1) then 0 else c) :
    CactusOf E (fun f => (P' f ∧ ((∀ e ∈ L, f e = f x0) ∨ ∀ e ∈ L, f e = f x1)) ∨ ∃ b : Bool, ∀ e, E e → f e = if e ∈ L then b else !b) R c := by
  set q0 := C.pos x0 with hq0d
  set q1 := C.pos x1 with hq1d
  have hq0 : q0 < C.n := h.held.lt x0 hx0
  have hq1 : q1 < C.n := h.held.lt x1 hx1
  have hqn0 : q0 ≠ C.n := by omega
  have hqn1 : q1 ≠ C.n := by omega
  have hposE : ∀ e, E' e → R.pos e = C.pos e := by
    intro e he
    rw [rpos, if_neg (fun hl => hd e hl he)]
  have hprop0 : ∀ X, ProperCut C.n X → ProperCut R.n X := by
    rintro X ⟨⟨u, hu, h1⟩, ⟨v, hv, h2⟩⟩
    exact ⟨⟨u, by omega, h1⟩, ⟨v, by omega, h2⟩⟩
  have hiso : ∀ b : Bool, R.cv (fun v => if v = C.n then b else !b) = c := by
    intro b
    have h0 : C.cv (fun v => if v = C.n then b else !b) = 0 := by
      have : C.cv (fun v => if v = C.n then b else !b) = C.cv (fun _ => !b) :=
        cutValue_congr fun u hu => by simp [show u ≠ C.n by omega]
      rw [this]
      unfold cv cutValue
      refine Finset.sum_eq_zero fun u _ => Finset.sum_eq_zero fun v _ => ?_
      cases b <;> simp
    rw [rcut, h0, if_neg (by cases b <;> simp [hqn0, hqn1])]
    omega
  have hup : ∀ X q, q < C.n → q = q0 ∨ q = q1 → R.cv (update X C.n (X q)) = C.cv X := by
    intro X q hq hqq
    have hcong : C.cv (update X C.n (X q)) = C.cv X := cutValue_congr fun u hu => by rw [update_of_ne (by omega)]
    rw [rcut, hcong, if_pos, add_zero]
    rw [update_self, update_of_ne hqn0, update_of_ne hqn1]
    rcases hqq with rfl | rfl
    · exact Or.inl rfl
    · exact Or.inr rfl
  refine ⟨consistent_iff.2 hR, noParallel_of_simple hR hRs, rl, rr, ⟨?_, ?_, ?_⟩, rw', ?_, ?_, ?_⟩
  · intro e he
    rw [rpos, rn]
    split
    · omega
    · rename_i hne
      have := h.held.lt e (((hE e).1 he).resolve_right hne)
      omega
  · intro p e hp
    rw [rn] at hp
    by_cases hpn : p = C.n
    · subst hpn
      rw [rcontn]
      constructor
      · intro hl; exact ⟨(hE e).2 (Or.inr hl), by rw [rpos, if_pos hl]⟩
      · rintro ⟨he, hpe⟩
        by_contra hl
        rw [rpos, if_neg hl] at hpe
        have := h.held.lt e (((hE e).1 he).resolve_right hl)
        omega
    · have hp' : p < C.n := by omega
      rw [rcont p hp', h.held.mem p e hp']
      constructor
      · rintro ⟨he, hpe⟩
        exact ⟨(hE e).2 (Or.inl he), by rw [hposE e he]; exact hpe⟩
      · rintro ⟨he, hpe⟩
        by_cases hl : e ∈ L
        · rw [rpos, if_pos hl] at hpe; omega
        · have he' := ((hE e).1 he).resolve_right hl
          exact ⟨he', by rw [← hposE e he']; exact hpe⟩
  · intro p hp
    rw [rn] at hp
    by_cases hpn : p = C.n
    · rw [hpn, rcontn]; exact hL
    · rw [rcont p (by omega)]; exact h.held.nodup p (by omega)
  · intro X hX
    show c ≤ R.cv X
    rw [rcut]
    by_cases hXn : X C.n = X q0 ∨ X C.n = X q1
    · rw [if_pos hXn]
      have hw : ∃ q, q < C.n ∧ X C.n = X q := by
        rcases hXn with hh | hh
        · exact ⟨q0, hq0, hh⟩
        · exact ⟨q1, hq1, hh⟩
      obtain ⟨q, hq, hXq⟩ := hw
      have : ProperCut C.n X := by
        obtain ⟨⟨u, hu, h1⟩, ⟨v, hv, h2⟩⟩ := hX
        rw [rn] at hu hv
        refine ⟨?_, ?_⟩
        · by_cases hun : u = C.n
          · exact ⟨q, hq, by rw [← hXq, ← hun]; exact h1⟩
          · exact ⟨u, by omega, h1⟩
        · by_cases hvn : v = C.n
          · exact ⟨q, hq, by rw [← hXq, ← hvn]; exact h2⟩
          · exact ⟨v, by omega, h2⟩
      have := h.least X this
      unfold cv
      omega
    · rw [if_neg hXn]; omega
  · intro f
    constructor
    · rintro ⟨X, y1, y2, y3⟩
      have e1 := rcut X
      unfold cv at e1
      rw [y2] at e1
      by_cases hXn : X C.n = X q0 ∨ X C.n = X q1
      · rw [if_pos hXn, add_zero] at e1
        left
        refine ⟨(h.splits f).1 ⟨X, Piece.proper_of_val (by rw [← e1]; omega), e1.symm, fun e he => ?_⟩, ?_⟩
        · rw [← hposE e he]; exact y3 e ((hE e).2 (Or.inl he))
        · rcases hXn with hh | hh
          · left
            intro e he
            rw [← y3 e ((hE e).2 (Or.inr he)), ← y3 x0 ((hE x0).2 (Or.inl hx0)), rpos, if_pos he, hposE x0 hx0]
            exact hh
          · right
            intro e he
            rw [← y3 e ((hE e).2 (Or.inr he)), ← y3 x1 ((hE x1).2 (Or.inl hx1)), rpos, if_pos he, hposE x1 hx1]
            exact hh
      · rw [if_neg hXn] at e1
        right
        have h0 : C.cv X = 0 := by unfold cv; omega
        refine ⟨X C.n, fun e he => ?_⟩
        rw [← y3 e he, rpos]
        by_cases hl : e ∈ L
        · rw [if_pos hl, if_pos hl]
        · rw [if_neg hl, if_neg hl, h.const_of_zero hc h0 (h.held.lt e (((hE e).1 he).resolve_right hl)) hq0]
          push Not at hXn
          have := hXn.1
          revert this
          cases X q0 <;> cases X C.n <;> simp
    · rintro (⟨hf, hfx⟩ | ⟨b, hb⟩)
      · obtain ⟨X, y1, y2, y3⟩ := (h.splits f).2 hf
        obtain ⟨x, q, hx, hqx, hqq, hfq⟩ : ∃ x q, E' x ∧ C.pos x = q ∧ (q = q0 ∨ q = q1) ∧ ∀ e ∈ L, f e = f x := by
          rcases hfx with hh | hh
          · exact ⟨x0, q0, hx0, rfl, Or.inl rfl, hh⟩
          · exact ⟨x1, q1, hx1, rfl, Or.inr rfl, hh⟩
        have hq : q < C.n := by rw [← hqx]; exact h.held.lt x hx
        refine ⟨update X C.n (X q), ?_, ?_, ?_⟩
        · refine hprop0 _ (ProperCut.congr (fun u hu => ?_) y1)
          rw [update_of_ne (by omega)]
        · show R.cv _ = c
          rw [hup X q hq hqq]; exact y2
        · intro e he
          rw [rpos]
          by_cases hl : e ∈ L
          · rw [if_pos hl, update_self, hfq e hl, ← hqx]; exact y3 x hx
          · rw [if_neg hl]
            have he' := ((hE e).1 he).resolve_right hl
            have := h.held.lt e he'
            rw [update_of_ne (by omega)]
            exact y3 e he'
      · refine ⟨fun v => if v = C.n then b else !b, ?_, hiso b, ?_⟩
        · cases b
          · exact ⟨⟨q0, by omega, by simp [hqn0]⟩, ⟨C.n, by omega, by simp⟩⟩
          · exact ⟨⟨C.n, by omega, by simp⟩, ⟨q0, by omega, by simp [hqn0]⟩⟩
        · intro e he
          rw [hb e he, rpos]
          by_cases hl : e ∈ L
          · simp [hl]
          · have := h.held.lt e (((hE e).1 he).resolve_right hl)
            simp [hl, show C.pos e ≠ C.n by omega]
  · intro u v hu hv huv
    rw [rn] at hu hv
    by_cases hun : u = C.n
    · exact ⟨_, by simp [hun], by simp; exact fun h => absurd (hun.trans h.symm) huv, hiso true⟩
    · by_cases hvn : v = C.n
      · exact ⟨_, by simp [hun], by simp [hvn], hiso false⟩
      · obtain ⟨X, y1, y2, y3⟩ := h.separating u v (by omega) (by omega) huv
        refine ⟨update X C.n (X q0), by rw [update_of_ne hun]; exact y1, by rw [update_of_ne hvn]; exact y2, ?_⟩
        show R.cv _ = c
        rw [hup X q0 hq0 (Or.inl rfl)]
        exact y3

theorem congr {Q : (Nat → Bool) → Prop} (h : CactusOf E P C c) (hPQ : ∀ f, P f ↔ Q f) : CactusOf E Q C c :=
  ⟨h.consistent, h.simple, h.ready, h.room, h.held, h.weights, h.least, fun f => (h.splits f).trans (hPQ f), h.separating⟩

/-- A new vertex with the elements of `L`, attached to the vertex of `x` by an edge of weight `c`. -/
theorem attach {E' : Nat → Prop} {P' : (Nat → Bool) → Prop} (h : CactusOf E' P' C c) (hc : 0 < c) {L : List Nat} (hL : L.Nodup) {x : Nat}
    (hx : E' x) (hE : ∀ e, E e ↔ E' e ∨ e ∈ L) (hd : ∀ e ∈ L, ¬ E' e) :
    CactusOf E (fun f => (P' f ∧ ∀ e ∈ L, f e = f x) ∨ ∃ b : Bool, ∀ e, E e → f e = if e ∈ L then b else !b)
      (HeavyEdges.putLeaf c C (x, L)) c := by
  set q := C.pos x with hqd
  have hq : q < C.n := h.held.lt x hx
  obtain ⟨a1, a2, a3, a4, a5, a6, _, a8, a9, a10, _⟩ := newEmpty_all h.valid h.ready
  have hqn : q ≠ C.n := by omega
  obtain ⟨b1, b2, b3⟩ := newEdgeOrder_all a1 hqn (by omega) (by omega) c
  have hfr := fr_eq (newEdgeOrder_fr C.newEmptyNode q C.n c)
  set D := C.newEmptyNode.newEdgeOrder q C.n c with hD
  obtain ⟨d1, d2, d3, d4, d5, _⟩ := hfr
  have hR : HeavyEdges.putLeaf c C (x, L) = STCactus.setMembers D C.n L := by
    unfold HeavyEdges.putLeaf
    simp only [h.ready]
    rfl
  rw [hR]
  set R := STCactus.setMembers D C.n L with hRd
  have rn : R.n = C.n + 1 := d1.trans a2
  have := h.grow (E := E) hc hL hx hx hE hd (R := R) (setMembers_valid b1 _ _) ?_ rn ?_ ?_ ?_ ?_ ?_ ?_ ?_
  · refine this.congr fun f => ?_
    rw [or_self]
  · have hs1 := simple_newEmpty h.valid h.ready h.simp0
    refine simple_newEdge a1 hs1 hqn (by omega) (by omega) ?_ c
    rw [a1.cnt_symm (by omega) (by simp) (by omega) (by simp)]
    exact a9 _
  · show D.lastNode = _
    rw [d2, a3, rn]
  · show R.n ≤ D.contSize
    rw [d3, a4, rn]
    have := h.room; omega
  · intro e
    show (if e ∈ L then C.n else D.pos e) = _
    rw [d5, a6]
  · intro p hp
    show update D.cont C.n L p = _
    rw [update_of_ne (by omega), d4, a5, update_of_ne (by have := h.room; omega)]
  · show update D.cont C.n L C.n = _
    rw [update_self]
  · exact allW_newEdge a1 (allW_newEmpty (Q := fun w => w = c ∨ 2 * w = c) h.valid h.ready h.weights) hqn (by omega) (by omega) (Or.inl rfl)
  · intro X
    have : R.cv X = D.cv X := rfl
    rw [this, b3, a10]
    by_cases hX : X q = X C.n
    · rw [if_pos hX, if_pos (Or.inl hX.symm)]
    · rw [if_neg hX, if_neg (fun e => hX (e.elim Eq.symm Eq.symm))]

end CactusOf

end VieCut
