import Verif.Model.SCC
import Mathlib.Logic.Relation
import Mathlib.Data.List.Pairwise
import Mathlib.Data.Finset.Card
import Mathlib.Data.Finset.Range
import Mathlib.Data.Finset.Max
import Mathlib.Tactic.Ring

/-! # Correctness of the path-based strongly connected component algorithm -/

namespace VieCut
open Function Relation
namespace SCC

/-- A present edge. -/
def Arc (arcs : Nat → List (Nat × Bool)) (u v : Nat) : Prop := (v, true) ∈ arcs u

/-- Reachability along present edges. -/
abbrev Reach (arcs : Nat → List (Nat × Bool)) : Nat → Nat → Prop := ReflTransGen (Arc arcs)

/-- The edge `x → t` has been looked at. -/
def Seen (s : SCC) (x t : Nat) : Prop :=
  s.dfs t ≠ none ∧ (s.comp t = none → ∀ r ∈ s.roots, s.num r ≤ s.num x → s.num r ≤ s.num t)

/-- Loop invariant. -/
structure Inv (n : Nat) (arcs : Nat → List (Nat × Bool)) (s : SCC) : Prop where
  lt : ∀ v i, s.dfs v = some i → i < s.dfsCount ∧ v < n
  inj : ∀ u v i, s.dfs u = some i → s.dfs v = some i → u = v
  unf : ∀ v, v ∈ s.unfinished ↔ s.dfs v ≠ none ∧ s.comp v = none
  compd : ∀ v c, s.comp v = some c → c < s.compCount ∧ s.dfs v ≠ none
  usort : s.unfinished.Pairwise (fun a b => s.num b < s.num a)
  rsort : s.roots.Pairwise (fun a b => s.num b < s.num a)
  isort : s.iter.Pairwise (fun a b => s.num b.1 < s.num a.1 ∧ Reach arcs b.1 a.1)
  rsub : ∀ r ∈ s.roots, ∃ e, (r, e) ∈ s.iter
  isub : ∀ p ∈ s.iter, p.1 ∈ s.unfinished
  cover : ∀ x ∈ s.unfinished, ∃ r ∈ s.roots, s.num r ≤ s.num x
  seg : ∀ r ∈ s.roots, ∀ x ∈ s.unfinished, s.num r ≤ s.num x →
    (∀ r' ∈ s.roots, s.num r' ≤ s.num x → s.num r' ≤ s.num r) → Reach arcs r x ∧ Reach arcs x r
  seen : ∀ x ∈ s.unfinished, ∀ j t, (arcs x)[j]? = some (t, true) → (∀ e, (x, e) ∈ s.iter → j < e) → s.Seen x t
  closed : ∀ x c, s.comp x = some c → ∀ t, Arc arcs x t → ∃ d, s.comp t = some d ∧ d ≤ c
  same : ∀ x y c, s.comp x = some c → s.comp y = some c → Reach arcs x y
  surj : ∀ c, c < s.compCount → ∃ v, s.comp v = some c
  slen : s.sizes.length = s.compCount
  size : ∀ c, c < s.compCount → s.sizes.getD c 0 = ((Finset.range n).filter (fun v => s.comp v = some c)).card

variable {n : Nat} {arcs : Nat → List (Nat × Bool)} {s : SCC}

theorem num_eq {s : SCC} {v i : Nat} (h : s.dfs v = some i) : s.num v = i := by simp [num, h]

theorem Inv.num_inj (h : Inv n arcs s) {u v : Nat} (hu : s.dfs u ≠ none) (hv : s.dfs v ≠ none)
    (he : s.num u = s.num v) : u = v := by
  obtain ⟨i, hi⟩ := Option.ne_none_iff_exists'.1 hu
  obtain ⟨j, hj⟩ := Option.ne_none_iff_exists'.1 hv
  rw [num_eq hi, num_eq hj] at he
  subst he
  exact h.inj u v _ hi hj

theorem Inv.num_lt (h : Inv n arcs s) {v : Nat} (hv : s.dfs v ≠ none) : s.num v < s.dfsCount := by
  obtain ⟨i, hi⟩ := Option.ne_none_iff_exists'.1 hv
  rw [num_eq hi]; exact (h.lt v i hi).1

theorem init_inv : Inv n arcs init := by
  constructor <;> simp [init]

theorem Inv.runf (h : Inv n arcs s) {r : Nat} (hr : r ∈ s.roots) : r ∈ s.unfinished := by
  obtain ⟨e, he⟩ := h.rsub r hr
  exact h.isub _ he

theorem Inv.discover (h : Inv n arcs s) {t : Nat} (ht : t < n) (hd : s.dfs t = none)
    (hr : ∀ p ∈ s.iter, Reach arcs p.1 t) : Inv n arcs (s.discover t) := by
  have hct : s.comp t = none := by
    cases hc : s.comp t with
    | none => rfl
    | some c => exact absurd hd (h.compd t c hc).2
  have htu : t ∉ s.unfinished := fun hh => ((h.unf t).1 hh).1 hd
  have hnt : (s.discover t).num t = s.dfsCount := by simp [SCC.discover, num]
  have hno : ∀ v, v ≠ t → (s.discover t).num v = s.num v := by
    intro v hv; simp [SCC.discover, num, update_of_ne hv]
  have hnu : ∀ v ∈ s.unfinished, (s.discover t).num v = s.num v := fun v hv => hno v (fun e => htu (e ▸ hv))
  have hlt : ∀ v ∈ s.unfinished, s.num v < s.dfsCount := fun v hv => h.num_lt ((h.unf v).1 hv).1
  have hdo : ∀ v, v ≠ t → (s.discover t).dfs v = s.dfs v := by
    intro v hv; simp [SCC.discover, update_of_ne hv]
  have hdt : (s.discover t).dfs t = some s.dfsCount := by simp [SCC.discover]
  have hcomp : (s.discover t).comp = s.comp := rfl
  refine { lt := ?_, inj := ?_, unf := ?_, compd := ?_, usort := ?_, rsort := ?_, isort := ?_, rsub := ?_, isub := ?_,
           cover := ?_, seg := ?_, seen := ?_, closed := h.closed, same := h.same, surj := h.surj, slen := h.slen,
           size := h.size }
  · intro v i hi
    show i < s.dfsCount + 1 ∧ v < n
    by_cases hv : v = t
    · subst hv; rw [hdt] at hi; exact ⟨by simp at hi; omega, ht⟩
    · rw [hdo v hv] at hi; have := h.lt v i hi; omega
  · intro u v i hu hv
    by_cases hut : u = t <;> by_cases hvt : v = t
    · rw [hut, hvt]
    · rw [hut, hdt] at hu; rw [hdo v hvt] at hv
      have := (h.lt v i hv).1; simp at hu; omega
    · rw [hvt, hdt] at hv; rw [hdo u hut] at hu
      have := (h.lt u i hu).1; simp at hv; omega
    · rw [hdo u hut] at hu; rw [hdo v hvt] at hv; exact h.inj u v i hu hv
  · intro v
    show v ∈ t :: s.unfinished ↔ _
    rw [hcomp, List.mem_cons]
    by_cases hv : v = t
    · subst hv; simp [hdt, hct]
    · rw [hdo v hv, ← h.unf v]; simp [hv]
  · intro v c hc
    refine ⟨(h.compd v c hc).1, ?_⟩
    by_cases hv : v = t
    · subst hv; simp [hdt]
    · rw [hdo v hv]; exact (h.compd v c hc).2
  · show (t :: s.unfinished).Pairwise _
    refine List.pairwise_cons.2 ⟨fun a ha => ?_, ?_⟩
    · rw [hnt, hnu a ha]; exact hlt a ha
    · refine h.usort.imp_of_mem fun {a b} ha hb hab => ?_
      rw [hnu a ha, hnu b hb]; exact hab
  · show (t :: s.roots).Pairwise _
    refine List.pairwise_cons.2 ⟨fun a ha => ?_, ?_⟩
    · rw [hnt, hnu a (h.runf ha)]; exact hlt a (h.runf ha)
    · refine h.rsort.imp_of_mem fun {a b} ha hb hab => ?_
      rw [hnu a (h.runf ha), hnu b (h.runf hb)]; exact hab
  · show ((t, 0) :: s.iter).Pairwise _
    refine List.pairwise_cons.2 ⟨fun a ha => ⟨?_, hr a ha⟩, ?_⟩
    · rw [hnt, hnu a.1 (h.isub a ha)]; exact hlt a.1 (h.isub a ha)
    · refine h.isort.imp_of_mem fun {a b} ha hb hab => ?_
      rw [hnu a.1 (h.isub a ha), hnu b.1 (h.isub b hb)]; exact hab
  · intro r hr'
    rcases List.mem_cons.1 hr' with rfl | hr'
    · exact ⟨0, List.mem_cons_self⟩
    · obtain ⟨e, he⟩ := h.rsub r hr'
      exact ⟨e, List.mem_cons_of_mem _ he⟩
  · intro p hp
    rcases List.mem_cons.1 hp with rfl | hp
    · exact List.mem_cons_self
    · exact List.mem_cons_of_mem _ (h.isub p hp)
  · intro x hx
    rcases List.mem_cons.1 hx with rfl | hx
    · exact ⟨x, List.mem_cons_self, le_refl _⟩
    · obtain ⟨r, hr', hle⟩ := h.cover x hx
      exact ⟨r, List.mem_cons_of_mem _ hr', by rw [hnu r (h.runf hr'), hnu x hx]; exact hle⟩
  · intro r hr' x hx hle hmax
    rcases List.mem_cons.1 (show x ∈ t :: s.unfinished from hx) with rfl | hxu
    · have h1 := hmax x List.mem_cons_self (le_refl _)
      rcases List.mem_cons.1 hr' with rfl | hr'
      · exact ⟨.refl, .refl⟩
      · rw [hnt, hnu r (h.runf hr')] at h1
        have := hlt r (h.runf hr'); omega
    · rcases List.mem_cons.1 hr' with rfl | hr'
      · rw [hnt, hnu x hxu] at hle
        have := hlt x hxu; omega
      · rw [hnu r (h.runf hr'), hnu x hxu] at hle
        refine h.seg r hr' x hxu hle fun r' h1 h2 => ?_
        have := hmax r' (List.mem_cons_of_mem _ h1) (by rw [hnu r' (h.runf h1), hnu x hxu]; exact h2)
        rwa [hnu r' (h.runf h1), hnu r (h.runf hr')] at this
  · intro x hx j u hj hsc
    rcases List.mem_cons.1 (show x ∈ t :: s.unfinished from hx) with rfl | hxu
    · have := hsc 0 List.mem_cons_self; omega
    · obtain ⟨a, b⟩ := h.seen x hxu j u hj (fun e he => hsc e (List.mem_cons_of_mem _ he))
      have hut : u ≠ t := fun e => a (e ▸ hd)
      refine ⟨by rw [hdo u hut]; exact a, fun hc r hr' hle => ?_⟩
      rcases List.mem_cons.1 hr' with rfl | hr'
      · rw [hnt, hnu x hxu] at hle
        have := hlt x hxu; omega
      · rw [hnu r (h.runf hr'), hnu x hxu] at hle
        rw [hnu r (h.runf hr'), hno u hut]
        exact b hc r hr' hle

/-- Moving the edge pointer of the top of the iteration stack. -/
theorem Inv.advance (h : Inv n arcs s) {cur e : Nat} {it : List (Nat × Nat)} (hi : s.iter = (cur, e) :: it)
    {p : Nat × Bool} (hp : (arcs cur)[e]? = some p) (hseen : p.2 = true → s.Seen cur p.1) :
    Inv n arcs { s with iter := (cur, e + 1) :: it } := by
  have hs := h.isort
  rw [hi] at hs
  have hs := List.pairwise_cons.1 hs
  refine { lt := h.lt, inj := h.inj, unf := h.unf, compd := h.compd, usort := h.usort, rsort := h.rsort, isort := ?_,
           rsub := ?_, isub := ?_, cover := h.cover, seg := h.seg, seen := ?_, closed := h.closed, same := h.same,
           surj := h.surj, slen := h.slen, size := h.size }
  · exact List.pairwise_cons.2 ⟨fun a ha => hs.1 a ha, hs.2⟩
  · intro r hr
    obtain ⟨e', he⟩ := h.rsub r hr
    rw [hi] at he
    rcases List.mem_cons.1 he with h1 | h1
    · cases h1; exact ⟨e + 1, List.mem_cons_self⟩
    · exact ⟨e', List.mem_cons_of_mem _ h1⟩
  · intro q hq
    rcases List.mem_cons.1 hq with rfl | hq
    · exact h.isub (cur, e) (by rw [hi]; exact List.mem_cons_self)
    · exact h.isub q (by rw [hi]; exact List.mem_cons_of_mem _ hq)
  · intro x hx j t hj hsc
    by_cases hc : x = cur
    · subst hc
      have h1 := hsc (e + 1) List.mem_cons_self
      by_cases hje : j = e
      · subst hje
        rw [hp] at hj
        cases hj
        exact hseen rfl
      · refine h.seen x hx j t hj fun e' he' => ?_
        rw [hi] at he'
        rcases List.mem_cons.1 he' with h2 | h2
        · cases h2; omega
        · exact hsc e' (List.mem_cons_of_mem _ h2)
    · refine h.seen x hx j t hj fun e' he' => ?_
      rw [hi] at he'
      rcases List.mem_cons.1 he' with h2 | h2
      · cases h2; exact absurd rfl hc
      · exact hsc e' (List.mem_cons_of_mem _ h2)

theorem Inv.top_root (h : Inv n arcs s) {cur e : Nat} {it : List (Nat × Nat)} (hi : s.iter = (cur, e) :: it) {r : Nat}
    (hr : r ∈ s.roots) : s.num r ≤ s.num cur ∧ Reach arcs r cur := by
  obtain ⟨e', he⟩ := h.rsub r hr
  have hs := h.isort
  rw [hi] at hs he
  rcases List.mem_cons.1 he with h1 | h1
  · cases h1; exact ⟨le_refl _, .refl⟩
  · have := (List.pairwise_cons.1 hs).1 _ h1
    exact ⟨le_of_lt this.1, this.2⟩

theorem dropWhile_sorted {f : Nat → Nat} {b : Nat} : ∀ {l : List Nat}, l.Pairwise (fun a c => f c < f a) → ∀ x,
    x ∈ l.dropWhile (fun r => decide (f r > b)) ↔ x ∈ l ∧ f x ≤ b
  | [], _, x => by simp
  | a :: l, h, x => by
    have h := List.pairwise_cons.1 h
    rw [List.dropWhile_cons]
    split
    · rename_i hc
      simp only [decide_eq_true_eq] at hc
      rw [dropWhile_sorted h.2 x, List.mem_cons]
      constructor
      · rintro ⟨h1, h2⟩; exact ⟨Or.inr h1, h2⟩
      · rintro ⟨rfl | h1, h2⟩
        · omega
        · exact ⟨h1, h2⟩
    · rename_i hc
      simp only [decide_eq_true_eq, not_lt] at hc
      constructor
      · intro hx
        refine ⟨hx, ?_⟩
        rcases List.mem_cons.1 hx with rfl | hx
        · exact hc
        · have := h.1 x hx; omega
      · exact fun hx => hx.1

/-- The edge `cur → t` closes a cycle: the components above `t` are merged. -/
theorem Inv.merge (h : Inv n arcs s) {cur e : Nat} {it : List (Nat × Nat)} (hi : s.iter = (cur, e) :: it) {t : Nat}
    (harc : (t, true) ∈ arcs cur) (hd : s.dfs t ≠ none) (hc : s.comp t = none) :
    s.roots.dropWhile (fun r => decide (s.num r > s.num t)) ≠ [] ∧
    Inv n arcs { s with roots := s.roots.dropWhile (fun r => decide (s.num r > s.num t)) } ∧
    Seen { s with roots := s.roots.dropWhile (fun r => decide (s.num r > s.num t)) } cur t := by
  have htu : t ∈ s.unfinished := (h.unf t).2 ⟨hd, hc⟩
  have hmem := dropWhile_sorted (f := s.num) (b := s.num t) h.rsort
  set R := s.roots.dropWhile (fun r => decide (s.num r > s.num t)) with hR
  obtain ⟨r0, hr0, hle0⟩ := h.cover t htu
  have hne : r0 ∈ R := (hmem r0).2 ⟨hr0, hle0⟩
  have hcu : cur ∈ s.unfinished := h.isub (cur, e) (by rw [hi]; exact List.mem_cons_self)
  -- every vertex above the remaining top root reaches `t`
  have htop : ∀ r ∈ s.roots, (∀ r' ∈ s.roots, s.num r' ≤ s.num r) → Reach arcs cur r := by
    intro r hr hmax
    exact (h.seg r hr cur hcu (h.top_root hi hr).1 (fun r' h1 _ => hmax r' h1)).2
  refine ⟨List.ne_nil_of_mem hne, ?_, ?_⟩
  · refine { lt := h.lt, inj := h.inj, unf := h.unf, compd := h.compd, usort := h.usort,
             rsort := h.rsort.sublist (List.dropWhile_sublist _), isort := h.isort,
             rsub := fun r hr => h.rsub r ((hmem r).1 hr).1, isub := h.isub, cover := ?_, seg := ?_, seen := ?_,
             closed := h.closed, same := h.same, surj := h.surj, slen := h.slen, size := h.size }
    · intro x hx
      by_cases hxt : s.num t ≤ s.num x
      · exact ⟨r0, hne, show s.num r0 ≤ s.num x by omega⟩
      · obtain ⟨r, hr, hle⟩ := h.cover x hx
        exact ⟨r, (hmem r).2 ⟨hr, by omega⟩, hle⟩
    · intro r hr x hx (hle : s.num r ≤ s.num x) (hmax : ∀ r' ∈ R, s.num r' ≤ s.num x → s.num r' ≤ s.num r)
      obtain ⟨hrr, hrt⟩ := (hmem r).1 hr
      by_cases hall : ∀ r' ∈ s.roots, s.num r' ≤ s.num x → s.num r' ≤ s.num r
      · exact h.seg r hrr x hx hle hall
      · push Not at hall
        obtain ⟨q, hq, hqx, hqr⟩ := hall
        have hqt : ¬ s.num q ≤ s.num t := fun hh => by
          have := hmax q ((hmem q).2 ⟨hq, hh⟩) hqx; omega
        -- `r` is the segment root of `t`
        have hrt' : Reach arcs r t ∧ Reach arcs t r := by
          refine h.seg r hrr t htu hrt fun r' h1 h2 => ?_
          refine hmax r' ((hmem r').2 ⟨h1, h2⟩) (by omega)
        -- the segment root of `x`
        have hex : ∃ p ∈ s.roots, s.num p ≤ s.num x ∧ ∀ r' ∈ s.roots, s.num r' ≤ s.num x → s.num r' ≤ s.num p := by
          classical
          have hne : ((s.roots.toFinset.filter (fun p => s.num p ≤ s.num x))).Nonempty :=
            ⟨q, by simp [hq, hqx]⟩
          obtain ⟨p, hp, hpm⟩ := Finset.exists_max_image _ s.num hne
          simp only [Finset.mem_filter, List.mem_toFinset] at hp hpm
          exact ⟨p, hp.1, hp.2, fun r' h1 h2 => hpm r' ⟨h1, h2⟩⟩
        obtain ⟨p, hp, hpx, hpm⟩ := hex
        obtain ⟨hpx1, hpx2⟩ := h.seg p hp x hx hpx hpm
        have hrp : Reach arcs r p := by
          obtain ⟨e1, he1⟩ := h.rsub r hrr
          obtain ⟨e2, he2⟩ := h.rsub p hp
          have hlt : s.num r < s.num p := by have := hpm q hq hqx; omega
          have hs := h.isort
          have hdis : ∀ l : List (Nat × Nat), l.Pairwise (fun a b => s.num b.1 < s.num a.1 ∧ Reach arcs b.1 a.1) →
              (r, e1) ∈ l → (p, e2) ∈ l → Reach arcs r p := by
            intro l hl h1 h2
            induction l with
            | nil => simp at h1
            | cons a l ih =>
              have hl := List.pairwise_cons.1 hl
              rcases List.mem_cons.1 h1 with h1 | h1 <;> rcases List.mem_cons.1 h2 with h2 | h2
              · rw [← h1] at h2; cases h2; exact .refl
              · have := (hl.1 _ h2).1; rw [← h1] at this; dsimp only at this; omega
              · have := (hl.1 _ h1).2; rw [← h2] at this; exact this
              · exact ih hl.2 h1 h2
          exact hdis _ hs he1 he2
        have hpc := (h.top_root hi hp).2
        have hct : Reach arcs cur t := .single harc
        exact ⟨hrp.trans hpx1, ((hpx2.trans hpc).trans hct).trans hrt'.2⟩
    · intro x hx j u hj hsc
      obtain ⟨a, b⟩ := h.seen x hx j u hj hsc
      exact ⟨a, fun hc r hr => b hc r ((hmem r).1 hr).1⟩
  · exact ⟨hd, fun _ r hr _ => ((hmem r).1 hr).2⟩

/-- Result of scanning: a new vertex was found, or all edges have been seen. -/
theorem scan_inv (cur : Nat) : ∀ (l : List (Nat × Bool)) (e : Nat) (s : SCC), (arcs cur).drop e = l →
    (∀ t, Arc arcs cur t → t < n) →
    Inv n arcs { s with iter := (cur, e) :: s.iter } →
    ∃ s', scan cur l e s = some s' ∧
      ((Inv n arcs s' ∧ s'.iter.length = s.iter.length + 2 ∧
          (∃ t, t < n ∧ s.dfs t = none ∧ s'.dfs = update s.dfs t (some s.dfsCount)) ∧
          (∃ r rs, s'.roots = r :: rs ∧ r ≠ cur)) ∨
        (∃ e', Inv n arcs { s' with iter := (cur, e') :: s.iter } ∧ s'.iter = s.iter ∧ s'.dfs = s.dfs ∧
          (arcs cur).length ≤ e'))
  | [], e, s, hl, _, h => ⟨s, rfl, Or.inr ⟨e, h, rfl, rfl, by simpa using hl⟩⟩
  | (t, false) :: l, e, s, hl, hn, h => by
    have hp : (arcs cur)[e]? = some (t, false) := by
      have := congrArg (fun l => l[0]?) hl
      simpa using this
    have hl' : (arcs cur).drop (e + 1) = l := by rw [← List.drop_drop, hl]; rfl
    have h' := h.advance rfl hp (by simp)
    exact scan_inv cur l (e + 1) s hl' hn h'
  | (t, true) :: l, e, s, hl, hn, h => by
    have hp : (arcs cur)[e]? = some (t, true) := by
      have := congrArg (fun l => l[0]?) hl
      simpa using this
    have harc : Arc arcs cur t := List.mem_of_getElem? hp
    have hl' : (arcs cur).drop (e + 1) = l := by rw [← List.drop_drop, hl]; rfl
    unfold scan
    by_cases hd : s.dfs t = none
    · rw [if_pos hd]
      refine ⟨_, rfl, Or.inl ⟨?_, ?_, ?_, ?_⟩⟩
      · refine h.discover (hn t harc) hd ?_
        intro p hpm
        rcases List.mem_cons.1 hpm with rfl | hpm
        · exact .single harc
        · exact (((List.pairwise_cons.1 h.isort).1 p hpm).2).trans (.single harc)
      · simp [SCC.discover]
      · exact ⟨t, hn t harc, hd, rfl⟩
      · refine ⟨t, s.roots, rfl, ?_⟩
        rintro rfl
        exact ((h.unf t).1 (h.isub (t, e) List.mem_cons_self)).1 hd
    · rw [if_neg hd]
      by_cases hc : s.comp t = none
      · rw [if_pos hc]
        obtain ⟨h1, h2, h3⟩ := h.merge rfl harc hd hc
        have h4 := h2.advance rfl hp (fun _ => h3)
        change s.roots.dropWhile (fun r => decide (s.num r > s.num t)) ≠ [] at h1
        change Inv n arcs { s with roots := s.roots.dropWhile (fun r => decide (s.num r > s.num t)), iter := (cur, e + 1) :: s.iter } at h4
        generalize s.roots.dropWhile (fun r => decide (s.num r > s.num t)) = R at h1 h4
        cases R with
        | nil => exact absurd rfl h1
        | cons r rs =>
          exact scan_inv cur l (e + 1) { s with roots := r :: rs } hl' hn h4
      · rw [if_neg hc]
        have h' := h.advance rfl hp (fun _ => ⟨hd, fun hh => absurd hh hc⟩)
        exact scan_inv cur l (e + 1) s hl' hn h'

theorem popUntil_spec (cur : Nat) : ∀ (l : List Nat) (s : SCC), s.unfinished = l → l.Nodup → cur ∈ l →
    ∃ A B, l = A ++ cur :: B ∧ popUntil cur l s = some { s with
      unfinished := B, comp := fun v => if v ∈ A ++ [cur] then some s.compCount else s.comp v,
      sizes := s.sizes.modify s.compCount (· + (A.length + 1)) }
  | [], _, _, _, h => by simp at h
  | w :: l, s, hu, hnd, h => by
    have hnd := List.nodup_cons.1 hnd
    unfold popUntil
    by_cases hw : w = cur
    · subst hw
      refine ⟨[], l, rfl, ?_⟩
      rw [if_pos rfl]
      congr 1
      have : (update s.comp w (some s.compCount)) = fun v => if v ∈ [] ++ [w] then some s.compCount else s.comp v := by
        funext v
        by_cases hv : v = w
        · subst hv; simp
        · simp [hv]
      simp only [this]
      rfl
    · rw [if_neg hw]
      have hc : cur ∈ l := by
        rcases List.mem_cons.1 h with h | h
        · exact absurd h.symm hw
        · exact h
      obtain ⟨A, B, h1, h2⟩ := popUntil_spec cur l ⟨s.dfs, update s.comp w (some s.compCount), s.dfsCount, s.compCount,
        s.sizes.modify s.compCount (· + 1), l, s.roots, s.iter⟩ rfl hnd.2 hc
      refine ⟨w :: A, B, by rw [h1]; rfl, ?_⟩
      rw [h2]
      congr 1
      have e1 : (fun v => if v ∈ A ++ [cur] then some s.compCount else update s.comp w (some s.compCount) v) =
          fun v => if v ∈ w :: A ++ [cur] then some s.compCount else s.comp v := by
        funext v
        by_cases hv : v = w
        · subst hv; simp
        · simp [hv]
      have e2 : (s.sizes.modify s.compCount (· + 1)).modify s.compCount (· + (A.length + 1)) =
          s.sizes.modify s.compCount (· + ((w :: A).length + 1)) := by
        rw [List.modify_modify_eq]
        congr 1
        funext x
        simp [Function.comp]
        omega
      simp only [e1, e2]

/-- All edges of the top vertex have been seen and it is not a root. -/
theorem Inv.pop (h : Inv n arcs s) {cur e : Nat} {it : List (Nat × Nat)} (hi : s.iter = (cur, e) :: it)
    (hlen : (arcs cur).length ≤ e) (hr : cur ∉ s.roots) : Inv n arcs { s with iter := it } := by
  have hs := h.isort
  rw [hi] at hs
  have hs := List.pairwise_cons.1 hs
  refine { lt := h.lt, inj := h.inj, unf := h.unf, compd := h.compd, usort := h.usort, rsort := h.rsort, isort := hs.2,
           rsub := ?_, isub := ?_, cover := h.cover, seg := h.seg, seen := ?_, closed := h.closed, same := h.same,
           surj := h.surj, slen := h.slen, size := h.size }
  · intro r hr'
    obtain ⟨e', he⟩ := h.rsub r hr'
    rw [hi] at he
    rcases List.mem_cons.1 he with h1 | h1
    · cases h1; exact absurd hr' hr
    · exact ⟨e', h1⟩
  · intro q hq
    exact h.isub q (by rw [hi]; exact List.mem_cons_of_mem _ hq)
  · intro x hx j t hj hsc
    refine h.seen x hx j t hj fun e' he' => ?_
    rw [hi] at he'
    rcases List.mem_cons.1 he' with h2 | h2
    · cases h2
      have := (List.getElem?_eq_some_iff.1 hj).1
      omega
    · exact hsc e' h2

/-- Closing a component. -/
theorem Inv.finish (h : Inv n arcs s) {cur e : Nat} {it : List (Nat × Nat)} (hi : s.iter = (cur, e) :: it)
    (hlen : (arcs cur).length ≤ e) {rs : List Nat} (hr : s.roots = cur :: rs) {A B : List Nat}
    (hu : s.unfinished = A ++ cur :: B) :
    Inv n arcs { s with
      unfinished := B, comp := fun v => if v ∈ A ++ [cur] then some s.compCount else s.comp v,
      sizes := (s.sizes ++ [0]).modify s.compCount (· + (A.length + 1)), compCount := s.compCount + 1,
      roots := rs, iter := it } := by
  have hs := h.isort
  rw [hi] at hs
  have hs := List.pairwise_cons.1 hs
  have hrs := h.rsort
  rw [hr] at hrs
  have hrs := List.pairwise_cons.1 hrs
  have hus := h.usort
  rw [hu] at hus
  obtain ⟨hA, hB, hAB⟩ := List.pairwise_append.1 hus
  have hB := List.pairwise_cons.1 hB
  -- membership in the segment is decided by the number
  have hseg : ∀ x ∈ A ++ [cur], s.num cur ≤ s.num x := by
    intro x hx
    rcases List.mem_append.1 hx with hx | hx
    · exact le_of_lt (hAB x hx cur List.mem_cons_self)
    · simp at hx; rw [hx]
  have hBlt : ∀ x ∈ B, s.num x < s.num cur := fun x hx => hB.1 x hx
  have hunf : ∀ x, x ∈ s.unfinished ↔ x ∈ A ++ [cur] ∨ x ∈ B := by
    intro x; rw [hu]; simp
    tauto
  have hdisj : ∀ x ∈ B, x ∉ A ++ [cur] := by
    intro x hx hx'
    have := hseg x hx'; have := hBlt x hx; omega
  have hnc : ∀ x c, s.comp x = some c → x ∉ A ++ [cur] := by
    intro x c hc hx
    have := ((h.unf x).1 ((hunf x).2 (Or.inl hx))).2
    rw [this] at hc; cases hc
  have hmut : ∀ x ∈ A ++ [cur], Reach arcs cur x ∧ Reach arcs x cur := by
    intro x hx
    refine h.seg cur (by rw [hr]; exact List.mem_cons_self) x ((hunf x).2 (Or.inl hx)) (hseg x hx) fun r' h1 _ => ?_
    exact (h.top_root hi h1).1
  have hnoiter : ∀ x ∈ A ++ [cur], ∀ e', (x, e') ∈ it → False := by
    intro x hx e' he'
    have := (hs.1 _ he').1
    have := hseg x hx
    dsimp only at *
    omega
  have hcomp : ∀ x ∈ A ++ [cur], (if x ∈ A ++ [cur] then some s.compCount else s.comp x) = some s.compCount :=
    fun x hx => if_pos hx
  refine { lt := h.lt, inj := h.inj, unf := ?_, compd := ?_, usort := hB.2, rsort := hrs.2, isort := hs.2, rsub := ?_,
           isub := ?_, cover := ?_, seg := ?_, seen := ?_, closed := ?_, same := ?_, surj := ?_, slen := ?_, size := ?_ }
  · intro v
    show v ∈ B ↔ s.dfs v ≠ none ∧ (if v ∈ A ++ [cur] then some s.compCount else s.comp v) = none
    by_cases hv : v ∈ A ++ [cur]
    · rw [if_pos hv]
      simp only [reduceCtorEq, and_false, iff_false]
      exact fun hb => hdisj v hb hv
    · rw [if_neg hv, ← h.unf v, hunf v]
      tauto
  · intro v c (hc : (if v ∈ A ++ [cur] then some s.compCount else s.comp v) = some c)
    show c < s.compCount + 1 ∧ s.dfs v ≠ none
    by_cases hv : v ∈ A ++ [cur]
    · rw [if_pos hv] at hc
      cases hc
      exact ⟨by omega, ((h.unf v).1 ((hunf v).2 (Or.inl hv))).1⟩
    · rw [if_neg hv] at hc
      have := h.compd v c hc
      exact ⟨by omega, this.2⟩
  · intro r hr'
    obtain ⟨e', he⟩ := h.rsub r (by rw [hr]; exact List.mem_cons_of_mem _ hr')
    rw [hi] at he
    rcases List.mem_cons.1 he with h1 | h1
    · have hrc : r = cur := congrArg Prod.fst h1
      subst hrc
      have := hrs.1 r hr'; omega
    · exact ⟨e', h1⟩
  · intro p hp
    have h1 := h.isub p (by rw [hi]; exact List.mem_cons_of_mem _ hp)
    rcases (hunf p.1).1 h1 with h2 | h2
    · exact absurd hp (fun hp => hnoiter p.1 h2 p.2 hp)
    · exact h2
  · intro x hx
    obtain ⟨r, hr', hle⟩ := h.cover x ((hunf x).2 (Or.inr hx))
    rw [hr] at hr'
    rcases List.mem_cons.1 hr' with rfl | hr'
    · have := hBlt x hx; omega
    · exact ⟨r, hr', hle⟩
  · intro r hr' x hx hle hmax
    refine h.seg r (by rw [hr]; exact List.mem_cons_of_mem _ hr') x ((hunf x).2 (Or.inr hx)) hle fun r' h1 h2 => ?_
    rw [hr] at h1
    rcases List.mem_cons.1 h1 with rfl | h1
    · have := hBlt x hx; omega
    · exact hmax r' h1 h2
  · intro x hx j t hj hsc
    obtain ⟨a, b⟩ := h.seen x ((hunf x).2 (Or.inr hx)) j t hj (by
      intro e' he'
      rw [hi] at he'
      rcases List.mem_cons.1 he' with h2 | h2
      · have hxc : x = cur := congrArg Prod.fst h2
        rw [hxc] at hx
        have := hBlt cur hx; omega
      · exact hsc e' h2)
    refine ⟨a, fun (hc : (if t ∈ A ++ [cur] then some s.compCount else s.comp t) = none) r hr' hle => ?_⟩
    by_cases ht : t ∈ A ++ [cur]
    · rw [if_pos ht] at hc; cases hc
    · rw [if_neg ht] at hc
      exact b hc r (by rw [hr]; exact List.mem_cons_of_mem _ hr') hle
  · intro x c (hc : (if x ∈ A ++ [cur] then some s.compCount else s.comp x) = some c) t harc
    show ∃ d, (if t ∈ A ++ [cur] then some s.compCount else s.comp t) = some d ∧ d ≤ c
    by_cases hx : x ∈ A ++ [cur]
    · rw [if_pos hx] at hc
      cases hc
      obtain ⟨j, hj⟩ := List.getElem?_of_mem harc
      obtain ⟨a, b⟩ := h.seen x ((hunf x).2 (Or.inl hx)) j t hj (by
        intro e' he'
        rw [hi] at he'
        rcases List.mem_cons.1 he' with h2 | h2
        · cases h2
          have := (List.getElem?_eq_some_iff.1 hj).1; omega
        · exact absurd h2 (fun h2 => hnoiter x hx e' h2))
      by_cases ht : t ∈ A ++ [cur]
      · exact ⟨_, if_pos ht, le_refl _⟩
      · rw [if_neg ht]
        cases hct : s.comp t with
        | some d => exact ⟨d, rfl, le_of_lt (h.compd t d hct).1⟩
        | none =>
          have h1 := b hct cur (by rw [hr]; exact List.mem_cons_self) (hseg x hx)
          rcases (hunf t).1 ((h.unf t).2 ⟨a, hct⟩) with h2 | h2
          · exact absurd h2 ht
          · have := hBlt t h2; omega
    · rw [if_neg hx] at hc
      obtain ⟨d, hd, hle⟩ := h.closed x c hc t harc
      exact ⟨d, by rw [if_neg (hnc t d hd)]; exact hd, hle⟩
  · intro x y c (hx : (if x ∈ A ++ [cur] then some s.compCount else s.comp x) = some c)
      (hy : (if y ∈ A ++ [cur] then some s.compCount else s.comp y) = some c)
    by_cases h1 : x ∈ A ++ [cur] <;> by_cases h2 : y ∈ A ++ [cur]
    · exact (hmut x h1).2.trans (hmut y h2).1
    · rw [if_pos h1] at hx; rw [if_neg h2] at hy
      cases hx
      have := (h.compd y _ hy).1; omega
    · rw [if_neg h1] at hx; rw [if_pos h2] at hy
      cases hy
      have := (h.compd x _ hx).1; omega
    · rw [if_neg h1] at hx; rw [if_neg h2] at hy
      exact h.same x y c hx hy
  · intro c (hc : c < s.compCount + 1)
    show ∃ v, (if v ∈ A ++ [cur] then some s.compCount else s.comp v) = some c
    by_cases hcc : c = s.compCount
    · exact ⟨cur, by rw [if_pos (by simp), hcc]⟩
    · obtain ⟨v, hv⟩ := h.surj c (by omega)
      exact ⟨v, by rw [if_neg (hnc v c hv)]; exact hv⟩
  · show ((s.sizes ++ [0]).modify s.compCount _).length = s.compCount + 1
    rw [List.length_modify]; simp [h.slen]
  · intro c (hc : c < s.compCount + 1)
    show ((s.sizes ++ [0]).modify s.compCount (· + (A.length + 1))).getD c 0 =
      ((Finset.range n).filter (fun v => (if v ∈ A ++ [cur] then some s.compCount else s.comp v) = some c)).card
    have hnd : (A ++ [cur]).Nodup := by
      have h1 : s.unfinished.Nodup := h.usort.imp fun {a b} hab heq => by rw [heq] at hab; omega
      rw [hu] at h1
      refine h1.sublist ?_
      exact List.Sublist.append (List.Sublist.refl _) (by simp)
    by_cases hcc : c = s.compCount
    · have e1 : (Finset.range n).filter (fun v => (if v ∈ A ++ [cur] then some s.compCount else s.comp v) = some c) =
          (A ++ [cur]).toFinset := by
        ext v
        rw [Finset.mem_filter, List.mem_toFinset, Finset.mem_range]
        constructor
        · rintro ⟨h1, h2⟩
          by_contra hv
          rw [if_neg hv] at h2
          have := (h.compd v c h2).1; omega
        · intro hv
          obtain ⟨i, hi'⟩ := Option.ne_none_iff_exists'.1 ((h.unf v).1 ((hunf v).2 (Or.inl hv))).1
          exact ⟨(h.lt v i hi').2, by rw [if_pos hv, hcc]⟩
      rw [e1, List.toFinset_card_of_nodup hnd, hcc, ← h.slen]
      simp [List.getD_eq_getElem?_getD]
    · have e1 : (Finset.range n).filter (fun v => (if v ∈ A ++ [cur] then some s.compCount else s.comp v) = some c) =
          (Finset.range n).filter (fun v => s.comp v = some c) := by
        refine Finset.filter_congr fun v _ => ?_
        by_cases hv : v ∈ A ++ [cur]
        · rw [if_pos hv]
          constructor
          · intro hh; cases hh; exact absurd rfl hcc
          · intro hh; exact absurd hv (hnc v c hh)
        · rw [if_neg hv]
      rw [e1, ← h.size c (by omega)]
      have hlt : c < s.sizes.length := by rw [h.slen]; omega
      simp [List.getD_eq_getElem?_getD, Ne.symm hcc, List.getElem?_append_left hlt]

/-- Number of vertices not yet discovered. -/
def undisc (n : Nat) (s : SCC) : Nat := ((Finset.range n).filter (fun v => s.dfs v = none)).card

theorem undisc_update {t d : Nat} {s s' : SCC} (ht : t < n) (h : s.dfs t = none)
    (hs : s'.dfs = update s.dfs t (some d)) : undisc n s' + 1 ≤ undisc n s := by
  unfold undisc
  refine Finset.card_lt_card ?_
  rw [Finset.ssubset_iff_of_subset]
  · refine ⟨t, by simp [ht, h], ?_⟩
    rw [Finset.mem_filter, hs]; simp
  · intro v hv
    rw [Finset.mem_filter, hs] at hv
    rw [Finset.mem_filter]
    refine ⟨hv.1, ?_⟩
    by_cases hvt : v = t
    · rw [hvt]; exact h
    · have := hv.2; rwa [update_of_ne hvt] at this

theorem Inv.nodup (h : Inv n arcs s) : s.unfinished.Nodup :=
  h.usort.imp fun {a b} hab heq => by rw [heq] at hab; omega

/-- One iteration of the while loop. -/
theorem step_inv (hn : ∀ u t, u < n → Arc arcs u t → t < n) (h : Inv n arcs s) {cur e : Nat} {it : List (Nat × Nat)}
    (hi : s.iter = (cur, e) :: it) :
    ∃ s', (scan cur ((arcs cur).drop e) e { s with iter := it }).bind (close cur) = some s' ∧ Inv n arcs s' ∧
      s'.iter.length + 2 * undisc n s' + 1 ≤ s.iter.length + 2 * undisc n s ∧
      (∀ v, s.dfs v ≠ none → s'.dfs v ≠ none) := by
  have h0 : Inv n arcs { { s with iter := it } with iter := (cur, e) :: it } := by rw [← hi]; exact h
  have hcn : cur < n := by
    have h1 := h.isub (cur, e) (by rw [hi]; exact List.mem_cons_self)
    obtain ⟨i, hi'⟩ := Option.ne_none_iff_exists'.1 ((h.unf cur).1 h1).1
    exact (h.lt cur i hi').2
  have hil : s.iter.length = it.length + 1 := by rw [hi]; rfl
  obtain ⟨s1, hs1, h1 | h1⟩ := scan_inv (n := n) cur _ e { s with iter := it } rfl (fun t ht => hn cur t hcn ht) h0
  · obtain ⟨hinv, hlen, ⟨t, ht, hd, hdfs⟩, r, rs, hroots, hrc⟩ := h1
    refine ⟨s1, ?_, hinv, ?_, ?_⟩
    · rw [hs1]
      show close cur s1 = some s1
      unfold close
      rw [hroots]
      dsimp only
      rw [if_neg (Ne.symm hrc)]
    · have := undisc_update (n := n) (s := s) (s' := s1) ht hd hdfs
      dsimp only at hlen
      omega
    · intro v hv
      rw [hdfs]
      by_cases hvt : v = t
      · subst hvt; simp
      · rw [update_of_ne hvt]; exact hv
  · obtain ⟨e', hinv, hiter, hdfs, hlen⟩ := h1
    rw [hs1]
    show ∃ s', close cur s1 = some s' ∧ _
    have hu : undisc n s1 = undisc n s := by unfold undisc; rw [hdfs]
    have hs1e : ({ s1 with iter := it } : SCC) = s1 := by
      have : s1.iter = it := hiter
      rw [← this]
    have hcu : cur ∈ s1.unfinished := hinv.isub (cur, e') List.mem_cons_self
    unfold close
    cases hroots : s1.roots with
    | nil =>
      obtain ⟨r, hr, _⟩ := hinv.cover cur hcu
      have hr : r ∈ s1.roots := hr
      rw [hroots] at hr; simp at hr
    | cons r rs =>
      dsimp only
      by_cases hcr : cur = r
      · rw [if_pos hcr]
        subst hcr
        obtain ⟨A, B, hAB, hpop⟩ := popUntil_spec cur s1.unfinished { s1 with sizes := s1.sizes ++ [0] } rfl
          hinv.nodup hcu
        rw [hroots] at hpop
        rw [hpop]
        have h2 := hinv.finish (e := e') (it := it) rfl hlen hroots hAB
        refine ⟨_, rfl, ?_, ?_, ?_⟩
        · dsimp only at hiter ⊢
          rw [hiter]
          exact h2
        · show s1.iter.length + 2 * undisc n s1 + 1 ≤ _
          rw [hu, hiter]; dsimp only; omega
        · intro v hv; show s1.dfs v ≠ none; rw [hdfs]; exact hv
      · rw [if_neg hcr]
        refine ⟨s1, rfl, ?_, ?_, ?_⟩
        · have h2 := hinv.pop (e := e') (it := it) rfl hlen (by
            intro hmem
            have hmem : cur ∈ s1.roots := hmem
            have hrs := hinv.rsort
            have hrs : s1.roots.Pairwise (fun a b => s1.num b < s1.num a) := hrs
            rw [hroots] at hrs hmem
            rcases List.mem_cons.1 hmem with h3 | h3
            · exact hcr h3
            · have h4 := (List.pairwise_cons.1 hrs).1 cur h3
              have h5 : s1.num r ≤ s1.num cur := (hinv.top_root (e := e') (it := it) rfl
                (show r ∈ s1.roots by rw [hroots]; exact List.mem_cons_self)).1
              omega)
          rw [← hs1e]
          exact h2
        · rw [hu, hiter]; dsimp only; omega
        · intro v hv; rw [hdfs]; exact hv

theorem loop_inv (hn : ∀ u t, u < n → Arc arcs u t → t < n) : ∀ (f : Nat) (s : SCC), Inv n arcs s →
    s.iter.length + 2 * undisc n s ≤ f →
    ∃ s', loop arcs f s = some s' ∧ Inv n arcs s' ∧ s'.iter = [] ∧ ∀ v, s.dfs v ≠ none → s'.dfs v ≠ none
  | 0, s, h, hf => by
    have : s.iter = [] := List.length_eq_zero_iff.1 (by omega)
    exact ⟨s, by simp [loop, this], h, this, fun _ => id⟩
  | f + 1, s, h, hf => by
    unfold loop
    cases hi : s.iter with
    | nil => exact ⟨s, rfl, h, hi, fun _ => id⟩
    | cons p it =>
      obtain ⟨cur, e⟩ := p
      dsimp only
      obtain ⟨s1, h1, h2, h3, h4⟩ := step_inv hn h hi
      obtain ⟨s2, h5, h6, h7, h8⟩ := loop_inv hn f s1 h2 (by omega)
      rw [h1]
      exact ⟨s2, h5, h6, h7, fun v hv => h8 v (h4 v hv)⟩

theorem outer_inv (hn : ∀ u t, u < n → Arc arcs u t → t < n) : ∀ k, k ≤ n →
    ∃ s, outer n arcs k init = some s ∧ Inv n arcs s ∧ s.iter = [] ∧ ∀ v, v < k → s.dfs v ≠ none
  | 0, _ => ⟨init, rfl, init_inv, rfl, by simp⟩
  | k + 1, hk => by
    obtain ⟨s, h1, h2, h3, h4⟩ := outer_inv hn k (by omega)
    unfold outer
    rw [h1]
    by_cases hd : s.dfs k = none
    · have h5 := h2.discover (t := k) (by omega) hd (by rw [h3]; simp)
      have h6 := undisc_update (n := n) (s := s) (s' := s.discover k) (t := k) (d := s.dfsCount) (by omega) hd rfl
      have h7 : undisc n s ≤ n := by
        unfold undisc
        exact (Finset.card_filter_le _ _).trans (by simp)
      obtain ⟨s', a, b, c, d⟩ := loop_inv hn (2 * n) (s.discover k) h5 (by
        have : (s.discover k).iter.length = 1 := by simp [SCC.discover, h3]
        omega)
      refine ⟨s', by simp only [Option.bind_some]; rw [if_pos hd]; exact a, b, c, fun v hv => d v ?_⟩
      by_cases hvk : v = k
      · subst hvk; simp [SCC.discover]
      · have := h4 v (by omega)
        simpa [SCC.discover, update_of_ne hvk] using this
    · refine ⟨s, by simp only [Option.bind_some]; rw [if_neg hd], h2, h3, fun v hv => ?_⟩
      by_cases hvk : v = k
      · rw [hvk]; exact hd
      · exact h4 v (by omega)

/-- Edges lead to components that are not later. -/
theorem Inv.reach_le (h : Inv n arcs s) {x y : Nat} (hr : Reach arcs x y) : ∀ c, s.comp x = some c →
    ∃ d, s.comp y = some d ∧ d ≤ c := by
  induction hr with
  | refl => exact fun c hc => ⟨c, hc, le_refl _⟩
  | tail _ harc ih =>
    intro c hc
    obtain ⟨d, hd, hle⟩ := ih c hc
    obtain ⟨d', hd', hle'⟩ := h.closed _ d hd _ harc
    exact ⟨d', hd', by omega⟩

theorem run_spec (hn : ∀ u t, u < n → Arc arcs u t → t < n) :
    ∃ s, run n arcs = some s ∧ (∀ v, v < n → ∃ c, s.comp v = some c ∧ c < s.compCount) ∧
      (∀ u v, u < n → v < n → (s.comp u = s.comp v ↔ Reach arcs u v ∧ Reach arcs v u)) ∧
      (∀ u v c d, s.comp u = some c → s.comp v = some d → Reach arcs u v → d ≤ c) ∧
      (∀ c, c < s.compCount → ∃ v, v < n ∧ s.comp v = some c) ∧
      s.sizes.length = s.compCount ∧
      (∀ c, c < s.compCount → s.sizes.getD c 0 = ((Finset.range n).filter (fun v => s.comp v = some c)).card) := by
  obtain ⟨s, h1, h2, h3, h4⟩ := outer_inv hn n (le_refl _)
  have hr : s.roots = [] := by
    cases hh : s.roots with
    | nil => rfl
    | cons r rs =>
      obtain ⟨e, he⟩ := h2.rsub r (by rw [hh]; exact List.mem_cons_self)
      rw [h3] at he; simp at he
  have hu : s.unfinished = [] := by
    cases hh : s.unfinished with
    | nil => rfl
    | cons r rs =>
      obtain ⟨r', hr', _⟩ := h2.cover r (by rw [hh]; exact List.mem_cons_self)
      rw [hr] at hr'; simp at hr'
  have hc : ∀ v, v < n → ∃ c, s.comp v = some c := by
    intro v hv
    cases hc : s.comp v with
    | some c => exact ⟨c, rfl⟩
    | none =>
      have := (h2.unf v).2 ⟨h4 v hv, hc⟩
      rw [hu] at this; simp at this
  refine ⟨s, h1, fun v hv => ?_, fun u v hu hv => ⟨fun he => ?_, fun ⟨a, b⟩ => ?_⟩, fun u v c d hcu hdv hre => ?_, ?_,
    h2.slen, h2.size⟩
  · obtain ⟨c, hc⟩ := hc v hv
    exact ⟨c, hc, (h2.compd v c hc).1⟩
  · obtain ⟨c, hc⟩ := hc u hu
    exact ⟨h2.same u v c hc (he ▸ hc), h2.same v u c (he ▸ hc) hc⟩
  · obtain ⟨c, hcu⟩ := hc u hu
    obtain ⟨d, hdv, hle⟩ := h2.reach_le a c hcu
    obtain ⟨c', hcu', hle'⟩ := h2.reach_le b d hdv
    rw [hcu] at hcu'
    cases hcu'
    rw [hcu, hdv]
    congr 1; omega
  · obtain ⟨d', h5, h6⟩ := h2.reach_le hre c hcu
    rw [hdv] at h5
    cases h5; exact h6
  · intro c hcc
    obtain ⟨v, hv⟩ := h2.surj c hcc
    obtain ⟨i, hi⟩ := Option.ne_none_iff_exists'.1 (h2.compd v c hv).2
    exact ⟨v, (h2.lt v i hi).2, hv⟩

end SCC
end VieCut
