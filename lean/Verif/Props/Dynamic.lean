import Verif.Proof.Dynamic
import Verif.Proof.Check
import Verif.Props.PushRelabel
import Verif.Props.NOIMutable

/-!
# C30: the dynamic minimum cut
-/

namespace VieCut
namespace Dyn
open MGraph

/-- The effect of the calls on the graph: an insertion adds its weight between the two vertices (nothing if they are equal). -/
theorem C30_insertion (g : MGraph) (hg : g.Consistent) (s t w : Nat) (hs : s < g.n) (ht : t < g.n) (u v : Nat) (hu : u < g.n) :
    (edited g (.add s t w)).toGraph.wt u v =
      g.toGraph.wt u v + (if s ≠ t ∧ ((u = s ∧ v = t) ∨ (u = t ∧ v = s)) then w else 0) := by
  show (g.newEdgeOrder s t w).toGraph.wt u v = _
  unfold MGraph.newEdgeOrder
  split
  · rename_i h
    rw [C08_newEdge g hg s t w h ht u v hu]
    have : s ≠ t := by omega
    simp [this]
  · split
    · rename_i h
      rw [C08_newEdge g hg t s w h hs u v hu]
      have h' : s ≠ t := by omega
      have e : ((u = t ∧ v = s) ∨ (u = s ∧ v = t)) ↔ ((u = s ∧ v = t) ∨ (u = t ∧ v = s)) := Or.comm
      simp only [e, h', ne_eq, not_false_eq_true, true_and]
    · have : s = t := by omega
      simp [this]

/-- A removal changes nothing if there is no edge between the vertices; otherwise it takes away the weight of one of these
edges. -/
theorem C30_removal (g : MGraph) (hg : g.Consistent) (s t : Nat) (hs : s < g.n) :
    ((∀ x ∈ g.toGraph.edges s, x.1 ≠ t) → edited g (.remove s t) = g) ∧
    ((∃ x ∈ g.toGraph.edges s, x.1 = t) → ∃ w, (t, w) ∈ g.toGraph.edges s ∧ ∀ u v, u < g.n →
      (edited g (.remove s t)).toGraph.wt u v + (if (u = s ∧ v = t) ∨ (u = t ∧ v = s) then w else 0) = g.toGraph.wt u v) := by
  have hed : ∀ x, x ∈ g.toGraph.edges s ↔ ∃ e, e < g.len s ∧ ((g.edge s e).target, (g.edge s e).weight) = x := by
    intro x
    rw [toGraph_edges g hs, List.mem_map]
    simp only [List.mem_range]
  have e0 : edited g (.remove s t) = (match edgeTo g s t with | none => g | some e => g.deleteEdge s e) := rfl
  rw [e0]
  cases he : edgeTo g s t with
  | none =>
    refine ⟨fun _ => rfl, ?_⟩
    rintro ⟨x, hx, hxt⟩
    obtain ⟨e, he', rfl⟩ := (hed x).1 hx
    unfold edgeTo at he
    have := List.find?_eq_none.1 he e (List.mem_range.2 he')
    simp only [decide_eq_true_eq] at this
    exact absurd hxt this
  | some e =>
    obtain ⟨h1, h2⟩ := edgeTo_spec he
    refine ⟨fun h => absurd h2 (h _ ((hed _).2 ⟨e, h1, rfl⟩)), fun _ => ?_⟩
    refine ⟨(g.edge s e).weight, (hed _).2 ⟨e, h1, by rw [h2]⟩, fun u v hu => ?_⟩
    have := C08_deleteEdge g hg s e hs h1 u v hu
    rw [h2] at this
    exact this

theorem edited_n {g : MGraph} (hg : Input g) {c : Call} (hv : c.Valid g.n) : (edited g c).n = g.n := by
  cases c with
  | add s t w =>
    have hv : s < g.n ∧ t < g.n := hv
    show (g.newEdgeOrder s t w).n = g.n
    unfold MGraph.newEdgeOrder MGraph.newEdge
    split
    · rfl
    · split <;> rfl
  | remove s t =>
    have hv : s < g.n ∧ t < g.n := hv
    show (match edgeTo g s t with | none => g | some e => g.deleteEdge s e).n = g.n
    cases he : edgeTo g s t with
    | none => rfl
    | some e => exact (delete_spec hg hv.1 he).2.2.2.1

/-- One call. -/
theorem call_inv {E : Env} (hE : E.Spec) {d : State} (h : Inv d) (hsep : Separating d.cactus d.cut) {c : Call} (hv : c.Valid d.orig.n)
    (hre : ¬ Reputs E d c) (hfit : (edited d.orig c).toGraph.totalWeight < 2 ^ 63) :
    ∃ d', call E d c = some d' ∧ d'.orig = edited d.orig c ∧ (Separating d'.cactus d'.cut → Inv d') := by
  cases c with
  | add s t w => exact addEdge_spec hE h hv.1 hv.2 w hfit
  | remove s t =>
    obtain ⟨h1, h2⟩ := removeEdge_spec hE h hv.1 hsep hre
    exact ⟨_, rfl, h2, fun _ => h1⟩

theorem run_inv {E : Env} (hE : E.Spec) : ∀ (cs : List Call) (d : State), Inv d → Separating d.cactus d.cut → (∀ c ∈ cs, c.Valid d.orig.n) →
    (∀ pre post, cs = pre ++ post → (pre.foldl edited d.orig).toGraph.totalWeight < 2 ^ 63) →
    (∀ pre post d', cs = pre ++ post → run E d pre = some d' →
      Separating d'.cactus d'.cut ∧ ∀ c rest, post = c :: rest → ¬ Reputs E d' c) →
    ∃ d', run E d cs = some d' ∧ d'.orig = cs.foldl edited d.orig ∧ Inv d' ∧ Separating d'.cactus d'.cut
  | [], d, h, hsep, _, _, _ => ⟨d, rfl, rfl, h, hsep⟩
  | c :: cs, d, h, hsep, hv, hfit, hok => by
    have hre := (hok [] (c :: cs) d rfl rfl).2 c cs rfl
    obtain ⟨d1, e1, e2, e3⟩ := call_inv hE h hsep (hv c List.mem_cons_self) hre (by
      have := hfit [c] cs rfl
      simpa using this)
    have hsep1 := (hok [c] cs d1 rfl (by simp [run, e1])).1
    have hn : d1.orig.n = d.orig.n := by rw [e2]; exact edited_n h.input (hv c List.mem_cons_self)
    obtain ⟨d', r1, r2, r3, r4⟩ := run_inv hE cs d1 (e3 hsep1) hsep1
      (fun x hx => by rw [hn]; exact hv x (List.mem_cons_of_mem _ hx))
      (fun pre post hp => by
        have := hfit (c :: pre) post (by rw [hp]; rfl)
        rw [e2]; exact this)
      (fun pre post d' hp hr => hok (c :: pre) post d' (by rw [hp]; rfl) (by simp only [run, e1, Option.bind_some]; exact hr))
    exact ⟨d', by simp only [run, e1, Option.bind_some]; exact r1, by rw [r2, e2]; rfl, r3, r4⟩

/-- **C30**, partial.  After every history of insertions and removals the reported value is the minimum cut of the current graph, and the
cactus graph represents minimum cuts of it.  Two things are assumed of the histories, because the code does not ensure them
(`C30_wrong_value`): after every call any two vertices of the current cactus are separated by one of its minimum cuts, and no cactus
is cached for a value that has one in the cache. -/
theorem C30_exact_partial (E : Env) (hE : E.Spec) (g : MGraph) (hg : Input g) (cs : List Call) (hv : ∀ c ∈ cs, c.Valid g.n)
    (hfit : ∀ pre post, cs = pre ++ post → (pre.foldl edited g).toGraph.totalWeight < 2 ^ 63)
    (hok : ∀ pre post d, cs = pre ++ post → run E (init E g) pre = some d →
      Separating d.cactus d.cut ∧ ∀ c rest, post = c :: rest → ¬ Reputs E d c) :
    ∃ d, run E (init E g) cs = some d ∧ d.orig = cs.foldl edited g ∧ IsMinCut d.orig.n d.orig.toGraph.wt d.cut ∧
      Represents d.orig d.cactus d.cut := by
  obtain ⟨h1, h2⟩ := init_inv hE hg
  obtain ⟨d, r1, r2, r3, r4⟩ := run_inv hE cs (init E g) h1 h2 hv hfit hok
  exact ⟨d, r1, r2, r3.min, r3.shape, r3.sound, r4⟩

/-- **C30** for histories of removals, without assumptions on the history. -/
theorem C30_removals (E : Env) (hE : E.Spec) (g : MGraph) (hg : Input g) (cs : List (Nat × Nat)) (hv : ∀ c ∈ cs, c.1 < g.n ∧ c.2 < g.n) :
    ∃ d, run E (init E g) (cs.map fun c => .remove c.1 c.2) = some d ∧
      d.orig = (cs.map fun c => Call.remove c.1 c.2).foldl edited g ∧
      IsMinCut d.orig.n d.orig.toGraph.wt d.cut ∧ Represents d.orig d.cactus d.cut := by
  -- cached values are larger than the current one
  have key : ∀ (cs : List (Nat × Nat)) (d : State), (∀ c ∈ cs, c.1 < d.orig.n ∧ c.2 < d.orig.n) → Inv d → Separating d.cactus d.cut →
      (∀ m, Cached d m → d.cut < m) →
      ∃ d', run E d (cs.map fun c => .remove c.1 c.2) = some d' ∧
        d'.orig = (cs.map fun c => Call.remove c.1 c.2).foldl edited d.orig ∧ Inv d' ∧ Separating d'.cactus d'.cut := by
    intro cs
    induction cs with
    | nil => intro d _ h1 h2 _; exact ⟨d, rfl, rfl, h1, h2⟩
    | cons c cs ih =>
      intro d hv h1 h2 h3
      obtain ⟨hs, ht⟩ := hv c List.mem_cons_self
      have hre : ¬ Reputs E d (.remove c.1 c.2) := fun hr => absurd (h3 d.cut hr.2) (lt_irrefl _)
      obtain ⟨i1, i2⟩ := removeEdge_spec hE h1 hs h2 hre
      have hor : (removeEdge E d c.1 c.2).orig = edited d.orig (.remove c.1 c.2) := i2
      have hn : (removeEdge E d c.1 c.2).orig.n = d.orig.n := by
        rw [hor]; exact edited_n h1.input (c := .remove c.1 c.2) ⟨hs, ht⟩
      -- the new cactus separates its vertices, and the value decreases when something is cached
      have hrest : Separating (removeEdge E d c.1 c.2).cactus (removeEdge E d c.1 c.2).cut ∧
          ∀ m, Cached (removeEdge E d c.1 c.2) m → (removeEdge E d c.1 c.2).cut < m := by
        have hmin := i1.min
        revert hmin
        unfold removeEdge
        cases he : edgeTo d.orig c.1 c.2 with
        | none => exact fun _ => ⟨h2, h3⟩
        | some e =>
          obtain ⟨hst, _, hi, hn', hdel⟩ := delete_spec h1.input hs he
          dsimp only
          by_cases hw : (d.orig.edge c.1 e).weight = 0
          · rw [if_pos hw]; exact fun _ => ⟨h2, h3⟩
          rw [if_neg hw]
          by_cases h0 : d.cut = 0
          · rw [if_pos h0]; exact fun _ => ⟨h2, h3⟩
          rw [if_neg h0]
          have hflow := hE.flow (d.orig.deleteEdge c.1 e) c.1 c.2 d.cut hi (by rw [hn']; exact hs) (by rw [hn']; exact ht) hst
          have hput : E.flow (d.orig.deleteEdge c.1 e) c.1 c.2 d.cut < d.cut →
              ∀ m, Cached (putIntoCache { d with orig := d.orig.deleteEdge c.1 e } d.cactus d.cut) m →
                E.flow (d.orig.deleteEdge c.1 e) c.1 c.2 d.cut < m := by
            intro hlt m hm
            have : m = d.cut ∨ Cached d m := by
              unfold Cached putIntoCache at hm
              dsimp only at hm
              by_cases e : m = d.cut
              · exact Or.inl e
              · rw [Function.update_of_ne e] at hm
                simp only [Bool.and_eq_true, decide_eq_true_eq] at hm
                exact Or.inr ⟨hm.2.1, hm.2.2⟩
            rcases this with rfl | hm
            · exact hlt
            · have := h3 m hm; omega
          have hnew : E.flow (d.orig.deleteEdge c.1 e) c.1 c.2 d.cut < d.cut →
              IsSTCut (d.orig.deleteEdge c.1 e) c.1 c.2 (E.flow (d.orig.deleteEdge c.1 e) c.1 c.2 d.cut) →
              Separating (E.rebuild (d.orig.deleteEdge c.1 e) c.1 c.2 (E.flow (d.orig.deleteEdge c.1 e) c.1 c.2 d.cut))
                (E.flow (d.orig.deleteEdge c.1 e) c.1 c.2 d.cut) := by
            intro hlt hstc
            obtain ⟨m1, m2⟩ := new_minimum hi.consistent h1.min.2 hn' hs ht hdel hlt hstc
            exact (hE.rebuild _ c.1 c.2 _ hi (by rw [hn']; exact hs) (by rw [hn']; exact ht) m1 m2).separating
          by_cases hp : d.cactus.pos c.1 ≠ d.cactus.pos c.2
          · rw [if_pos hp]
            intro _
            obtain ⟨X, x1, x2, x3⟩ := h2 _ _ (h1.shape.pos_lt hs) (h1.shape.pos_lt ht) hp
            have hX : ProperCut d.cactus.n X := ⟨⟨_, h1.shape.pos_lt hs, x1⟩, ⟨_, h1.shape.pos_lt ht, x2⟩⟩
            obtain ⟨b1, b2⟩ := (h1.sound X hX).2 x3
            have hS : gcut (d.orig.deleteEdge c.1 e) (inside d.cactus X) < d.cut := by
              have e1 := hdel (inside d.cactus X)
              rw [if_neg (by unfold inside; rw [x1, x2]; simp)] at e1
              have e2 : gcut d.orig (inside d.cactus X) = d.cut := b2
              omega
            have hstc : IsSTCut (d.orig.deleteEdge c.1 e) c.1 c.2 (E.flow (d.orig.deleteEdge c.1 e) c.1 c.2 d.cut) := by
              rcases hflow with hf | ⟨_, hf⟩
              · exact hf
              · exact absurd (hf (inside d.cactus X) x1 x2) (Nat.not_le.2 hS)
            have hlt : E.flow (d.orig.deleteEdge c.1 e) c.1 c.2 d.cut < d.cut := lt_of_le_of_lt (hstc.2 _ x1 x2) hS
            exact ⟨hnew hlt hstc, hput hlt⟩
          · rw [if_neg hp]
            by_cases hlt : E.flow (d.orig.deleteEdge c.1 e) c.1 c.2 d.cut < d.cut
            · rw [if_pos hlt]
              intro _
              refine ⟨hnew hlt ?_, hput hlt⟩
              rcases hflow with hf | ⟨hf, _⟩
              · exact hf
              · omega
            · rw [if_neg hlt]
              exact fun _ => ⟨h2, h3⟩
      obtain ⟨d', r1, r2, r3, r4⟩ := ih (removeEdge E d c.1 c.2) (fun x hx => by rw [hn]; exact hv x (List.mem_cons_of_mem _ hx)) i1
        hrest.1 hrest.2
      refine ⟨d', r1, ?_, r3, r4⟩
      rw [r2, hor]; rfl
  obtain ⟨h1, h2⟩ := init_inv hE hg
  obtain ⟨d, r1, r2, r3, r4⟩ := key cs (init E g) hv h1 h2 (fun m hm => absurd hm.1 (Nat.not_lt_zero _))
  exact ⟨d, r1, r2, r3.min, r3.shape, r3.sound, r4⟩

/-- What is assumed of `flow` holds for the push-relabel algorithm with a limit (C14). -/
theorem C30_flow (g : MGraph) (hg : Input g) (s t : Nat) (hs : s < g.n) (ht : t < g.n) (hst : s ≠ t) (limit depth : Nat) (hd : depth ≤ g.n)
    (P : PQ) (K : Nat) (hL : P.Lawful g.n K) (hK : 4294967296 ≤ K) (trigger : Nat → Bool) :
    ∃ (value N : Nat), (∀ fuel, N ≤ fuel →
        (PushRelabel.solve P { g := g, ts := [s, t], src := s, limited := true, depth := depth, sink := t, limit := limit } trigger false
          fuel).map (·.1) = some (value : Int)) ∧
      (IsSTCut g s t value ∨
        (value = limit ∧ ∀ S : Nat → Bool, S s = true → S t = false → limit ≤ cutValue g.n g.toGraph.wt S)) := by
  obtain ⟨value, S, N, h1, h2⟩ := C14_limited g hg.consistent [s, t] (by simpa using hst)
    (by intro x hx; simp only [List.mem_cons, List.not_mem_nil, or_false] at hx; rcases hx with rfl | rfl <;> assumption) s (by simp) t (by simp)
    (Ne.symm hst) depth hd limit P K hL hK trigger
  have h1 : ∀ fuel, N ≤ fuel → (PushRelabel.solve P { g := g, ts := [s, t], src := s, limited := true, depth := depth, sink := t, limit := limit }
      trigger false fuel).map (·.1) = some value := by
    intro fuel hf
    have e : ∀ c b, (PushRelabel.solve P c trigger b fuel).map (·.1) = (PushRelabel.solve P c trigger true fuel).map (·.1) := by
      intro c b
      unfold PushRelabel.solve
      split
      · rfl
      · rw [Option.map_map, Option.map_map]
        congr 1
        funext r
        simp only [Function.comp_apply]
        split <;> rfl
    rw [e, h1 fuel hf]
    rfl
  have hts : ∀ S : Nat → Bool, S t = false → ∀ x ∈ [s, t], x ≠ s → S x = false := by
    intro S h x hx hne
    simp only [List.mem_cons, List.not_mem_nil, or_false] at hx
    rcases hx with rfl | rfl
    · exact absurd rfl hne
    · exact h
  rcases h2 with ⟨a, _, c⟩ | ⟨a, b, _⟩
  · subst a
    refine ⟨limit, N, h1, Or.inr ⟨rfl, fun T x y => ?_⟩⟩
    have := c T x (hts T y)
    exact_mod_cast this
  · subst b
    exact ⟨_, N, h1, Or.inl ⟨⟨_, a.source, a.sinks t (by simp) (Ne.symm hst), rfl⟩, fun T x y => a.min T x (hts T y)⟩⟩

/-- What is assumed of `noi` holds for the NOI algorithm (C02). -/
theorem C30_noi (g : MGraph) (hg : Input g) (cfg : NOICfg)
    (hfit : PQFits cfg.kind g.n (if cfg.limited then g.toGraph.minDegree else g.toGraph.totalWeight))
    (ord : Nat → Nat → List Nat → List Nat) (hord : ∀ l, IsOrder (ord l)) :
    IsMinCut g.n g.toGraph.wt (noiMinimumCutM cfg ord g) :=
  C02_noi_exact_mutable g hg.consistent hg.fresh hg.two (lt_trans hg.fits (by norm_num)) cfg hfit ord hord

/-! ### An environment that meets the specification -/

/-- The cactus of one minimum cut: two vertices. -/
def pairCactus (n : Nat) (S : Nat → Bool) (c : Nat) : MGraph :=
  { (MGraph.start 2).newEdge 0 1 c with
    pos := fun v => if S v then 0 else 1, posSize := n,
    cont := fun p => (List.range n).filter fun v => decide ((if S v then 0 else 1) = p) }

theorem pairCactus_represents {G : MGraph} {S : Nat → Bool} {c : Nat} (hS : ProperCut G.n S)
    (hc : cutValue G.n G.toGraph.wt S = c) (hG : G.Consistent) : Represents G (pairCactus G.n S c) c := by
  have hv : Valid (pairCactus G.n S c) := ((Valid.start 2).newEdge c (by decide)).of_eq rfl rfl rfl rfl rfl
  have hn : (pairCactus G.n S c).n = 2 := rfl
  have hwt : ∀ u v, u < 2 → (pairCactus G.n S c).toGraph.wt u v = if (u = 0 ∧ v = 1) ∨ (u = 1 ∧ v = 0) then c else 0 := by
    intro u v hu
    have h1 := C08_newEdge (MGraph.start 2) (consistent_iff.2 (Valid.start 2)) 0 1 c (by decide) (by decide) u v hu
    have h2 : (MGraph.start 2).toGraph.wt u v = 0 := by
      rw [toGraph_wt _ hu]
      unfold W rowSum MGraph.start
      simp
    rw [h2, Nat.zero_add] at h1
    exact h1
  have hcut : ∀ X, cutValue 2 (pairCactus G.n S c).toGraph.wt X = if X 0 = X 1 then 0 else c := by
    intro X
    have := cutValue_add (n := 2) (s := 0) (t := 1) (k := c) (w := fun _ _ => 0) (w' := (pairCactus G.n S c).toGraph.wt) (by decide)
      (by decide) (by decide) (fun u v hu => by rw [hwt u v hu, Nat.zero_add]) X
    rw [this]
    have : cutValue 2 (fun _ _ => 0) X = 0 := by unfold cutValue; simp
    rw [this, Nat.zero_add]
  refine ⟨⟨consistent_iff.2 hv, ?_, le_refl _, rfl, ?_, ?_⟩, ?_, ?_⟩
  · intro u hu e he e' he' _
    have hl : (pairCactus G.n S c).len u = 1 := by
      have : u = 0 ∨ u = 1 := by rw [hn] at hu; omega
      rcases this with rfl | rfl <;> rfl
    rw [hl] at he he'
    omega
  · intro v hv
    refine ⟨?_, ?_, ?_⟩
    · show (if S v then 0 else 1) < 2
      split <;> decide
    · refine List.count_eq_one_of_mem (List.nodup_range.filter _) ?_
      exact List.mem_filter.2 ⟨List.mem_range.2 hv, by simp [pairCactus]⟩
    · intro p _ hne hm
      have := (List.mem_filter.1 hm).2
      simp only [decide_eq_true_eq] at this
      exact hne this.symm
  · intro p _
    exact ⟨List.nodup_range.filter _, fun v hv => List.mem_range.1 (List.mem_filter.1 hv).1⟩
  · -- the two cuts
    have hin : ∀ X : Nat → Bool, X 0 ≠ X 1 → (∀ v, inside (pairCactus G.n S c) X v = S v) ∨ (∀ v, inside (pairCactus G.n S c) X v = !S v) := by
      intro X hX
      cases h0 : X 0 with
      | true =>
        left; intro v
        have h1 : X 1 = false := by rw [h0] at hX; simpa using Ne.symm hX
        show X (if S v then 0 else 1) = S v
        cases S v <;> simp [h0, h1]
      | false =>
        right; intro v
        have h1 : X 1 = true := by rw [h0] at hX; simpa using Ne.symm hX
        show X (if S v then 0 else 1) = !S v
        cases S v <;> simp [h0, h1]
    intro X hX
    have hne : X 0 ≠ X 1 := by
      obtain ⟨⟨u, hu, h1⟩, ⟨v, hv, h2⟩⟩ := hX
      rw [hn] at hu hv
      have a : u = 0 ∨ u = 1 := by omega
      have b : v = 0 ∨ v = 1 := by omega
      rcases a with rfl | rfl <;> rcases b with rfl | rfl <;> simp_all
    rw [hn, hcut X, if_neg hne]
    refine ⟨le_refl _, fun _ => ?_⟩
    rcases hin X hne with h | h
    · rw [funext h]; exact ⟨hS, hc⟩
    · rw [funext h]
      refine ⟨?_, (gcut_compl hG S).trans hc⟩
      obtain ⟨⟨u, hu, h1⟩, ⟨v, hv, h2⟩⟩ := hS
      exact ⟨⟨v, hv, by simp [h2]⟩, ⟨u, hu, by simp [h1]⟩⟩
  · intro x y hx hy hxy
    rw [hn] at hx hy
    refine ⟨fun u => decide (u = x), by simp, by simp [Ne.symm hxy], ?_⟩
    rw [hn, hcut, if_neg]
    have a : x = 0 ∨ x = 1 := by omega
    rcases a with rfl | rfl <;> simp

theorem exists_minCut {G : MGraph} (h : 2 ≤ G.n) : ∃ c, IsMinCut G.n G.toGraph.wt c := by
  have hne : ∃ c, ∃ S, ProperCut G.n S ∧ cutValue G.n G.toGraph.wt S = c :=
    ⟨_, fun v => decide (v = 0), ⟨⟨0, by omega, by simp⟩, ⟨1, by omega, by simp⟩⟩, rfl⟩
  classical
  exact ⟨Nat.find hne, Nat.find_spec hne, fun T hT => Nat.find_min' hne ⟨T, hT, rfl⟩⟩

theorem exists_stCut (G : MGraph) {s t : Nat} (h : s ≠ t) : ∃ c, IsSTCut G s t c := by
  have hne : ∃ c, ∃ S : Nat → Bool, S s = true ∧ S t = false ∧ cutValue G.n G.toGraph.wt S = c :=
    ⟨_, fun v => decide (v = s), by simp, by simp [Ne.symm h], rfl⟩
  classical
  exact ⟨Nat.find hne, Nat.find_spec hne, fun T h1 h2 => Nat.find_min' hne ⟨T, h1, h2, rfl⟩⟩

/-- The specification of the called routines can be met. -/
theorem exists_env : ∃ E : Env, E.Spec ∧ E.ord = id := by
  classical
  let mc : MGraph → Nat := fun G => if h : ∃ c, IsMinCut G.n G.toGraph.wt c then h.choose else 0
  have hmc : ∀ G, Input G → IsMinCut G.n G.toGraph.wt (mc G) := by
    intro G hG
    have h := exists_minCut hG.two
    simp only [mc, dif_pos h]
    exact h.choose_spec
  let cac : MGraph → Nat → MGraph := fun G c => if h : ∃ C, Represents G C c then h.choose else MGraph.start 0
  have hcac : ∀ G c, Input G → IsMinCut G.n G.toGraph.wt c → Represents G (cac G c) c := by
    intro G c hG hc
    obtain ⟨⟨S, h1, h2⟩, _⟩ := hc
    have h : ∃ C, Represents G C c := ⟨_, pairCactus_represents h1 h2 hG.consistent⟩
    simp only [cac, dif_pos h]
    exact h.choose_spec
  let fl : MGraph → Nat → Nat → Nat := fun G s t => if h : ∃ c, IsSTCut G s t c then h.choose else 0
  refine ⟨⟨fun G _ => (mc G, cac G (mc G)), mc, fun G s t _ => fl G s t, fun G _ _ c => cac G c, id⟩, ⟨?_, hmc, ?_, ?_, fun l => List.Perm.refl l⟩, rfl⟩
  · intro G k hG _
    exact ⟨hmc G hG, hcac G _ hG (hmc G hG)⟩
  · intro G s t limit _ _ _ hst
    have h := exists_stCut G hst
    left
    simp only [fl, dif_pos h]
    exact h.choose_spec
  · intro G s t c hG _ _ hc _
    exact hcac G c hG hc

/-! ### A wrong value -/

/-- Without cached graphs, an insertion that computes nothing anew does not depend on the called routines. -/
theorem addEdge_indep {E E' : Env} (ho : E'.ord = E.ord) {d d' : State} (h0 : d.numCached = 0) (hl : d.lowest = undefinedEdge) {s t w : Nat}
    (h : addEdge E d s t w = some d') :
    d'.numCached = 0 ∧ d'.lowest = undefinedEdge ∧
      ((d'.calls = d.calls ∧ addEdge E' d s t w = some d') ∨ d'.calls = d.calls + 1) := by
  unfold addEdge cacheEdge at *
  dsimp only at h ⊢
  rw [if_pos h0] at h ⊢
  simp only [Option.bind_some] at h ⊢
  have hre : ∀ (d1 : State), recompute E d1 = some d' → d1.numCached = 0 → d1.lowest = undefinedEdge → d1.calls = d.calls →
      d'.numCached = 0 ∧ d'.lowest = undefinedEdge ∧ d'.calls = d.calls + 1 := by
    intro d1 hr a b c
    unfold recompute at hr
    dsimp only at hr
    rw [if_neg (show ¬ d1.lowest ≠ undefinedEdge from not_not.2 b), if_neg (by rw [b]; simp [undefinedNode, undefinedEdge])] at hr
    simp only [Option.some.injEq] at hr
    subst hr
    exact ⟨a, b, by dsimp only; rw [c]⟩
  rw [ho]
  split at h
  · simp only [Option.some.injEq] at h
    subst h
    exact ⟨h0, hl, Or.inl ⟨rfl, by rw [if_pos (by assumption)]⟩⟩
  · rename_i hp
    rw [if_neg hp]
    split at h
    · rename_i hc
      rw [if_pos hc]
      split at h
      · obtain ⟨a, b, c⟩ := hre _ h h0 hl rfl
        exact ⟨a, b, Or.inr c⟩
      · rename_i h2
        simp only [Option.some.injEq] at h
        subst h
        exact ⟨h0, hl, Or.inl ⟨rfl, by rw [if_neg h2]⟩⟩
    · rename_i hc
      rw [if_neg hc]
      split at h
      · obtain ⟨a, b, c⟩ := hre _ h h0 hl rfl
        exact ⟨a, b, Or.inr c⟩
      · rename_i h2
        simp only [Option.some.injEq] at h
        subst h
        exact ⟨h0, hl, Or.inl ⟨rfl, by rw [if_neg h2]⟩⟩

theorem run_indep {E E' : Env} (ho : E'.ord = E.ord) : ∀ (cs : List (Nat × Nat × Nat)) (d d' : State), d.numCached = 0 → d.lowest = undefinedEdge →
    run E d (cs.map fun c => .add c.1 c.2.1 c.2.2) = some d' →
    d.calls ≤ d'.calls ∧ (d'.calls = d.calls → run E' d (cs.map fun c => .add c.1 c.2.1 c.2.2) = some d')
  | [], d, d', _, _, h => by
    simp only [List.map_nil, run, Option.some.injEq] at h
    subst h
    exact ⟨le_refl _, fun _ => rfl⟩
  | c :: cs, d, d', h0, hl, h => by
    simp only [List.map_cons, run, call] at h ⊢
    cases h1 : addEdge E d c.1 c.2.1 c.2.2 with
    | none => rw [h1] at h; cases h
    | some d1 =>
      rw [h1, Option.bind_some] at h
      obtain ⟨a, b, k⟩ := addEdge_indep ho h0 hl h1
      obtain ⟨i1, i2⟩ := run_indep ho cs d1 d' a b h
      rcases k with ⟨k1, k2⟩ | k1
      · refine ⟨by omega, fun e => ?_⟩
        rw [k2, Option.bind_some]
        exact i2 (by omega)
      · exact ⟨by omega, fun e => by omega⟩

/-- A triangle and a cycle of six vertices with a common vertex.  All weights are 1 and the minimum cut is 2; the graph is its own
cactus. -/
def twoCycles : MGraph := (MGraph.start 8).run
  [.newEdge 0 1 1, .newEdge 1 2 1, .newEdge 0 2 1, .newEdge 0 3 1, .newEdge 3 4 1, .newEdge 4 5 1, .newEdge 5 6 1, .newEdge 6 7 1, .newEdge 0 7 1]

/-- Six insertions. -/
def sixEdges : List (Nat × Nat × Nat) := [(1, 5, 1), (2, 0, 1), (7, 0, 1), (6, 0, 1), (3, 5, 1), (4, 5, 1)]

/-- The calls. -/
def sixCalls : List Call := sixEdges.map fun c => .add c.1 c.2.1 c.2.2

/-- An environment that answers for `twoCycles` only. -/
def oneAnswer : Env := ⟨fun g _ => (2, g), fun _ => 0, fun _ _ _ _ => 0, fun g _ _ _ => g, id⟩

theorem sixCalls_value : (run oneAnswer (init oneAnswer twoCycles) sixCalls).map (fun d => (d.cut, d.calls, d.orig.toGraph)) =
    some (2, 1, (sixCalls.foldl edited twoCycles).toGraph) := by
  decide +kernel

theorem sixCalls_cuts : ∀ S, ProperCut 8 S → 3 ≤ cutValue 8 (sixCalls.foldl edited twoCycles).toGraph.wt S :=
  cuts_ge_of_check (by decide +kernel)

theorem twoCycles_valid : Valid twoCycles := (Valid.start 8).run _ (by decide +kernel)

theorem twoCycles_cuts : ∀ S, ProperCut 8 S → 2 ≤ cutValue 8 twoCycles.toGraph.wt S :=
  cuts_ge_of_check (by decide +kernel)

theorem twoCycles_singles : ∀ v, v < 8 → v ≠ 0 → cutValue 8 twoCycles.toGraph.wt (fun u => decide (u = v)) = 2 := by
  decide +kernel

theorem twoCycles_fresh : twoCycles.Fresh := by
  refine ⟨rfl, ?_⟩
  have : ∀ v, v < 8 → twoCycles.pos v = v ∧ twoCycles.cont v = [v] := by decide +kernel
  exact this

theorem twoCycles_input : Input twoCycles := by
  refine ⟨consistent_iff.2 twoCycles_valid, twoCycles_fresh, by decide +kernel, by decide +kernel⟩

theorem twoCycles_min : IsMinCut twoCycles.n twoCycles.toGraph.wt 2 :=
  ⟨⟨fun u => decide (u = 1), ⟨⟨1, by decide +kernel, by simp⟩, ⟨0, by decide +kernel, by simp⟩⟩, twoCycles_singles 1 (by decide) (by decide)⟩,
    twoCycles_cuts⟩

theorem twoCycles_represents : Represents twoCycles twoCycles 2 := by
  have hin : ∀ X v, v < twoCycles.n → inside twoCycles X v = X v := by
    intro X v hv
    unfold inside
    rw [(twoCycles_fresh.2 v hv).1]
  refine ⟨⟨consistent_iff.2 twoCycles_valid, by decide +kernel, by decide +kernel, rfl, ?_, ?_⟩, ?_, ?_⟩
  · intro v hv
    obtain ⟨a, b⟩ := twoCycles_fresh.2 v hv
    refine ⟨by rw [a]; exact hv, by rw [a, b]; simp, ?_⟩
    intro p hp hne hm
    rw [(twoCycles_fresh.2 p hp).2] at hm
    rw [a] at hne
    exact hne (List.mem_singleton.1 hm).symm
  · intro p hp
    rw [(twoCycles_fresh.2 p hp).2]
    exact ⟨by simp, fun v hv => by rw [List.mem_singleton.1 hv]; exact hp⟩
  · intro X hX
    refine ⟨twoCycles_cuts X hX, fun e => ⟨hX.congr fun v hv => (hin X v hv).symm, ?_⟩⟩
    rw [cutValue_congr (fun v hv => hin X v hv)]
    exact e
  · intro x y hx hy hxy
    by_cases h0 : x = 0
    · refine ⟨fun u => !decide (u = y), by simp [hxy], by simp, ?_⟩
      exact (gcut_compl (consistent_iff.2 twoCycles_valid) _).trans (twoCycles_singles y hy (by omega))
    · exact ⟨fun u => decide (u = x), by simp, by simp [Ne.symm hxy], twoCycles_singles x hx h0⟩

/-- Correct routines that return `twoCycles` as its own cactus. -/
theorem exists_env_twoCycles : ∃ E : Env, E.Spec ∧ E.ord = id ∧ init E twoCycles = init oneAnswer twoCycles := by
  classical
  obtain ⟨E, hE, ho⟩ := exists_env
  let E0 : Env := { E with findAll := fun G k => if G = twoCycles then (2, twoCycles) else E.findAll G k }
  refine ⟨E0, ⟨?_, hE.noi, hE.flow, hE.rebuild, hE.ord⟩, ho, ?_⟩
  · intro G k hG hk
    show IsMinCut G.n G.toGraph.wt (if G = twoCycles then (2, twoCycles) else E.findAll G k).1 ∧
      Represents G (if G = twoCycles then (2, twoCycles) else E.findAll G k).2 (if G = twoCycles then (2, twoCycles) else E.findAll G k).1
    by_cases h : G = twoCycles
    · rw [if_pos h, h]
      exact ⟨twoCycles_min, twoCycles_represents⟩
    · rw [if_neg h]
      exact hE.findAll G k hG hk
  · unfold init
    rw [show E0.findAll twoCycles undefinedNode = (2, twoCycles) from if_pos rfl]
    rfl

/-- **C30** does not hold: with correct routines, six insertions into `twoCycles` leave the reported value at 2, although every cut of the
graph has weight at least 3.  The path found for the first insertion leaves out the common vertex of the two cycles, so
that the contracted graph is no cactus. -/
theorem C30_wrong_value : ∃ E : Env, E.Spec ∧ ∃ d, run E (init E twoCycles) sixCalls = some d ∧ d.cut = 2 ∧
    d.orig.toGraph = (sixCalls.foldl edited twoCycles).toGraph ∧
    (∀ S, ProperCut d.orig.n S → 3 ≤ cutValue d.orig.n d.orig.toGraph.wt S) ∧ ¬ IsMinCut d.orig.n d.orig.toGraph.wt d.cut := by
  obtain ⟨E0, hE0, ho, hinit⟩ := exists_env_twoCycles
  have hval := sixCalls_value
  cases hr : run oneAnswer (init oneAnswer twoCycles) sixCalls with
  | none => rw [hr] at hval; cases hval
  | some d =>
    rw [hr] at hval
    simp only [Option.map_some, Option.some.injEq, Prod.mk.injEq] at hval
    obtain ⟨h1, h2, h3⟩ := hval
    have hrun := (run_indep (E' := E0) (show E0.ord = oneAnswer.ord from ho) sixEdges _ d rfl rfl hr).2 h2
    have hn : d.orig.n = 8 := by
      rw [← toGraph_n, h3, toGraph_n]
      decide +kernel
    have hge : ∀ S, ProperCut d.orig.n S → 3 ≤ cutValue d.orig.n d.orig.toGraph.wt S := by
      rw [hn, h3]; exact sixCalls_cuts
    refine ⟨E0, hE0, d, by rw [hinit]; exact hrun, h1, h3, hge, ?_⟩
    rintro ⟨⟨S, a, b⟩, _⟩
    have := hge S a
    rw [b, h1] at this
    omega

theorem oneCall_value : (run oneAnswer (init oneAnswer twoCycles) [.add 0 1 1]).map (fun d => (d.cut, d.calls, d.cactus.n)) = some (2, 1, 7) ∧
    ∀ d ∈ run oneAnswer (init oneAnswer twoCycles) [.add 0 1 1], ∀ v, v < 7 → v ≠ 0 →
      cutValue 7 d.cactus.toGraph.wt (fun u => decide (u = v)) = 2 ∧ cutValue 7 d.cactus.toGraph.wt (fun u => !decide (u = v)) = 2 := by
  decide +kernel

/-- The hypotheses of `C30_exact_partial` are met by correct routines, `twoCycles` and an insertion that contracts the cactus. -/
example : ∃ E : Env, E.Spec ∧ Input twoCycles ∧ ∀ pre post d, [Call.add 0 1 1] = pre ++ post → run E (init E twoCycles) pre = some d →
    Separating d.cactus d.cut ∧ ∀ c rest, post = c :: rest → ¬ Reputs E d c := by
  obtain ⟨E0, hE0, ho, hinit⟩ := exists_env_twoCycles
  refine ⟨E0, hE0, twoCycles_input, ?_⟩
  intro pre post d hp hr
  rw [hinit] at hr
  have hre : ∀ c rest, post = c :: rest → ¬ Reputs E0 d c := by
    intro c rest hpost h
    have : c ∈ [Call.add 0 1 1] := by rw [hp, hpost]; simp
    rw [List.mem_singleton.1 this] at h
    exact h
  refine ⟨?_, hre⟩
  cases pre with
  | nil =>
    simp only [run, Option.some.injEq] at hr
    rw [← hr]
    exact twoCycles_represents.separating
  | cons c pre =>
    have hc : pre = [] ∧ c = Call.add 0 1 1 := by
      simp only [List.cons_append, List.cons.injEq] at hp
      exact ⟨(List.append_eq_nil_iff.1 hp.2.symm).1, hp.1.symm⟩
    obtain ⟨rfl, rfl⟩ := hc
    obtain ⟨v1, v2⟩ := oneCall_value
    cases h1 : run oneAnswer (init oneAnswer twoCycles) [.add 0 1 1] with
    | none => rw [h1] at v1; cases v1
    | some d1 =>
      rw [h1] at v1 v2
      simp only [Option.map_some, Option.some.injEq, Prod.mk.injEq] at v1
      have := (run_indep (E' := E0) (show E0.ord = oneAnswer.ord from ho) [(0, 1, 1)] _ d1 rfl rfl h1).2 v1.2.1
      have hd : d = d1 := by
        have h3 := hr.symm.trans this
        simpa using h3
      subst hd
      have hs := v2 d rfl
      intro x y hx hy hxy
      rw [v1.2.2] at hx hy ⊢
      rw [v1.1]
      by_cases h0 : x = 0
      · exact ⟨fun u => !decide (u = y), by simp [hxy], by simp, (hs y hy (by omega)).2⟩
      · exact ⟨fun u => decide (u = x), by simp, by simp [Ne.symm hxy], (hs x hx h0).1⟩

/-- The hypotheses of `C30_removals` are met by `twoCycles` and removals that lower the minimum cut twice. -/
example : ∃ E : Env, E.Spec ∧ Input twoCycles ∧ ∀ c ∈ [((0 : Nat), (1 : Nat)), (1, 2)], c.1 < twoCycles.n ∧ c.2 < twoCycles.n := by
  obtain ⟨E, hE, _⟩ := exists_env
  exact ⟨E, hE, twoCycles_input, by decide +kernel⟩

end Dyn
end VieCut
