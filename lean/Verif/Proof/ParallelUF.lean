import Verif.Model.ParallelUF
import Verif.Proof.UnionFind

/-! # The concurrent union-find: soundness for every schedule -/

namespace VieCut
open Function

namespace CUF

/-- What is known about the thread executing `o` when it calls `Find` with continuation `k` and has reached `e`. -/
def KOk (R : Nat → Nat → Prop) (o : Option Op) (e : Nat) : Cont → Prop
  | .ret => ∃ a, o = some (.find a) ∧ R a e
  | .lhs r => (∃ a b, o = some (.union a b)) ∧ R e r
  | .rhs l => (∃ a b, o = some (.union a b)) ∧ R e l
  | .sx y => ∃ a b, o = some (.same a b) ∧ R a e ∧ R b y
  | .sy x => ∃ a b, o = some (.same a b) ∧ R a x ∧ R b e

/-- What is known about a thread. -/
def PCOk (R : Nat → Nat → Prop) (o : Option Op) : PC → Prop
  | .idle => o = none
  | .test k e => KOk R o e k
  | .next k e => KOk R o e k
  | .grand k e nx => KOk R o e k ∧ R e nx
  | .halve k e nx p => KOk R o e k ∧ R e nx ∧ R nx p
  | .move k e nx => KOk R o e k ∧ R e nx
  | .rankL l r => (∃ a b, o = some (.union a b)) ∧ R l r
  | .rankR l r _ => (∃ a b, o = some (.union a b)) ∧ R l r
  | .chkP u => (∃ a b, o = some (.union a b)) ∧ R u.x u.y
  | .chkR u => (∃ a b, o = some (.union a b)) ∧ R u.x u.y
  | .linkP u => (∃ a b, o = some (.union a b)) ∧ R u.x u.y
  | .readR u => (∃ a b, o = some (.union a b)) ∧ R u.x u.y
  | .linkR u _ => (∃ a b, o = some (.union a b)) ∧ R u.x u.y
  | .undo u => (∃ a b, o = some (.union a b)) ∧ R u.x u.y
  | .root x y => ∃ a b, o = some (.same a b) ∧ R a x ∧ R b y

/-- A result that is correct with respect to the requested pairs. -/
def ResOk (R : Nat → Nat → Prop) : Op × Res → Prop
  | (.find a, .elt e) => R a e
  | (.same a b, .bool true) => R a b
  | (.same _ _, .bool false) => True
  | (.union a b, .bool _) => R a b
  | _ => False

/-- The invariant. -/
structure Sound (s : St) : Prop where
  parent : ∀ x, Linked s.reqs x (s.parent x)
  pc : ∀ t, PCOk (Linked s.reqs) (s.op t) (s.pc t)
  out : ∀ r ∈ s.out, ResOk (Linked s.reqs) r.2
  req : ∀ t a b, s.op t = some (.union a b) → (a, b) ∈ s.reqs

theorem KOk.mono {R R' : Nat → Nat → Prop} (h : ∀ a b, R a b → R' a b) {o : Option Op} {e : Nat} {k : Cont} (hk : KOk R o e k) :
    KOk R' o e k := by
  cases k with
  | ret => obtain ⟨a, h1, h2⟩ := hk; exact ⟨a, h1, h _ _ h2⟩
  | lhs r => exact ⟨hk.1, h _ _ hk.2⟩
  | rhs r => exact ⟨hk.1, h _ _ hk.2⟩
  | sx y => obtain ⟨a, b, h1, h2, h3⟩ := hk; exact ⟨a, b, h1, h _ _ h2, h _ _ h3⟩
  | sy y => obtain ⟨a, b, h1, h2, h3⟩ := hk; exact ⟨a, b, h1, h _ _ h2, h _ _ h3⟩

theorem PCOk.mono {R R' : Nat → Nat → Prop} (h : ∀ a b, R a b → R' a b) {o : Option Op} {p : PC} (hp : PCOk R o p) : PCOk R' o p := by
  cases p with
  | idle => exact hp
  | test k e => exact KOk.mono h hp
  | next k e => exact KOk.mono h hp
  | grand k e nx => exact ⟨KOk.mono h hp.1, h _ _ hp.2⟩
  | halve k e nx p => exact ⟨KOk.mono h hp.1, h _ _ hp.2.1, h _ _ hp.2.2⟩
  | move k e nx => exact ⟨KOk.mono h hp.1, h _ _ hp.2⟩
  | root x y => obtain ⟨a, b, h1, h2, h3⟩ := hp; exact ⟨a, b, h1, h _ _ h2, h _ _ h3⟩
  | _ => exact ⟨hp.1, h _ _ hp.2⟩

theorem ResOk.mono {R R' : Nat → Nat → Prop} (h : ∀ a b, R a b → R' a b) {r : Op × Res} (hr : ResOk R r) : ResOk R' r := by
  obtain ⟨o, r⟩ := r
  cases o <;> rcases r with (_ | _) | _ <;> first | exact hr | exact h _ _ hr

theorem Linked.refl' (ps : List (Nat × Nat)) (a : Nat) : Linked ps a a := Relation.EqvGen.refl a
theorem Linked.symm' {ps : List (Nat × Nat)} {a b : Nat} (h : Linked ps a b) : Linked ps b a := Relation.EqvGen.symm _ _ h
theorem Linked.trans' {ps : List (Nat × Nat)} {a b c : Nat} (h : Linked ps a b) (h' : Linked ps b c) : Linked ps a c :=
  Relation.EqvGen.trans _ _ _ h h'

theorem Sound.start (prog : Nat → List Op) : Sound (start prog) :=
  ⟨fun x => Linked.refl' _ x, fun _ => rfl, fun r hr => by simp [CUF.start] at hr, fun t a b h => by simp [CUF.start] at h⟩

variable {s : St} {t : Nat}

theorem Sound.goto (h : Sound s) {p : PC} (hp : PCOk (Linked s.reqs) (s.op t) p) : Sound (s.goto t p) := by
  refine ⟨h.parent, fun t' => ?_, h.out, h.req⟩
  show PCOk _ _ (update s.pc t p t')
  by_cases ht : t' = t
  · subst ht; rw [update_self]; exact hp
  · rw [update_of_ne ht]; exact h.pc t'

theorem Sound.ret (h : Sound s) {r : Res} (hr : ∀ o, s.op t = some o → ResOk (Linked s.reqs) (o, r)) : Sound (s.ret t r) := by
  refine ⟨h.parent, fun t' => ?_, ?_, fun t' a b hab => ?_⟩
  · show PCOk _ (update s.op t none t') (update s.pc t .idle t')
    by_cases ht : t' = t
    · subst ht; rw [update_self, update_self]; rfl
    · rw [update_of_ne ht, update_of_ne ht]; exact h.pc t'
  · intro x hx
    show ResOk (Linked s.reqs) x.2
    change x ∈ (match s.op t with | some o => (t, o, r) :: s.out | none => s.out) at hx
    cases ho : s.op t with
    | none => rw [ho] at hx; exact h.out x hx
    | some o =>
      rw [ho] at hx
      rcases List.mem_cons.1 hx with rfl | hx
      · exact hr o ho
      · exact h.out x hx
  · change update s.op t none t' = _ at hab
    by_cases ht : t' = t
    · subst ht; rw [update_self] at hab; cases hab
    · rw [update_of_ne ht] at hab; exact h.req t' a b hab

theorem Sound.found (h : Sound s) {e : Nat} {k : Cont} (hk : KOk (Linked s.reqs) (s.op t) e k) : Sound (s.found t e k) := by
  cases k with
  | ret =>
    obtain ⟨a, h1, h2⟩ := hk
    exact h.ret fun o ho => by rw [h1] at ho; cases ho; exact h2
  | lhs r => exact h.goto ⟨hk.1, Linked.symm' hk.2⟩
  | rhs l =>
    show Sound (if l = e then _ else _)
    split
    · rename_i hle
      obtain ⟨⟨a, b, h1⟩, h2⟩ := hk
      exact h.ret fun o ho => by
        rw [h1] at ho; cases ho; exact Linked.of_mem (h.req t a b h1)
    · exact h.goto ⟨hk.1, Linked.symm' hk.2⟩
  | sx y =>
    obtain ⟨a, b, h1, h2, h3⟩ := hk
    exact h.goto ⟨a, b, h1, h2, h3⟩
  | sy x =>
    obtain ⟨a, b, h1, h2, h3⟩ := hk
    show Sound (if x = e then _ else _)
    split
    · rename_i hxe
      subst hxe
      exact h.ret fun o ho => by rw [h1] at ho; cases ho; exact Linked.trans' h2 (Linked.symm' h3)
    · exact h.goto ⟨a, b, h1, h2, h3⟩

theorem Sound.failed (h : Sound s) {u : Upd} (hu : (∃ a b, s.op t = some (.union a b)) ∧ Linked s.reqs u.x u.y) :
    Sound (s.failed t u) := by
  unfold St.failed
  split
  · exact h.goto hu
  · obtain ⟨⟨a, b, h1⟩, -⟩ := hu
    exact h.ret fun o ho => by rw [h1] at ho; cases ho; exact Linked.of_mem (h.req t a b h1)

theorem Sound.updated (h : Sound s) {u : Upd} (hu : (∃ a b, s.op t = some (.union a b)) ∧ Linked s.reqs u.x u.y) :
    Sound (s.updated t u) := by
  unfold St.updated
  split
  · exact h.goto ⟨hu.1, Linked.refl' _ _⟩
  · obtain ⟨⟨a, b, h1⟩, -⟩ := hu
    exact h.ret fun o ho => by rw [h1] at ho; cases ho; exact Linked.of_mem (h.req t a b h1)

theorem Sound.setParent (h : Sound s) {x y : Nat} (hxy : Linked s.reqs x y) : Sound { s with parent := update s.parent x y } := by
  refine ⟨fun z => ?_, h.pc, h.out, h.req⟩
  show Linked _ z (update s.parent x y z)
  by_cases hz : z = x
  · subst hz; rw [update_self]; exact hxy
  · rw [update_of_ne hz]; exact h.parent z

theorem Sound.setRank (h : Sound s) (r : Nat → Nat) : Sound { s with rank := r } := ⟨h.parent, h.pc, h.out, h.req⟩

theorem KOk.move {R : Nat → Nat → Prop} (hs : ∀ a b, R a b → R b a) (ht : ∀ a b c, R a b → R b c → R a c) {o : Option Op} {e e' : Nat}
    {k : Cont} (hk : KOk R o e k) (h : R e e') : KOk R o e' k := by
  cases k with
  | ret => obtain ⟨a, h1, h2⟩ := hk; exact ⟨a, h1, ht _ _ _ h2 h⟩
  | lhs r => exact ⟨hk.1, ht _ _ _ (hs _ _ h) hk.2⟩
  | rhs r => exact ⟨hk.1, ht _ _ _ (hs _ _ h) hk.2⟩
  | sx y => obtain ⟨a, b, h1, h2, h3⟩ := hk; exact ⟨a, b, h1, ht _ _ _ h2 h, h3⟩
  | sy y => obtain ⟨a, b, h1, h2, h3⟩ := hk; exact ⟨a, b, h1, h2, ht _ _ _ h3 h⟩

theorem Sound.begin (h : Sound s) (o : Op) (rest : List Op) : Sound (s.begin t o rest) := by
  have key : ∀ (reqs : List (Nat × Nat)) (p : PC), (∀ a b, Linked s.reqs a b → Linked reqs a b) →
      (∀ x ∈ s.reqs, x ∈ reqs) → (∀ a b, o = .union a b → (a, b) ∈ reqs) → PCOk (Linked reqs) (some o) p →
      Sound ({ s with prog := update s.prog t rest, op := update s.op t (some o), reqs := reqs, pc := update s.pc t p }) := by
    intro reqs p hm hsub hr hp
    refine ⟨fun x => hm _ _ (h.parent x), fun t' => ?_, fun r hr => ResOk.mono hm (h.out r hr), fun t' a b hab => ?_⟩
    · show PCOk _ (update s.op t (some o) t') (update s.pc t p t')
      by_cases ht : t' = t
      · subst ht; rw [update_self, update_self]; exact hp
      · rw [update_of_ne ht, update_of_ne ht]; exact PCOk.mono hm (h.pc t')
    · change update s.op t (some o) t' = _ at hab
      by_cases ht : t' = t
      · subst ht; rw [update_self] at hab; cases hab; exact hr a b rfl
      · rw [update_of_ne ht] at hab; exact hsub _ (h.req t' a b hab)
  cases o with
  | find a =>
    exact key s.reqs (.test .ret a) (fun _ _ h => h) (fun _ h => h) (fun _ _ h => by cases h) ⟨a, rfl, Linked.refl' _ _⟩
  | union a b =>
    refine key ((a, b) :: s.reqs) (.test (.lhs b) a) (fun _ _ h => ?_) (fun _ h => by simp [h]) (fun _ _ h => by cases h; simp)
      ⟨⟨a, b, rfl⟩, Linked.of_mem (by simp)⟩
    exact Linked.mono (fun _ h => by simp [h]) h
  | same a b =>
    exact key s.reqs (.test (.sx b) a) (fun _ _ h => h) (fun _ h => h) (fun _ _ h => by cases h)
      ⟨a, b, rfl, Linked.refl' _ _, Linked.refl' _ _⟩

theorem Sound.step (h : Sound s) (t : Nat) : Sound (step s t) := by
  have hp := h.pc t
  unfold CUF.step
  generalize s.pc t = p at hp ⊢
  cases p with
  | idle => dsimp only; split; exact h; exact h.begin _ _
  | test k e => dsimp only; split; exact h.found hp; exact h.goto hp
  | next k e => exact h.goto ⟨hp, h.parent e⟩
  | grand k e nx => exact h.goto ⟨hp.1, hp.2, h.parent nx⟩
  | halve k e nx p =>
    dsimp only
    split
    · exact (h.setParent (Linked.trans' hp.2.1 hp.2.2)).goto ⟨hp.1, hp.2.1⟩
    · exact h.goto ⟨hp.1, hp.2.1⟩
  | move k e nx =>
    exact h.goto (KOk.move (R := Linked s.reqs) (fun _ _ h => Linked.symm' h) (fun _ _ _ h h' => Linked.trans' h h') hp.1 (Linked.trans' hp.2 (h.parent nx)))
  | rankL l r => exact h.goto hp
  | rankR l r rl =>
    refine h.goto ⟨hp.1, ?_⟩
    unfold ordered
    split
    · exact Linked.symm' hp.2
    · exact hp.2
  | chkP u => dsimp only; split; exact h.goto hp; exact h.failed hp
  | chkR u => dsimp only; split; exact h.goto hp; exact h.failed hp
  | linkP u => dsimp only; split; exact (h.setParent hp.2).goto hp; exact h.failed hp
  | readR u => exact h.goto hp
  | linkR u old => dsimp only; split; exact (h.setRank _).updated hp; exact h.goto hp
  | undo u => dsimp only; split; exact (h.setParent (Linked.refl' _ _)).failed hp; exact h.failed hp
  | root x y =>
    dsimp only
    obtain ⟨a, b, h1, h2, h3⟩ := hp
    split
    · exact h.ret fun o ho => by rw [h1] at ho; cases ho; trivial
    · exact h.goto ⟨a, b, h1, h2, h3⟩

theorem Sound.run (h : Sound s) (sched : List Nat) : Sound (run s sched) := by
  induction sched generalizing s with
  | nil => exact h
  | cons t l ih => exact ih (h.step t)

end CUF
end VieCut
