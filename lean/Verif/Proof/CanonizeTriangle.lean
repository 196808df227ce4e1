import Verif.Proof.CanonizeDelete

/-!
# An empty vertex of three junctions is replaced by a triangle
-/

namespace VieCut
open Function Finset MGraph

namespace GraphModification

/-- Cost of a junction when its centre is on the side `b`. -/
def sig (h : Nat) (X : Nat → Bool) (j : Nat × Nat × Nat) (b : Bool) : Nat :=
  (if b = X j.2.1 then 0 else h) + if b = X j.2.2 then 0 else h

theorem sig_add (h : Nat) (X : Nat → Bool) (j : Nat × Nat × Nat) : sig h X j true + sig h X j false = 2 * h := by
  unfold sig
  cases X j.2.1 <;> cases X j.2.2 <;> simp <;> omega

/-- Cost of the edges of the triangle. -/
def tri (h : Nat) (x y z : Bool) : Nat := (if x = y then 0 else h) + (if x = z then 0 else h) + if y = z then 0 else h

/-- What the algorithm found around the vertex `v`: pairs of neighbours over edges of weight `c / 2`, and neighbours over edges of
weight `c`. -/
structure Around (C : MGraph) (v c : Nat) (ps : List (Nat × Nat)) (ts : List Nat) : Prop where
  lt : v < C.n
  even : 2 * (c / 2) = c
  pair : ∀ p ∈ ps, p.1 < C.n ∧ p.2 < C.n ∧ p.1 ≠ p.2 ∧ p.1 ≠ v ∧ p.2 ≠ v
  half : ∀ p ∈ ps, C.W v p.1 < c ∧ C.W v p.2 < c
  same : ∀ p ∈ ps, SameSide C v c p.1 p.2
  tree : ∀ t ∈ ts, t < C.n ∧ t ≠ v ∧ C.W v t = c
  nodup : ts.Nodup
  star : ∀ X b, star C v X b = (ps.map fun p => (if b = X p.1 then 0 else c / 2) + if b = X p.2 then 0 else c / 2).sum +
    (ts.map fun t => if b = X t then 0 else c).sum

/-- The junctions: new vertices with their pairs, and the neighbours over tree edges. -/
def junctions (n : Nat) (ps : List (Nat × Nat)) (ts : List Nat) : List (Nat × Nat × Nat) := joints n ps ++ ts.map fun t => (t, t, t)

theorem joints_snd {α : Type} (n : Nat) (ps : List (Nat × Nat)) (f : Nat × Nat → α) : (joints n ps).map (fun j => f j.2) = ps.map f := by
  induction ps generalizing n with
  | nil => rfl
  | cons p ps ih => simp [joints, ih]

theorem Around.star_sig {C : MGraph} {v c : Nat} {ps : List (Nat × Nat)} {ts : List Nat} (R : Around C v c ps ts) (X : Nat → Bool) (b : Bool) :
    MGraph.star C v X b = ((junctions C.n ps ts).map fun j => sig (c / 2) X j b).sum := by
  rw [R.star, junctions, List.map_append, List.sum_append]
  congr 1
  · rw [← joints_snd C.n ps]
    rfl
  · rw [List.map_map]
    congr 1
    refine List.map_congr_left fun t _ => ?_
    have := R.even
    simp only [Function.comp, sig]
    split <;> omega

/-- The cuts of the graph with the triangle. -/
theorem Around.cuts {E : Nat → Prop} {P : (Nat → Bool) → Prop} {C : MGraph} {v c : Nat} {ps : List (Nat × Nat)} {ts : List Nat}
    (R : Around C v c ps ts) (h : CactusOf E P C c) {A B : MGraph} (J : WithJoints c C ps A) (hB : Valid B) (hBn : B.n = A.n)
    {j1 j2 j3 : Nat × Nat × Nat} (hJ : junctions C.n ps ts = [j1, j2, j3])
    (hcv : ∀ X, B.cv X = A.cv X + tri (c / 2) (X j1.1) (X j2.1) (X j3.1)) (hrow : ∀ f, rowSum B f v = rowSum A f v) (X : Nat → Bool) :
    ∃ K, (∀ b, C.cv (update X v b) = K + sig (c / 2) X j1 b + sig (c / 2) X j2 b + sig (c / 2) X j3 b) ∧
      ∀ Y : Nat → Bool, (∀ u, u < A.n → u ≠ v → Y (relab v (A.n - 1) u) = X u) →
        (B.deleteVertex v).cv Y = K + sig (c / 2) X j1 (X j1.1) + sig (c / 2) X j2 (X j2.1) + sig (c / 2) X j3 (X j3.1) +
          tri (c / 2) (X j1.1) (X j2.1) (X j3.1) := by
  have hstar : ∀ b, MGraph.star C v X b = sig (c / 2) X j1 b + sig (c / 2) X j2 b + sig (c / 2) X j3 b := by
    intro b
    rw [R.star_sig, hJ]
    simp only [List.map_cons, List.map_nil, List.sum_cons, List.sum_nil]
    omega
  have hAcv : A.cv X = C.cv X + sig (c / 2) X j1 (X j1.1) + sig (c / 2) X j2 (X j2.1) + sig (c / 2) X j3 (X j3.1) := by
    have h1 : ((joints C.n ps).map (jcost (c / 2) X)).sum = ((junctions C.n ps ts).map (fun j => sig (c / 2) X j (X j.1))).sum := by
      rw [junctions, List.map_append, List.sum_append, List.map_map]
      have : (ts.map ((fun j => sig (c / 2) X j (X j.1)) ∘ fun t => (t, t, t))).sum = 0 := by
        refine List.sum_eq_zero fun x hx => ?_
        obtain ⟨t, _, rfl⟩ := List.mem_map.1 hx
        simp [sig]
      rw [this]
      rfl
    rw [J.cv, h1, hJ]
    simp only [List.map_cons, List.map_nil, List.sum_cons, List.sum_nil]
    omega
  have hle := star_le h.valid R.lt X
  have hfl := star_flip h.valid R.lt X
  have hvp : ∀ p ∈ ps, p.1 ≠ v ∧ p.2 ≠ v := fun p hp => ⟨(R.pair p hp).2.2.2.1, (R.pair p hp).2.2.2.2⟩
  refine ⟨C.cv X - MGraph.star C v X (X v), ?_, ?_⟩
  · intro b
    have hs := hstar b
    by_cases hb : b = X v
    · rw [hb, update_eq_self]
      have := hstar (X v)
      omega
    · have hb' : b = !X v := by
        revert hb; cases X v <;> cases b <;> simp
      rw [← hb'] at hfl
      omega
  · intro Y hY
    have hvB : v < B.n := by rw [hBn, J.n]; have := R.lt; omega
    have hd := delete_cv hB hvB (X := X) (Y := Y) (by rw [hBn]; exact hY)
    have hst : MGraph.star B v X (X v) = MGraph.star C v X (X v) := by
      unfold MGraph.star
      rw [hrow, J.row _ v R.lt hvp]
    rw [hst, hcv, hAcv] at hd
    omega

end GraphModification
end VieCut
