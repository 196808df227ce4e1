import Verif.Proof.UnionFind

/-! # C01: `union_find` computes exactly the requested partition -/

namespace VieCut
open UF

/-- After any call history with arguments in range, two elements have the same representative iff they
are linked by requested unions. -/
theorem C01_find_iff_linked (n : Nat) (ops : List UF.Op) (hok : ∀ o ∈ ops, o.ok n) (a b : Nat) :
    ((run n ops).find a).1 = ((run n ops).find b).1 ↔ Linked (reqs ops) a b := by
  have h := (run_rep n ops hok).1
  rw [find_fst h.inv, find_fst h.inv, h.iff]

/-- `Find` ends: the fuel `size` given to the model of the recursion is never the reason to stop, because the
element returned is a root (the only exit of the C++ function), is in range, and more fuel gives the same
answer. -/
theorem C01_find_terminates (n : Nat) (ops : List UF.Op) (hok : ∀ o ∈ ops, o.ok n) (a : Nat) (ha : a < n) :
    (run n ops).parent ((run n ops).find a).1 = ((run n ops).find a).1 ∧
    ((run n ops).find a).1 < n ∧
    ∀ extra, (findAux ((run n ops).size + extra) (run n ops).parent a).1 = ((run n ops).find a).1 := by
  obtain ⟨h, hs⟩ := run_rep n ops hok
  rw [find_fst h.inv]
  refine ⟨parent_root h.inv a, ?_, fun extra => ?_⟩
  · have := root_lt h.inv (x := a) (by omega); omega
  · exact (findAux_spec h.inv.forest _ a (by omega)).1

/-- `Union` returns `true` exactly when its arguments were not linked before. -/
theorem C01_union_result (n : Nat) (ops : List UF.Op) (hok : ∀ o ∈ ops, o.ok n) (a b : Nat)
    (ha : a < n) (hb : b < n) :
    ((run n ops).union a b).1 = true ↔ ¬ Linked (reqs ops) a b := by
  obtain ⟨h, hs⟩ := run_rep n ops hok
  exact (union_spec h (by omega) (by omega)).2.1

/-- `n()` is the number of classes of the requested partition. -/
theorem C01_count (n : Nat) (ops : List UF.Op) (hok : ∀ o ∈ ops, o.ok n) :
    NumClasses n (Linked (reqs ops)) (run n ops).cnt := by
  obtain ⟨h, hs⟩ := run_rep n ops hok
  refine ⟨(run n ops).root, fun a b _ _ => h.iff a b, ?_⟩
  rw [← image_root_card h.inv, hs]

/-- Non-vacuity: a history with path compression and an already-linked union. -/
example : (∀ o ∈ [UF.Op.union 0 1, .union 2 3, .union 1 3, .find 3, .union 0 2], o.ok 5) ∧
    (run 5 [UF.Op.union 0 1, .union 2 3, .union 1 3, .find 3, .union 0 2]).cnt = 2 ∧
    ((run 5 [UF.Op.union 0 1, .union 2 3, .union 1 3, .find 3]).union 0 2).1 = false ∧
    ((run 5 [UF.Op.union 0 1, .union 2 3, .union 1 3, .find 3]).union 0 4).1 = true := by
  refine ⟨?_, by decide, by decide, by decide⟩
  simp [UF.Op.ok]

end VieCut
