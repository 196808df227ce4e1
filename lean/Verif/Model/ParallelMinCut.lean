import Verif.Model.NOI
import Verif.Model.ParallelCapforest

/-!
# Model of `exact_parallel_minimum_cut::perform_minimum_cut` (exact_parallel_minimum_cut.h:63-122, `PARALLEL` defined)

`parUF lvl H b` is the union-find that `parallel_modified_capforest` returns at level `lvl` on graph `H` with bound `b`: it depends
on the start vertices and on the interleaving of the threads, so it is a parameter of the model.
-/

namespace VieCut
namespace PCF

/-- Loop body (exact_parallel_minimum_cut.h:88-115): `none` is the `break`. -/
def parStep {γ : Type} [GraphLike γ] (cfg : NOICfg) (contract : Nat → γ → UF → γ × (Nat → Nat)) (parUF : Nat → Graph → Nat → UF)
    (lvl : Nat) (s : NOIState γ) : Option (NOIState γ) :=
  let uf := parUF lvl s.view s.mincut
  let uf :=
    if uf.cnt = s.view.n then
      let P := selectPQ cfg.kind cfg.limited s.view.n s.mincut s.view.maxDegree
      capforest P.toPQ cfg.limited s.view s.mincut (cfg.rnd lvl % s.view.n)
    else uf
  if uf.cnt > 1 then some (coarsen cfg.save (contract lvl) uf s) else none

/-- `while (graphs.back()->number_of_nodes() > 2 && mincut > 0)` (exact_parallel_minimum_cut.h:87-116). -/
def parLoop {γ : Type} [GraphLike γ] (cfg : NOICfg) (contract : Nat → γ → UF → γ × (Nat → Nat)) (parUF : Nat → Graph → Nat → UF) :
    Nat → Nat → NOIState γ → NOIState γ
  | 0, _, s => s
  | f + 1, lvl, s =>
    if s.view.n > 2 ∧ s.mincut > 0 then
      match parStep cfg contract parUF lvl s with
      | some s' => parLoop cfg contract parUF f (lvl + 1) s'
      | none => s
    else s

/-- Final local state of `perform_minimum_cut` on `x`, if `viecut` returned `bound` and left the flags `inCut0`
(exact_parallel_minimum_cut.h:73-79); `x.n` iterations suffice (`C29_driver_terminates`). -/
def parFinal {γ : Type} [GraphLike γ] (cfg : NOICfg) (contract : Nat → γ → UF → γ × (Nat → Nat)) (parUF : Nat → Graph → Nat → UF)
    (x : γ) (bound : Nat) (inCut0 : Nat → Bool) : NOIState γ :=
  parLoop cfg contract parUF (GraphLike.view x).n 0 { cur := x, maps := [], mincut := bound, inCut := inCut0 }

end PCF
end VieCut
