import Verif.Proof.GlueCactus
import Verif.Proof.Check

/-!
# Small graphs are cactuses, by enumeration (for examples)
-/

namespace VieCut
open Function MGraph

/-- A cut given by a list. -/
def listCut (l : List Bool) : Nat → Bool := fun u => l.getD u false

theorem exists_listCut (n : Nat) (S : Nat → Bool) : ∃ l ∈ boolLists n, ∀ u, u < n → listCut l u = S u := by
  refine ⟨(List.range n).map S, ?_, fun u hu => ?_⟩
  · have := mem_boolLists ((List.range n).map S)
    simpa using this
  · unfold listCut
    rw [List.getD_eq_getElem?_getD, List.getElem?_eq_getElem (by simpa using hu)]
    simp

theorem cactus_of_check {m c : Nat} {g : MGraph} (hv : Valid g) (hs : g.NoParallel) (hr : g.lastNode = g.n) (hroom : g.n ≤ g.contSize)
    (hpos : ∀ e, e < m → g.pos e < g.n ∧ e ∈ g.cont (g.pos e))
    (hcont : ∀ p, p < g.n → (g.cont p).Nodup ∧ ∀ e ∈ g.cont p, e < m ∧ g.pos e = p)
    (hw : ∀ u, u < g.n → ∀ b, b < g.len u → (g.edge u b).weight = c ∨ 2 * (g.edge u b).weight = c)
    (hl : ∀ X, ProperCut g.n X → c ≤ cutValue g.n g.toGraph.wt X)
    (hsep : ∀ x, x < g.n → ∀ y, y < g.n → x ≠ y → ∃ l ∈ boolLists g.n, listCut l x = true ∧ listCut l y = false ∧
      cutValue g.n g.toGraph.wt (listCut l) = c) : CactusOf (fun e => e < m) (Split g (fun e => e < m) c) g c := by
  refine ⟨consistent_iff.2 hv, hs, hr, hroom, ⟨fun e he => (hpos e he).1, fun p e hp => ⟨fun he => (hcont p hp).2 e he, ?_⟩,
    fun p hp => (hcont p hp).1⟩, fun u b hu hb => hw u hu b hb, hl, fun _ => Iff.rfl, ?_⟩
  · rintro ⟨h1, rfl⟩
    exact (hpos e h1).2
  · intro x y hx hy hxy
    obtain ⟨l, _, h1, h2, h3⟩ := hsep x hx y hy hxy
    exact ⟨listCut l, h1, h2, h3⟩

theorem split_of_check {m c : Nat} {G g : MGraph} (hc : 0 < c) (hpos : ∀ e, e < m → G.pos e < G.n)
    (h : ∀ l ∈ boolLists G.n, cutValue G.n G.toGraph.wt (listCut l) = c →
      ∃ k ∈ boolLists g.n, cutValue g.n g.toGraph.wt (listCut k) = c ∧ ∀ e, e < m → listCut k (g.pos e) = listCut l (G.pos e)) :
    ∀ f, Split G (fun e => e < m) c f → Split g (fun e => e < m) c f := by
  rintro f ⟨X, _, x2, x3⟩
  obtain ⟨l, l1, l2⟩ := exists_listCut G.n X
  obtain ⟨k, _, k2, k3⟩ := h l l1 (by rw [cutValue_congr l2]; exact x2)
  refine ⟨listCut k, ?_, k2, fun e he => ?_⟩
  · by_contra hnp
    have : cutValue g.n g.toGraph.wt (listCut k) = 0 := by
      unfold cutValue
      refine Finset.sum_eq_zero fun a ha => Finset.sum_eq_zero fun b hb => if_neg fun hh => ?_
      exact hnp ⟨⟨a, Finset.mem_range.1 ha, hh.1⟩, ⟨b, Finset.mem_range.1 hb, hh.2⟩⟩
    omega
  · rw [k3 e he, l2 _ (hpos e he), x3 e he]

end VieCut
