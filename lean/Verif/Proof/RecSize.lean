import Verif.Proof.RecMain
import Verif.Model.AllCutRed

/-!
# C57: the array of positions is as large as the number of original vertices
-/

namespace VieCut
namespace RecCactus
open MGraph Function STCactus HeavyEdges GraphModification

/-- The size of the array of positions, and `original_nodes`. -/
def sz (g : MGraph) : Nat × Nat := (g.posSize, g.origNodes)

theorem foldl_sz {α : Type} {f : MGraph → α → MGraph} (h : ∀ g a, sz (f g a) = sz g) (l : List α) : ∀ g, sz (l.foldl f g) = sz g := by
  induction l with
  | nil => intro g; rfl
  | cons a l ih => intro g; rw [List.foldl_cons, ih, h]

theorem foldl_szOf {α β : Type} {f : β → α → β} (p : β → MGraph) (h : ∀ g a, sz (p (f g a)) = sz (p g)) (l : List α) :
    ∀ g, sz (p (l.foldl f g)) = sz (p g) := by
  induction l with
  | nil => intro g; rfl
  | cons a l ih => intro g; rw [List.foldl_cons, ih, h]

@[simp] theorem sz_newEmptyNode (g : MGraph) : sz g.newEmptyNode = sz g := by unfold newEmptyNode; split <;> rfl
@[simp] theorem sz_newEdge (g : MGraph) (s t w : Nat) : sz (g.newEdge s t w) = sz g := by unfold newEdge; split <;> rfl
@[simp] theorem sz_newEdgeOrder (g : MGraph) (s t w : Nat) : sz (g.newEdgeOrder s t w) = sz g := by
  unfold newEdgeOrder; split
  · simp
  · split <;> simp
@[simp] theorem sz_setEdgeWeight (g : MGraph) (u e w : Nat) : sz (g.setEdgeWeight u e w) = sz g := rfl
@[simp] theorem sz_internalDelete (g : MGraph) (u e : Nat) : sz (g.internalDelete u e) = sz g := by unfold internalDelete; split <;> rfl
@[simp] theorem sz_deleteEdge (g : MGraph) (u e : Nat) : sz (g.deleteEdge u e) = sz g := by
  have h : sz (g.deleteEdge u e) = sz ((g.internalDelete u e).internalDelete (g.edge u e).target (g.edge u e).rev) := rfl
  rw [h]; simp
@[simp] theorem sz_mergePair (g : MGraph) (a b c d : Nat) (r : RevEdge) : sz (g.mergePair a b c d r) = sz g := by
  unfold mergePair; simp only [sz_internalDelete]; rfl
@[simp] theorem sz_redirect (g : MGraph) (a : Nat) (r : RevEdge) : sz (g.redirect a r) = sz g := rfl
@[simp] theorem sz_absorb (g : MGraph) (a b : Nat) : sz (g.absorb a b) = sz g := rfl
@[simp] theorem sz_relocate (g : MGraph) (a b : Nat) : sz (g.relocate a b) = sz g := rfl
@[simp] theorem sz_moveLast (g : MGraph) (a : Nat) : sz (g.moveLast a) = sz g := rfl
@[simp] theorem sz_popVertex (g : MGraph) : sz g.popVertex = sz g := rfl
@[simp] theorem sz_finish (g : MGraph) : sz g.finishConstruction = sz g := rfl
@[simp] theorem sz_remap (g : MGraph) (a : Nat) : sz (g.remap a) = sz g := by
  unfold remap; refine foldl_sz (fun h b => ?_) _ _; rfl
@[simp] theorem sz_freeSlot (g : MGraph) (a : Nat) : sz (g.freeSlot a) = sz g := by unfold freeSlot; split <;> simp
@[simp] theorem sz_mergeEdgeSparse (g : MGraph) (a b e : Nat) : sz (mergeEdgeSparse a b g e) = sz g := by
  unfold mergeEdgeSparse; dsimp only; split <;> simp

theorem sz_ordered (g : MGraph) (u e : Nat) : sz (g.contractEdgeOrdered u e) = sz g := by
  unfold contractEdgeOrdered
  dsimp only
  show sz (internalDelete _ _ _) = _
  rw [sz_internalDelete, sz_freeSlot, sz_absorb]
  refine foldl_sz (fun h a => ?_) _ _
  split
  · rfl
  · split <;> simp

@[simp] theorem sz_contractEdge (g : MGraph) (u e : Nat) : sz (g.contractEdge u e) = sz g := by
  unfold contractEdge; dsimp only; split <;> exact sz_ordered _ _ _

@[simp] theorem sz_sparseTarget (g : MGraph) (u e : Nat) : sz (g.contractEdgeSparseTarget u e) = sz g := by
  unfold contractEdgeSparseTarget
  dsimp only
  split
  · simp
  · have h1 : sz ((List.range (g.len (g.edge u e).target)).foldl
        (fun h ed => if ed = (g.edge u e).rev then h else mergeEdgeSparse u (g.edge u e).target h ed) g) = sz g := by
      refine foldl_sz (fun h a => ?_) _ _
      split <;> simp
    generalize (List.range (g.len (g.edge u e).target)).foldl
        (fun h ed => if ed = (g.edge u e).rev then h else mergeEdgeSparse u (g.edge u e).target h ed) g = x at h1
    have h2 : sz (if (g.edge u e).target < (x.absorb u (g.edge u e).target).n - 1 then
        (x.absorb u (g.edge u e).target).relocate (g.edge u e).target ((x.absorb u (g.edge u e).target).n - 1)
        else x.absorb u (g.edge u e).target) = sz g := by
      split <;> simp [h1]
    generalize (if (g.edge u e).target < (x.absorb u (g.edge u e).target).n - 1 then
        (x.absorb u (g.edge u e).target).relocate (g.edge u e).target ((x.absorb u (g.edge u e).target).n - 1)
        else x.absorb u (g.edge u e).target) = y at h2
    have h3 : sz (y.internalDelete u e) = sz g := by simp [h2]
    split
    · rw [sz_remap, sz_popVertex, sz_moveLast]; exact h3
    · rw [sz_popVertex]; exact h3

@[simp] theorem sz_vertexSet (g : MGraph) (S : List Nat) : sz (g.contractVertexSet S) = sz g := by
  unfold contractVertexSet
  dsimp only
  split
  · rfl
  · split
    · rfl
    · rw [foldl_sz (fun h a => by unfold cvsRemove; show sz (freeSlot _ _) = _; simp)]
      rw [foldl_szOf CVS.g]
      · refine (foldl_szOf CVS.g (fun s a => ?_) (List.range _) ⟨g, [], fun _ => none⟩ : _)
        unfold cvsFirstStep
        dsimp only
        split <;> rfl
      · intro s a
        refine foldl_szOf CVS.g (fun s b => ?_) _ _
        unfold cvsStep
        dsimp only
        split
        · rfl
        · split <;> simp

@[simp] theorem sz_deleteVertex (g : MGraph) (v : Nat) : sz (g.deleteVertex v) = sz g := by
  unfold deleteVertex
  dsimp only
  have h1 : ∀ (h : MGraph) (l : List Nat), sz (l.foldl (fun (h : MGraph) e =>
      let r := h.edge v e
      let h1 := h.internalDelete r.target r.rev
      { h1 with numEdges := h1.numEdges - 2, wdeg := update h1.wdeg r.target (h1.wdeg r.target - r.weight) }) h) = sz h := by
    intro h l
    refine foldl_sz (fun h a => ?_) _ _
    exact sz_internalDelete _ _ _
  have h2 : ∀ (h : MGraph) (l : List Nat), sz (l.foldl (fun (h : MGraph) e =>
      let r := h.edge (g.n - 1) e
      h.setEdge r.target r.rev { h.edge r.target r.rev with target := v }) h) = sz h := by
    intro h l; refine foldl_sz (fun h a => ?_) _ _; rfl
  have hm : ∀ x : MGraph, sz { x.moveLast v with n := (x.moveLast v).n - 1, lastNode := (x.moveLast v).lastNode - 1 } = sz x := fun _ => rfl
  refine (hm _).trans ?_
  split
  · rw [h2, h1]; rfl
  · rw [h1]

@[simp] theorem sz_addMember (g : MGraph) (p v : Nat) : sz (addMember g p v) = sz g := rfl
@[simp] theorem sz_setMembers (g : MGraph) (p : Nat) (l : List Nat) : sz (setMembers g p l) = sz g := rfl

theorem sz_removeHeavy (c : Nat) (ordM : List (Nat × List Nat) → List (Nat × List Nat)) (ord : Nat → List Nat → List Nat) (g : MGraph) :
    sz (removeHeavyEdges c ordM ord g).1 = sz g := by
  unfold removeHeavyEdges
  dsimp only
  rw [foldl_szOf Prod.fst]
  · refine foldl_sz (fun h a => ?_) _ _
    unfold contractGroup
    dsimp only
    split <;> simp
  · intro s a
    unfold takeLeaf
    dsimp only
    split
    · split <;> simp
    · rfl

theorem sz_cycles (c : Nat) (g : MGraph) : sz (contractCycleEdges c g).1 = sz g := by
  unfold contractCycleEdges
  have : ∀ fuel n (s : MGraph × List ((Nat × Nat) × List Nat)), sz (cycleLoop c fuel n s).1 = sz s.1 := by
    intro fuel
    induction fuel with
    | zero => intro n s; rfl
    | succ f ih =>
      intro n s
      unfold cycleLoop
      split
      · rw [ih]
        unfold cycleStep
        dsimp only
        split
        · split
          · rfl
          · exact sz_sparseTarget _ _ _
        · split
          · exact sz_sparseTarget _ _ _
          · rfl
      · rfl
  exact this _ _ _

theorem foldlM_sz {α : Type} {f : MGraph → α → Option MGraph} (h : ∀ g a r, f g a = some r → sz r = sz g) : ∀ (l : List α) (g r : MGraph),
    l.foldlM f g = some r → sz r = sz g := by
  intro l
  induction l with
  | nil => intro g r hr; rw [← Option.some.inj hr]
  | cons a l ih =>
    intro g r hr
    rw [List.foldlM_cons] at hr
    obtain ⟨x, h1, h2⟩ := Option.bind_eq_some_iff.1 hr
    rw [ih _ _ h2, h _ _ _ h1]

theorem sz_reInsertCycles {c : Nat} {g r : MGraph} {l : List ((Nat × Nat) × List Nat)} (h : reInsertCycles c g l = some r) : sz r = sz g := by
  unfold reInsertCycles at h
  refine foldlM_sz (fun g a r h => ?_) _ _ _ h
  unfold putCycle at h
  dsimp only at h
  split at h
  · rw [← Option.some.inj h]; simp
  · obtain ⟨e, -, rfl⟩ := Option.map_eq_some_iff.1 h
    rw [sz_setMembers]
    split <;> simp

theorem sz_reInsertVertices (c : Nat) (g : MGraph) (l : List (Nat × List Nat)) : sz (reInsertVertices c g l) = sz g := by
  unfold reInsertVertices
  refine foldl_sz (fun h a => ?_) _ _
  unfold putLeaf; simp

theorem sz_glue (G1 G2 : MGraph) (v1 v2 : Nat) : sz (glue G1 v1 G2 v2) = sz G1 := by
  unfold glue
  dsimp only
  rw [foldl_sz, foldl_sz]
  · rfl
  · intro h a
    unfold mergeVertex
    split
    · refine foldl_sz (fun h b => ?_) _ _
      split <;> simp
    · simp
  · intro h a
    refine foldl_sz (fun h b => ?_) _ _
    unfold mergeEdge
    dsimp only
    split <;> simp

theorem sz_canonize {fuel c v : Nat} {g r : MGraph} (h : canonizeCactus fuel g v c = some r) : sz r = sz g := by
  unfold canonizeCactus at h
  dsimp only at h
  split at h
  · cases h
  · split at h
    · rw [← Option.some.inj h]; simp
    · split at h
      · obtain ⟨ps, -, rfl⟩ := Option.map_eq_some_iff.1 h
        simp only [sz_deleteVertex, sz_newEdgeOrder]
        rw [foldl_szOf Prod.fst]
        intro s a
        unfold addBetween; simp
      · rw [← Option.some.inj h]

/-- All positions of original vertices fit into the array. -/
def Sized (N : Nat) (g : MGraph) : Prop := N ≤ g.posSize ∧ g.origNodes = N

theorem Sized.of_sz {N : Nat} {g h : MGraph} (hg : Sized N g) (e : sz h = sz g) : Sized N h := by
  unfold sz at e
  simp only [Prod.mk.injEq] at e
  unfold Sized
  rw [e.1, e.2]
  exact hg

theorem Sized.merge {N fuel c v1 v2 : Nat} {G1 G2 r : MGraph} (h1 : Sized N G1) (h2 : Sized N G2)
    (h : mergeGraphs fuel G1 v1 G2 v2 c = some r) : Sized N r := by
  unfold mergeGraphs at h
  split at h
  · rw [← Option.some.inj h]; exact h1
  · split at h
    · rw [← Option.some.inj h]; exact h2
    · dsimp only at h
      split at h
      · exact h1.of_sz ((sz_canonize h).trans (sz_glue _ _ _ _))
      · rw [← Option.some.inj h]; exact h1.of_sz (sz_glue _ _ _ _)

theorem Sized.setOriginal (g : MGraph) (N : Nat) : Sized N (STCactus.setOriginalNodes g N) := ⟨le_max_right _ _, rfl⟩

theorem Sized.contract {N : Nat} {v : Nat → Nat} {G : MGraph} (h : G.origNodes = N) (k : Nat) : Sized N (STCactus.contract v G k) := by
  unfold STCactus.contract addWeights allPairs components
  subst h
  refine (Sized.setOriginal (MGraph.start k) G.origNodes).of_sz ?_
  rw [sz_finish, foldl_sz, foldl_sz, foldl_sz]
  · rfl
  · intro h a; split <;> simp
  · intro h a
    refine foldl_sz (fun h b => ?_) _ _
    split <;> simp
  · intro h a
    refine foldl_sz (fun h b => ?_) _ _
    dsimp only
    split <;> simp

theorem newNode_early {g : MGraph} (h : g.lastNode ≠ g.n) : g.newNode = { g with lastNode := g.lastNode + 1 } := by
  unfold newNode; rw [if_neg h]

theorem newNodes_early (k : Nat) : ∀ g : MGraph, g.lastNode + k ≤ g.n →
    (List.range k).foldl (fun (h : MGraph) _ => h.newNode) g = { g with lastNode := g.lastNode + k } := by
  induction k with
  | zero => intro g _; rfl
  | succ k ih =>
    intro g h
    rw [List.range_succ, List.foldl_append, ih g (by omega), List.foldl_cons, List.foldl_nil,
      newNode_early (by show g.lastNode + k ≠ g.n; omega)]
    rfl

theorem Sized.st {N c s k : Nat} {v : Nat → Nat} {G R : MGraph} (h : G.origNodes = N) (hR : findSTCactus c v G s k = some R) : Sized N R := by
  unfold findSTCactus at hR
  dsimp only at hR
  obtain ⟨L, -, rfl⟩ := Option.map_eq_some_iff.1 hR
  have hC := Sized.contract h (v := v) k
  generalize STCactus.contract v G k = C at hC
  refine Sized.of_sz (g := resizePositions (MGraph.start C.n) C.origNodes) ⟨?_, hC.2⟩ ?_
  · show N ≤ C.origNodes
    rw [hC.2]
  rw [sz_finish, foldl_szOf Build.st]
  · show sz (order _ _ _).st = _
    unfold order
    dsimp only
    rw [sz_finish, foldl_szOf Ordering.st]
    · unfold orderStart
      dsimp only
      rw [sz_setMembers, newNodes_early _ _ (by show 0 + C.n ≤ C.n; omega)]
      rfl
    · intro o a
      unfold orderStep
      simp
  · intro b i
    unfold buildStep
    split
    · unfold makeCycle
      dsimp only
      show sz (Build.st _) = _
      rw [foldl_szOf Build.st]
      intro x j
      split
      · split <;> split <;> simp
      · split <;> simp
    · dsimp only
      split <;> simp

theorem sz_smallEdges (G : MGraph) (num : Nat → Nat) (size : Nat) (h : MGraph) (a : Nat) : sz (smallEdges G num size h a) = sz h := by
  unfold smallEdges
  dsimp only
  split
  · have : ∀ l : List Nat, sz (l.foldl (fun (s : MGraph × Nat) e =>
        if num (G.edge a e).target = size then (s.1, s.2 + (G.edge a e).weight)
        else if num a < num (G.edge a e).target then (s.1.newEdge (num a) (num (G.edge a e).target) (G.edge a e).weight, s.2) else s)
        (h, 0)).1 = sz h := by
      intro l
      rw [foldl_szOf Prod.fst]
      intro s b
      split
      · rfl
      · split <;> simp
    split
    · rw [sz_newEdge]; exact this _
    · exact this _
  · rfl

theorem sz_smallVertex (G : MGraph) (num : Nat → Nat) (h : MGraph) (a : Nat) : sz (smallVertex G num h a) = sz h := by
  unfold smallVertex
  refine foldl_sz (fun h b => ?_) _ _
  rfl

theorem Sized.small {N c size : Nat} {G : MGraph} {lab : Nat → Nat} (h : G.origNodes = N) : Sized N (smallGraph G lab c size) := by
  subst h
  unfold smallGraph
  dsimp only
  refine (Sized.setOriginal (MGraph.start (size + 1)) G.origNodes).of_sz ?_
  rw [sz_finish, foldl_sz (sz_smallEdges _ _ _), foldl_sz (sz_smallVertex _ _)]
  rfl

theorem Sized.component {N c size : Nat} {V : Env} {G : MGraph} {lab : Nat → Nat} (h : Sized N G) : Sized N (componentGraph V G lab c size) := by
  unfold componentGraph
  split
  · exact Sized.small h.2
  · exact h.of_sz (sz_vertexSet _ _)

/-- The results of `f` have large enough arrays. -/
def KeepsSize (f : MGraph → Option MGraph) : Prop := ∀ N G R, Sized N G → f G = some R → Sized N R

theorem KeepsSize.recursive {V : Env} {c : Nat} {inner : MGraph → Option MGraph} (h : KeepsSize inner) : KeepsSize (recursive V c inner) := by
  intro N G R hG hR
  unfold RecCactus.recursive at hR
  dsimp only at hR
  obtain ⟨C, h1, hR⟩ := Option.bind_eq_some_iff.1 hR
  obtain ⟨D, h2, rfl⟩ := Option.map_eq_some_iff.1 hR
  have h0 := h N _ C ((hG.of_sz (sz_removeHeavy _ _ _ _)).of_sz (sz_cycles _ _)) h1
  exact (h0.of_sz (sz_reInsertCycles h2)).of_sz (sz_reInsertVertices _ _ _)

theorem KeepsSize.internal {V : Env} (hred : ∀ N G, Sized N G → V.okRed G = true → Sized N (V.red G)) {c : Nat} :
    ∀ fuel depth, KeepsSize (internal V c fuel depth) := by
  intro fuel
  induction fuel with
  | zero => intro depth N G R _ h; cases h
  | succ f ih =>
    intro depth N G0 R hG0 hR
    unfold RecCactus.internal at hR
    dsimp only at hR
    split at hR
    · cases hR
    next hok =>
    have hG : Sized N (if depth % 10 = 0 then V.red G0 else G0) := by
      split
      next hd =>
        refine hred N G0 hG0 ?_
        cases hb : V.okRed G0
        · exact absurd ⟨hd, hb⟩ hok
        · rfl
      · exact hG0
    generalize (if depth % 10 = 0 then V.red G0 else G0) = G at hG hR
    have hrc : KeepsSize (RecCactus.recursive V c (RecCactus.internal V c f (depth + 1))) := (ih (depth + 1)).recursive
    split at hR
    · rw [← Option.some.inj hR]; exact hG
    · obtain ⟨q, -, hR⟩ := Option.bind_eq_some_iff.1 hR
      split at hR
      · exact hrc N _ R (hG.of_sz (sz_contractEdge _ _ _)) hR
      · split at hR
        · rw [← Option.some.inj hR]; exact hG
        · split at hR
          · unfold leafCase at hR
            dsimp only at hR
            obtain ⟨r, h1, rfl⟩ := Option.map_eq_some_iff.1 hR
            have := hrc N _ r ((hG.of_sz (sz_contractEdge _ _ _)).of_sz (sz_setMembers _ _ _)) h1
            refine this.of_sz ?_
            simp
          · split at hR
            · cases hR
            · obtain ⟨ST, h1, hR⟩ := Option.bind_eq_some_iff.1 hR
              have hST := Sized.st hG.2 h1
              have : ∀ (l : List Nat) (S R : MGraph), Sized N S → l.foldlM (mergeComponent V c
                  (RecCactus.recursive V c (RecCactus.internal V c f (depth + 1))) G q.2.1 q.2.2.2) S = some R → Sized N R := by
                intro l
                induction l with
                | nil => intro S R hS hR; rw [← Option.some.inj hR]; exact hS
                | cons a l il =>
                  intro S R hS hR
                  rw [List.foldlM_cons] at hR
                  obtain ⟨S', h2, hR⟩ := Option.bind_eq_some_iff.1 hR
                  refine il S' R ?_ hR
                  unfold mergeComponent at h2
                  obtain ⟨ni, n1, h2⟩ := Option.bind_eq_some_iff.1 h2
                  obtain ⟨i, -, h2⟩ := Option.bind_eq_some_iff.1 h2
                  obtain ⟨o, -, h2⟩ := Option.bind_eq_some_iff.1 h2
                  exact hS.merge (hrc N _ ni hG.component n1) h2
              exact this _ _ _ hST hR

theorem sz_inplace (g : MGraph) (uf : UF) (ord : Nat → List Nat → List Nat) : sz (g.fromUnionFindM uf false ord).1 = sz g := by
  unfold MGraph.fromUnionFindM
  split
  · rfl
  · dsimp only
    rw [if_pos (Or.inr rfl), if_neg (by simp)]
    unfold contractVertexsets
    refine foldl_sz (fun h a => ?_) _ _
    unfold cvStep
    split <;> simp

/-- The reductions of the code do not change the sizes. -/
theorem sz_reduce (cfg : NOICfg) (ord : Nat → Nat → List Nat → List Nat) (c : Nat) (g : MGraph) : sz (AllRed.reduce cfg ord c g) = sz g := by
  unfold AllRed.reduce
  have : ∀ f lvl prev g, sz (AllRed.loop cfg ord c f lvl prev g) = sz g := by
    intro f
    induction f with
    | zero => intro _ _ g; rfl
    | succ f ih =>
      intro lvl prev g
      unfold AllRed.loop
      split
      · rw [ih]
        unfold AllRed.round
        dsimp only
        rw [sz_inplace, sz_inplace, sz_inplace]
      · rfl
  exact this _ _ _ _

theorem flowMincut_sized {V : Env} (hred : ∀ N G, Sized N G → V.okRed G = true → Sized N (V.red G)) {c fuel N : Nat} {G R : MGraph}
    (hG : Sized N G) (h : flowMincut V c fuel G = some R) : Sized N R :=
  (KeepsSize.internal hred fuel 0).recursive N G R hG h

end RecCactus
end VieCut
