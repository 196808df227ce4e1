import Verif.Proof.CactusFile

/-! # The identifiers of the edges in the file of a cactus -/

namespace VieCut
namespace CactusFile
open GraphIO

/-- The identifier in a line. -/
def lineId (l : List Char) : Option (List Char) :=
  if (fields '"' l).headD [] = "    <edge id=".toList then some ((fields '"' l).getD 1 []) else none

/-- The identifier of an edge. -/
def idOf (C : MGraph) (u e : Nat) : List Char := dec u ++ "-".toList ++ dec (C.edge u e).target ++ "-".toList ++ dec e

theorem idOf_inj {C : MGraph} {u e u' e' : Nat} (h : idOf C u e = idOf C u' e') : u = u' ∧ e = e' := by
  have key : ∀ a b d : Nat, fields '-' (dec a ++ "-".toList ++ dec b ++ "-".toList ++ dec d) = [dec a, dec b, dec d] := by
    intro a b d
    have : dec a ++ "-".toList ++ dec b ++ "-".toList ++ dec d = dec a ++ '-' :: (dec b ++ '-' :: dec d) := by simp
    rw [this, fields_append (not_mem_dec rfl a), fields_append (not_mem_dec rfl b), fields_self (not_mem_dec rfl d)]
  have h1 := congrArg (fields '-') h
  unfold idOf at h1
  rw [key, key] at h1
  simp only [List.cons.injEq, and_true] at h1
  have h2 := congrArg number h1.1
  have h3 := congrArg number h1.2.2
  rw [number_dec, number_dec] at h2 h3
  exact ⟨h2, h3⟩

theorem lineId_node (C : MGraph) (p : Nat) : (nodeLines C p).filterMap lineId = [] := by
  unfold nodeLines
  have h1 : lineId ("    <node id=\"".toList ++ dec p ++ "\">".toList) = none := by
    unfold lineId
    rw [fields_node, List.headD_cons, if_neg (by decide)]
  have h2 : ∀ t : List Char, lineId ("      <data key=\"containedVertices\">".toList ++ t ++ "</data>".toList) = none := by
    intro t
    unfold lineId
    have : "      <data key=\"containedVertices\">".toList ++ t ++ "</data>".toList =
      "      <data key=".toList ++ '"' :: ("containedVertices\">".toList ++ t ++ "</data>".toList) := by simp
    rw [this, fields_append (by decide), List.headD_cons, if_neg (by decide)]
  have h3 : lineId "    </node>".toList = none := by decide
  rw [List.filterMap_cons, h1, List.filterMap_cons, h2, List.filterMap_cons, h3]
  rfl

theorem lineId_edge (C : MGraph) (u e : Nat) :
    (edgeLines C u e).filterMap lineId = if u > (C.edge u e).target then [] else [idOf C u e] := by
  unfold edgeLines
  split
  · rfl
  · have h1 : ∀ t, lineId ("    <edge id=\"".toList ++ dec u ++ "-".toList ++ dec t ++ "-".toList ++ dec e ++
      "\" source=\"".toList ++ dec u ++ "\" target=\"".toList ++ dec t ++ "\">".toList) =
      some (dec u ++ "-".toList ++ dec t ++ "-".toList ++ dec e) := by
      intro t
      unfold lineId
      rw [fields_edge, List.headD_cons, if_pos rfl]
      rfl
    have h2 : ∀ t : List Char, lineId ("      <data key=\"weight\">".toList ++ t ++ "</data>".toList) = none := by
      intro t
      unfold lineId
      have : "      <data key=\"weight\">".toList ++ t ++ "</data>".toList =
        "      <data key=".toList ++ '"' :: ("weight\">".toList ++ t ++ "</data>".toList) := by simp
      rw [this, fields_append (by decide), List.headD_cons, if_neg (by decide)]
    have h3 : lineId "    </edge>".toList = none := by decide
    rw [List.filterMap_cons, h1, List.filterMap_cons, h2, List.filterMap_cons, h3]
    rfl

theorem edgeIds_written (C : MGraph) : edgeIds (writeCactus C) = (List.range C.n).flatMap fun u => (List.range (C.len u)).flatMap fun e =>
    if u > (C.edge u e).target then [] else [idOf C u e] := by
  show (fields '\n' (writeCactus C)).filterMap lineId = _
  unfold writeCactus
  rw [fields_lines _ (fileLines_newline C)]
  unfold fileLines
  have h0 : header.filterMap lineId = [] := by decide +kernel
  have h1 : ((List.range C.n).flatMap (nodeLines C)).filterMap lineId = [] := by
    rw [List.filterMap_flatMap]
    simp [lineId_node]
  have h2 : (["  </graph>".toList, "</graphml>".toList] ++ [[]]).filterMap lineId = [] := by decide
  generalize header = H at h0 ⊢
  generalize (["  </graph>".toList, "</graphml>".toList] : List (List Char)) = F at h2 ⊢
  rw [List.filterMap_append] at h2
  rw [List.filterMap_append, List.filterMap_append, List.filterMap_append, List.filterMap_append, List.append_assoc _ (F.filterMap lineId), h0, h1,
    h2, List.append_nil, List.nil_append, List.nil_append, List.filterMap_flatMap]
  congr 1
  funext u
  rw [List.filterMap_flatMap]
  congr 1
  funext e
  exact lineId_edge C u e

end CactusFile
end VieCut
