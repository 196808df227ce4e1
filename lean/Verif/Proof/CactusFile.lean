import Verif.Model.CactusFile
import Verif.Spec.CactusFile
import Verif.Proof.GraphIO
import Verif.Proof.CactusOps

/-!
# Reading a written cactus
-/

namespace VieCut
namespace CactusFile
open GraphIO MGraph

theorem fields_append {q : Char} {a : List Char} (h : q ∉ a) (b : List Char) : fields q (a ++ q :: b) = a :: fields q b := by
  induction a with
  | nil => simp [fields]
  | cons c a ih =>
    simp only [List.mem_cons, not_or] at h
    rw [List.cons_append, fields, if_neg (Ne.symm h.1), ih h.2]

theorem fields_self {q : Char} {a : List Char} (h : q ∉ a) : fields q a = [a] := by
  induction a with
  | nil => simp [fields]
  | cons c a ih =>
    simp only [List.mem_cons, not_or] at h
    rw [fields, if_neg (Ne.symm h.1), ih h.2]

theorem number_dec (x : Nat) : number (dec x) = x := Nat.ofDigitChars_ten_toDigits

theorem not_mem_dec {q : Char} (hq : q.isDigit = false) (x : Nat) : q ∉ dec x := fun h => by
  have := isDigit_of_mem_dec h
  rw [hq] at this
  exact Bool.noConfusion this

theorem commas_mem {q : Char} (hq : q.isDigit = false) (hc : q ≠ ',') : ∀ l, q ∉ commas l
  | [] => by simp [commas]
  | [v] => not_mem_dec hq v
  | v :: w :: l => by
    simp only [commas, List.mem_append, List.mem_cons, not_or]
    exact ⟨not_mem_dec hq v, hc, commas_mem hq hc (w :: l)⟩

theorem commas_ne : ∀ v l, commas (v :: l) ≠ []
  | v, [] => dec_ne_nil v
  | v, w :: l => by simp [commas]

theorem numbers_commas : ∀ l, numbers (commas l) = l
  | [] => by simp [commas, numbers]
  | [v] => by
    unfold numbers
    rw [if_neg (commas_ne v [])]
    show (fields ',' (dec v)).map number = [v]
    rw [fields_self (not_mem_dec rfl v)]
    simp [number_dec]
  | v :: w :: l => by
    have ih := numbers_commas (w :: l)
    unfold numbers at ih ⊢
    rw [if_neg (commas_ne _ _)] at ih ⊢
    rw [commas, fields_append (not_mem_dec rfl v), List.map_cons, ih, number_dec]

/-- A line whose data is `t`. -/
theorem content_data {p t s : List Char} (hp : '>' ∉ p) (ht : '>' ∉ t) (ht' : '<' ∉ t) (hs : '>' ∉ s) :
    content (p ++ '>' :: (t ++ '<' :: (s ++ ['>']))) = t := by
  unfold content
  rw [fields_append hp]
  have : t ++ '<' :: (s ++ ['>']) = (t ++ '<' :: s) ++ '>' :: [] := by simp
  rw [this, fields_append (by simp [ht, hs])]
  simp only [List.getD_cons_succ, List.getD_cons_zero]
  rw [fields_append ht']
  rfl

theorem content_node (l : List Nat) : content ("      <data key=\"containedVertices\">".toList ++ commas l ++ "</data>".toList) = commas l := by
  have := content_data (p := "      <data key=\"containedVertices\"".toList) (t := commas l) (s := "/data".toList) (by decide)
    (commas_mem rfl (by decide) l) (commas_mem rfl (by decide) l) (by decide)
  refine Eq.trans (congrArg content ?_) this
  simp

theorem content_edge (w : Nat) : content ("      <data key=\"weight\">".toList ++ dec w ++ "</data>".toList) = dec w := by
  have := content_data (p := "      <data key=\"weight\"".toList) (t := dec w) (s := "/data".toList) (by decide)
    (not_mem_dec rfl w) (not_mem_dec rfl w) (by decide)
  refine Eq.trans (congrArg content ?_) this
  simp

theorem fields_node (p : Nat) : fields '"' ("    <node id=\"".toList ++ dec p ++ "\">".toList) = ["    <node id=".toList, dec p, ">".toList] := by
  have : "    <node id=\"".toList ++ dec p ++ "\">".toList = "    <node id=".toList ++ '"' :: (dec p ++ '"' :: ">".toList) := by simp
  rw [this, fields_append (by decide), fields_append (not_mem_dec rfl p), fields_self (by decide)]

theorem fields_edge (u t e : Nat) : fields '"' ("    <edge id=\"".toList ++ dec u ++ "-".toList ++ dec t ++ "-".toList ++ dec e ++
      "\" source=\"".toList ++ dec u ++ "\" target=\"".toList ++ dec t ++ "\">".toList) =
    ["    <edge id=".toList, dec u ++ "-".toList ++ dec t ++ "-".toList ++ dec e, " source=".toList, dec u, " target=".toList, dec t,
      ">".toList] := by
  have : "    <edge id=\"".toList ++ dec u ++ "-".toList ++ dec t ++ "-".toList ++ dec e ++
      "\" source=\"".toList ++ dec u ++ "\" target=\"".toList ++ dec t ++ "\">".toList =
      "    <edge id=".toList ++ '"' :: ((dec u ++ "-".toList ++ dec t ++ "-".toList ++ dec e) ++ '"' :: (" source=".toList ++ '"' ::
        (dec u ++ '"' :: (" target=".toList ++ '"' :: (dec t ++ '"' :: ">".toList))))) := by simp
  rw [this, fields_append (by decide), fields_append, fields_append (by decide), fields_append (not_mem_dec rfl u), fields_append (by decide),
    fields_append (not_mem_dec rfl t), fields_self (by decide)]
  simp only [List.mem_append, not_or]
  exact ⟨⟨⟨⟨not_mem_dec rfl u, by decide⟩, not_mem_dec rfl t⟩, by decide⟩, not_mem_dec rfl e⟩

/-- A line that is not the first one of a vertex or an edge is skipped. -/
theorem readLines_skip {l : List Char} (h1 : (fields '"' l).headD [] ≠ "    <node id=".toList)
    (h2 : (fields '"' l).headD [] ≠ "    <edge id=".toList) (rest : List (List Char)) : readLines (l :: rest) = readLines rest := by
  cases rest with
  | nil => simp [readLines]
  | cons l2 rest => rw [readLines, if_neg h1, if_neg h2]

theorem readLines_node (C : MGraph) (p : Nat) (rest : List (List Char)) :
    readLines (nodeLines C p ++ rest) = .node p (C.cont p) :: readLines rest := by
  unfold nodeLines
  simp only [List.cons_append, List.nil_append]
  rw [readLines, fields_node, List.headD_cons, if_pos rfl, content_node, numbers_commas, readLines_skip (by decide) (by decide)]
  simp [number_dec]

/-- What the file says about the edge with number `e` of `u`. -/
def edgeItem (C : MGraph) (u e : Nat) : List Item :=
  if u > (C.edge u e).target then [] else [.edge u (C.edge u e).target (C.edge u e).weight]

theorem readLines_edge (C : MGraph) (u e : Nat) (rest : List (List Char)) :
    readLines (edgeLines C u e ++ rest) = edgeItem C u e ++ readLines rest := by
  unfold edgeLines edgeItem
  split
  · rfl
  · simp only [List.cons_append, List.nil_append]
    rw [readLines, fields_edge, List.headD_cons, if_neg (by decide), if_pos rfl, content_edge, readLines_skip (by decide) (by decide)]
    simp [number_dec]

theorem readLines_nodes (C : MGraph) (l : List Nat) (rest : List (List Char)) :
    readLines (l.flatMap (nodeLines C) ++ rest) = l.map (fun p => .node p (C.cont p)) ++ readLines rest := by
  induction l with
  | nil => rfl
  | cons p l ih => rw [List.flatMap_cons, List.append_assoc, readLines_node, ih]; rfl

theorem readLines_row (C : MGraph) (u : Nat) (l : List Nat) (rest : List (List Char)) :
    readLines (l.flatMap (edgeLines C u) ++ rest) = l.flatMap (edgeItem C u) ++ readLines rest := by
  induction l with
  | nil => rfl
  | cons e l ih => rw [List.flatMap_cons, List.append_assoc, readLines_edge, ih, List.flatMap_cons, List.append_assoc]

theorem readLines_edges (C : MGraph) (l : List Nat) (rest : List (List Char)) :
    readLines (l.flatMap (fun u => (List.range (C.len u)).flatMap (edgeLines C u)) ++ rest) =
      l.flatMap (fun u => (List.range (C.len u)).flatMap (edgeItem C u)) ++ readLines rest := by
  induction l with
  | nil => rfl
  | cons u l ih => rw [List.flatMap_cons, List.append_assoc, readLines_row, ih, List.flatMap_cons, List.append_assoc]

theorem readLines_header (rest : List (List Char)) : readLines (header ++ rest) = readLines rest := by
  unfold header
  simp only [List.cons_append, List.nil_append]
  repeat rw [readLines_skip (by decide +kernel) (by decide +kernel)]

theorem fields_lines (L : List (List Char)) (h : ∀ l ∈ L, '\n' ∉ l) : fields '\n' (L.flatMap fun l => l ++ ['\n']) = L ++ [[]] := by
  induction L with
  | nil => rfl
  | cons l L ih =>
    rw [List.flatMap_cons, List.append_assoc, List.singleton_append, fields_append (h l (by simp)), ih fun x hx => h x (by simp [hx])]
    rfl

theorem fileLines_newline (C : MGraph) : ∀ l ∈ fileLines C, '\n' ∉ l := by
  intro l hl
  have hd : ∀ x, '\n' ∉ dec x := not_mem_dec rfl
  unfold fileLines at hl
  simp only [List.mem_append, List.mem_flatMap, List.mem_range] at hl
  rcases hl with ((hl | ⟨p, -, hl⟩) | ⟨u, -, e, -, hl⟩) | hl
  · have : ∀ l ∈ header, '\n' ∉ l := by decide +kernel
    exact this l hl
  · unfold nodeLines at hl
    simp only [List.mem_cons, List.not_mem_nil, or_false] at hl
    rcases hl with rfl | rfl | rfl
    · simp only [List.mem_append, not_or]
      exact ⟨⟨by decide, hd p⟩, by decide⟩
    · simp only [List.mem_append, not_or]
      exact ⟨⟨by decide, commas_mem rfl (by decide) _⟩, by decide⟩
    · decide
  · unfold edgeLines at hl
    split at hl
    · simp at hl
    · simp only [List.mem_cons, List.not_mem_nil, or_false] at hl
      rcases hl with rfl | rfl | rfl
      · simp only [List.mem_append, not_or]
        exact ⟨⟨⟨⟨⟨⟨⟨⟨⟨⟨by decide, hd _⟩, by decide⟩, hd _⟩, by decide⟩, hd _⟩, by decide⟩, hd _⟩, by decide⟩, hd _⟩, by decide⟩
      · simp only [List.mem_append, not_or]
        exact ⟨⟨by decide, hd _⟩, by decide⟩
      · decide
  · simp only [List.mem_cons, List.not_mem_nil, or_false] at hl
    rcases hl with rfl | rfl <;> decide

/-- What the written file says. -/
theorem read_written (C : MGraph) : readCactus (writeCactus C) =
    (List.range C.n).map (fun p => .node p (C.cont p)) ++ (List.range C.n).flatMap (fun u => (List.range (C.len u)).flatMap (edgeItem C u)) := by
  unfold readCactus writeCactus
  rw [fields_lines _ (fileLines_newline C)]
  unfold fileLines
  rw [List.append_assoc, List.append_assoc, List.append_assoc, readLines_header, readLines_nodes, readLines_edges]
  rw [List.cons_append, readLines_skip (by decide) (by decide), List.cons_append, readLines_skip (by decide) (by decide)]
  simp [readLines]

theorem nodesOf_written (C : MGraph) : nodesOf (readCactus (writeCactus C)) = (List.range C.n).map fun p => (p, C.cont p) := by
  rw [read_written]
  unfold nodesOf
  rw [List.filterMap_append, List.filterMap_map]
  have : ((List.range C.n).flatMap fun u => (List.range (C.len u)).flatMap (edgeItem C u)).filterMap Item.asNode = [] := by
    rw [List.filterMap_eq_nil_iff]
    intro x hx
    simp only [List.mem_flatMap] at hx
    obtain ⟨u, -, e, -, hx⟩ := hx
    unfold edgeItem at hx
    split at hx
    · simp at hx
    · rw [List.mem_singleton.1 hx]; rfl
  rw [this, List.append_nil]
  rw [← List.filterMap_eq_map]
  rfl

theorem edgesOf_written (C : MGraph) : edgesOf (readCactus (writeCactus C)) =
    (List.range C.n).flatMap fun u => (List.range (C.len u)).flatMap fun e =>
      if u > (C.edge u e).target then [] else [(u, (C.edge u e).target, (C.edge u e).weight)] := by
  rw [read_written]
  unfold edgesOf
  rw [List.filterMap_append, List.filterMap_map, List.filterMap_flatMap]
  have : (List.range C.n).filterMap (Item.asEdge ∘ fun p => Item.node p (C.cont p)) = [] := by
    rw [List.filterMap_eq_nil_iff]
    intro x _
    rfl
  rw [this, List.nil_append]
  congr 1
  funext u
  rw [List.filterMap_flatMap]
  congr 1
  funext e
  unfold edgeItem
  split <;> rfl

theorem sum_flatMap_range (n : Nat) (f : Nat → List Nat) : ((List.range n).flatMap f).sum = ∑ i ∈ Finset.range n, (f i).sum := by
  induction n with
  | zero => rfl
  | succ n ih => rw [List.range_succ, List.flatMap_append, List.sum_append, ih, Finset.sum_range_succ]; simp

theorem sum_filter_map {α : Type} (p : α → Bool) (f : α → Nat) (l : List α) :
    ((l.filter p).map f).sum = (l.map fun x => if p x = true then f x else 0).sum := by
  induction l with
  | nil => rfl
  | cons a l ih =>
    rw [List.filter_cons]
    split
    next h => rw [List.map_cons, List.sum_cons, List.map_cons, List.sum_cons, ih, if_pos h]
    next h => rw [List.map_cons, List.sum_cons, ih, if_neg h, Nat.zero_add]

/-- A sum over the edges of the file between two vertices is one over the edges of the graph. -/
theorem written_sum {C : MGraph} {u v : Nat} (hu : u < C.n) (huv : u < v) (f : Nat → Nat) :
    ((((edgesOf (readCactus (writeCactus C))).filter fun x => x.1 == u && x.2.1 == v)).map fun x => f x.2.2).sum =
      ∑ e ∈ Finset.range (C.len u), if (C.edge u e).target = v then f (C.edge u e).weight else 0 := by
  rw [edgesOf_written, sum_filter_map, List.map_flatMap, sum_flatMap_range, Finset.sum_eq_single u]
  · rw [List.map_flatMap, sum_flatMap_range]
    refine Finset.sum_congr rfl fun e _ => ?_
    by_cases ht : (C.edge u e).target = v
    · rw [if_pos ht, if_neg (by omega)]
      simp [ht]
    · rw [if_neg ht]
      split <;> simp [ht]
  · intro a _ ha
    rw [List.map_flatMap, sum_flatMap_range]
    refine Finset.sum_eq_zero fun e _ => ?_
    split <;> simp [ha]
  · intro h
    exact absurd (Finset.mem_range.2 hu) h

end CactusFile
end VieCut
