import Verif.Proof.GraphIO
import Verif.Props.GraphAccess

/-!
# C18, C19, C40: graph files

`C40_read_partial`: reading a METIS file returns the graph it describes.  `C18_round_trip`, `C18_unweighted`, `C18_mutable`: what was written is read
back.  `C19_unweighted_partial`: without weights, self loops are ignored; with weights they are not
(`C19_weighted_false`).
-/

namespace VieCut
namespace GraphIO
open MetisFile CSR

/-! ### Parsing -/

/-- The rows of a list of lines. -/
def rowsOf (ew : Bool) (ls : List FileLine) : List (List (Nat × Nat)) :=
  ls.filterMap fun
    | .comment _ => none
    | .vertex _ _ es _ => some (es.map fun e => (e.1, if ew then e.2 else 1))

/-- The rows without self loops. -/
def loopless (rows : List (List (Nat × Nat))) (k : Nat) : List (List (Nat × Nat)) :=
  (rows.zipIdx k).map fun r => r.1.filter (fun e => e.1 != r.2)

theorem head_joinNums {sep : Char} {trail : List Char} (ht : ∀ c ∈ trail, isSpace c = true) (l : List Nat) :
    ∀ c ∈ (joinNums sep trail l).head?, isSpace c = true ∨ c.isDigit = true := by
  intro c hc
  cases l with
  | nil => exact Or.inl (ht c (List.mem_of_mem_head? hc))
  | cons x l =>
    rw [joinNums_cons] at hc
    cases hd : dec x with
    | nil => exact absurd hd (dec_ne_nil x)
    | cons d ds =>
      rw [hd, List.cons_append, List.head?_cons, Option.mem_def, Option.some.injEq] at hc
      exact Or.inr (isDigit_of_mem_dec (x := x) (by rw [hd, ← hc]; simp))

theorem vertex_not_comment {ew : Bool} {lead : Nat} {sep : Char} {es : List (Nat × Nat)} {trail : List Char}
    (ht : ∀ c ∈ trail, isSpace c = true) : isComment (lineText ew (.vertex lead sep es trail)) = false := by
  unfold isComment lineText
  rw [beq_eq_false_iff_ne]
  intro h
  cases lead with
  | succ k => simp [List.replicate_succ] at h
  | zero =>
    dsimp only at h
    rw [List.replicate_zero, List.nil_append] at h
    rcases head_joinNums ht _ '%' h with h | h <;> revert h <;> decide

theorem readRows_lines (ew : Bool) (ls : List FileLine)
    (hsp : ∀ k s es tr, FileLine.vertex k s es tr ∈ ls → isSpace s = true ∧ ∀ c ∈ tr, isSpace c = true)
    (hfit : ∀ k s es tr, FileLine.vertex k s es tr ∈ ls → ∀ e ∈ es, e.1 + 1 < 2 ^ 32 ∧ e.2 < 2 ^ 64) : ∀ v,
    (ew = true → ∀ r ∈ (rowsOf ew ls).zipIdx v, ∀ e ∈ r.1, e.1 ≠ r.2) →
    readRows ew v ((ls.map (lineText ew)).filter (fun l => !isComment l)) = some (loopless (rowsOf ew ls) v) := by
  induction ls with
  | nil => intro v _; rfl
  | cons l ls ih =>
    intro v hl
    have ih' := ih (fun k s es tr h => hsp k s es tr (by simp [h])) (fun k s es tr h => hfit k s es tr (by simp [h]))
    cases l with
    | comment c =>
      have h1 : ((FileLine.comment c :: ls).map (lineText ew)).filter (fun l => !isComment l) =
          (ls.map (lineText ew)).filter (fun l => !isComment l) := rfl
      rw [h1]
      exact ih' v hl
    | vertex k s es tr =>
      obtain ⟨a1, a2⟩ := hsp k s es tr (by simp)
      have h1 : ((FileLine.vertex k s es tr :: ls).map (lineText ew)).filter (fun l => !isComment l) =
          lineText ew (.vertex k s es tr) :: (ls.map (lineText ew)).filter (fun l => !isComment l) := by
        rw [List.map_cons, List.filter_cons_of_pos]
        rw [vertex_not_comment a2]; rfl
      have h2 : rowsOf ew (FileLine.vertex k s es tr :: ls) = es.map (fun e => (e.1, if ew then e.2 else 1)) :: rowsOf ew ls := rfl
      rw [h2, List.zipIdx_cons] at hl
      rw [h1, readRows, readRow_line a1 a2 es (hfit k s es tr (by simp)) (fun h e he =>
        hl h (es.map (fun e => (e.1, if ew then e.2 else 1)), v) (by simp) (e.1, if ew then e.2 else 1) (List.mem_map.2 ⟨e, he, rfl⟩)), Option.bind_some,
        ih' (v + 1) (fun h r hr => hl h r (by simp [hr])), Option.map_some, h2]
      unfold loopless
      rw [List.zipIdx_cons, List.map_cons]
      congr 2
      rw [List.filter_map]
      rfl

theorem parseHeader_text {F : MetisFile} (h : F.Good) : parseHeader F.headerText = some (F.n, F.m, F.weighted) := by
  have hsp : ∀ c ∈ [' '], isSpace c = true := by decide
  have hd : ∀ (R : List Char), ∀ c ∈ (' ' :: R).head?, c.isDigit = false := by
    intro R c hc
    rw [List.head?_cons, Option.mem_def, Option.some.injEq] at hc
    rw [← hc]; rfl
  have hnil : ∀ c ∈ ([] : List Char).head?, c.isDigit = false := by intro c hc; cases hc
  unfold parseHeader headerText MetisFile.weighted
  cases hf : F.fmt with
  | none =>
    dsimp only
    have e1 := extract_dec F.n (' ' :: dec F.m ++ []) (hd _) [] (by simp)
    have e2 := extract_dec F.m [] hnil [' '] hsp
    rw [List.nil_append] at e1
    rw [List.append_assoc, e1, Option.map_some]
    have e2' : extract (' ' :: dec F.m ++ []) = some (F.m, []) := e2
    dsimp only
    rw [e2']
    simp only [Nat.mod_eq_of_lt h.small]
    rfl
  | some k =>
    dsimp only
    have e1 := extract_dec F.n (' ' :: dec F.m ++ ' ' :: dec k) (hd _) [] (by simp)
    have e2 := extract_dec F.m (' ' :: dec k) (hd _) [' '] hsp
    have e3 := extract_dec k [] hnil [' '] hsp
    rw [List.nil_append] at e1
    rw [List.append_assoc, e1, Option.map_some]
    have e2' : extract (' ' :: dec F.m ++ ' ' :: dec k) = some (F.m, ' ' :: dec k) := e2
    have e3' : extract (' ' :: dec k) = some (k, []) := by rw [← e3]; simp
    dsimp only
    rw [e2']
    dsimp only
    rw [e3']
    simp only [Nat.mod_eq_of_lt h.small]
    rcases h.fmt with h | h | h
    · rw [hf] at h; cases h
    · rw [hf, Option.some.injEq] at h; subst h; rfl
    · rw [hf, Option.some.injEq] at h; subst h; rfl

theorem newline_not_mem_joinNums {sep : Char} {trail : List Char} (hs : isSpace sep = true) (ht : ∀ c ∈ trail, isSpace c = true)
    (l : List Nat) : '\n' ∉ joinNums sep trail l := by
  induction l with
  | nil => exact fun h => ne_newline_of_space (ht _ h) rfl
  | cons x l ih =>
    rw [joinNums_cons, List.mem_append]
    rintro (h | h)
    · exact ne_newline_of_digit (isDigit_of_mem_dec h) rfl
    · unfold follow at h
      split at h
      · exact ne_newline_of_space (ht _ h) rfl
      · rcases List.mem_cons.1 h with h | h
        · exact ne_newline_of_space hs h.symm
        · exact ih h

theorem newline_not_mem_dec (x : Nat) : '\n' ∉ dec x := fun h => ne_newline_of_digit (isDigit_of_mem_dec h) rfl

theorem newline_not_mem_header (F : MetisFile) : '\n' ∉ F.headerText := by
  unfold headerText
  intro h
  rw [List.mem_append, List.mem_append, List.mem_cons] at h
  rcases h with (h | h | h) | h
  · exact newline_not_mem_dec _ h
  · revert h; decide
  · exact newline_not_mem_dec _ h
  · cases hf : F.fmt with
    | none => rw [hf] at h; cases h
    | some k =>
      rw [hf] at h
      rcases List.mem_cons.1 h with h | h
      · revert h; decide
      · exact newline_not_mem_dec _ h

/-- A file in order is read completely. -/
theorem parse_text {F : MetisFile} (h : F.Good) (hl : F.weighted = false ∨ F.NoLoops) :
    parse F.text = .rows F.n (loopless F.rows 0) := by
  have hlines : readLines F.text = F.pre.map (fun c => '%' :: c) ++ F.headerText :: F.lines.map (lineText F.weighted) := by
    unfold MetisFile.text
    rw [List.append_assoc]
    have e1 := readLines_flatMap (fun c : List Char => '%' :: c) F.pre (by
      intro c hc hm
      rcases List.mem_cons.1 hm with hm | hm
      · revert hm; decide
      · exact h.pre c hc hm) (F.headerText ++ '\n' :: F.lines.flatMap (fun l => lineText F.weighted l ++ ['\n']))
    have e2 := readLines_flatMap (lineText F.weighted) F.lines (by
      intro l hl hm
      cases l with
      | comment c =>
        rcases List.mem_cons.1 hm with hm | hm
        · revert hm; decide
        · exact h.comments c hl hm
      | vertex k s es tr =>
        obtain ⟨a1, a2⟩ := h.spaces k s es tr hl
        rcases List.mem_append.1 hm with hm | hm
        · have := (List.mem_replicate.1 hm).2; revert this; decide
        · exact newline_not_mem_joinNums a1 a2 _ hm) []
    rw [List.append_nil] at e2
    refine e1.trans ?_
    rw [readLines_line _ _ (newline_not_mem_header F), e2]
    simp [readLines]
  have hhead : isComment F.headerText = false := by
    unfold isComment headerText
    rw [beq_eq_false_iff_ne]
    cases hd : dec F.n with
    | nil => exact absurd hd (dec_ne_nil _)
    | cons c cs =>
      intro hh
      rw [List.append_assoc, List.cons_append, List.head?_cons, Option.some.injEq] at hh
      have : c.isDigit = true := isDigit_of_mem_dec (x := F.n) (by rw [hd]; simp)
      rw [hh] at this
      revert this; decide
  have hdrop : (readLines F.text).dropWhile isComment = F.headerText :: F.lines.map (lineText F.weighted) := by
    rw [hlines, List.dropWhile_append_of_pos, List.dropWhile_cons_of_neg (by rw [hhead]; simp)]
    intro c hc
    obtain ⟨d, _, rfl⟩ := List.mem_map.1 hc
    rfl
  have hrows : readRows F.weighted 0 ((F.lines.map (lineText F.weighted)).filter (fun l => !isComment l)) =
      some (loopless F.rows 0) := by
    refine readRows_lines F.weighted F.lines h.spaces h.fits 0 (fun hw r hr e he => ?_)
    rcases hl with hl | hl
    · rw [hl] at hw; cases hw
    · have h1 := List.mem_zipIdx hr
      refine hl r.2 e ?_
      unfold MetisFile.row
      rw [List.getD_eq_getElem?_getD]
      have h2 := List.mk_mem_zipIdx_iff_getElem?.1 (show (r.1, r.2) ∈ (rowsOf F.weighted F.lines).zipIdx from hr)
      have h3 : F.rows[r.2]? = some r.1 := h2
      rw [h3]; exact he
  unfold parse
  rw [hdrop]
  dsimp only
  rw [parseHeader_text h]
  dsimp only
  rw [hrows]
  dsimp only
  have hlen : (loopless F.rows 0).length = F.n := by
    unfold loopless
    rw [List.length_map, List.length_zipIdx, h.count]
  rw [if_pos hlen]

/-! ### The graph -/

theorem buildOps_spec (rows : List (List (Nat × Nat))) : ∀ k,
    (((rows.zipIdx k).flatMap fun r => Op.newNode :: r.1.map fun e => Op.newEdge r.2 e.1 e.2).filter
      (fun o => match o with | .newNode => true | _ => false)).length = rows.length ∧
    ((((rows.zipIdx k).flatMap fun r => Op.newNode :: r.1.map fun e => Op.newEdge r.2 e.1 e.2).filterMap Op.source).Pairwise (· ≤ ·)) ∧
    (∀ s ∈ ((rows.zipIdx k).flatMap fun r => Op.newNode :: r.1.map fun e => Op.newEdge r.2 e.1 e.2).filterMap Op.source,
      k ≤ s ∧ s < k + rows.length) ∧
    ∀ v, ((rows.zipIdx k).flatMap fun r => Op.newNode :: r.1.map fun e => Op.newEdge r.2 e.1 e.2).filterMap (Op.row v) =
      if k ≤ v then (rows.getD (v - k) []).filter (fun e => e.1 != v) else [] := by
  induction rows with
  | nil => intro k; simp
  | cons r rows ih =>
    intro k
    obtain ⟨a, b, c, d⟩ := ih (k + 1)
    have hf : ∀ l : List (Nat × Nat), ((l.map fun e => Op.newEdge k e.1 e.2).filter
        (fun o => match o with | .newNode => true | _ => false)) = [] := by
      intro l; rw [List.filter_eq_nil_iff]; intro o ho; obtain ⟨e, _, rfl⟩ := List.mem_map.1 ho; simp
    have hs : ∀ l : List (Nat × Nat), ∀ s ∈ (l.map fun e => Op.newEdge k e.1 e.2).filterMap Op.source, s = k := by
      intro l s hs
      obtain ⟨o, ho, hs⟩ := List.mem_filterMap.1 hs
      obtain ⟨e, _, rfl⟩ := List.mem_map.1 ho
      unfold Op.source at hs
      dsimp only at hs
      split at hs
      · cases hs
      · exact (Option.some.inj hs).symm
    have hr : ∀ (l : List (Nat × Nat)) v, (l.map fun e => Op.newEdge k e.1 e.2).filterMap (Op.row v) =
        if k = v then l.filter (fun e => e.1 != v) else [] := by
      intro l v
      induction l with
      | nil => simp
      | cons e l ih =>
        rw [List.map_cons, List.filterMap_cons, ih]
        unfold Op.row
        dsimp only
        by_cases hkv : k = v
        · by_cases he : e.1 = v
          · rw [if_neg (by simp [he])]; simp [hkv, he]
          · rw [if_pos ⟨hkv, he⟩]; simp [hkv, he]
        · rw [if_neg (by simp [hkv])]; simp [hkv]
    rw [List.zipIdx_cons, List.flatMap_cons]
    dsimp only
    refine ⟨?_, ?_, ?_, fun v => ?_⟩
    · rw [List.filter_append, List.filter_cons_of_pos (by rfl), hf, List.length_append, a]
      simp; omega
    · rw [List.filterMap_append, List.pairwise_append]
      refine ⟨?_, b, ?_⟩
      · refine List.Pairwise.imp_of_mem (R := fun _ _ => True) ?_ (List.pairwise_of_forall (fun _ _ => trivial))
        intro x y hx hy _
        have h1 := hs r x hx
        have h2 := hs r y hy
        omega
      · intro x hx y hy
        have h1 := hs r x hx
        have h2 := c y hy
        omega
    · intro s hs'
      rw [List.filterMap_append, List.mem_append] at hs'
      rw [List.length_cons]
      rcases hs' with h | h
      · have := hs r s h; omega
      · have := c s h; omega
    · rw [List.filterMap_append, d v]
      have h1 : (Op.newNode :: r.map fun e => Op.newEdge k e.1 e.2).filterMap (Op.row v) =
          (r.map fun e => Op.newEdge k e.1 e.2).filterMap (Op.row v) := rfl
      rw [h1, hr]
      by_cases hkv : k = v
      · subst hkv; simp
      · rw [if_neg hkv, List.nil_append]
        by_cases hk : k + 1 ≤ v
        · rw [if_pos hk, if_pos (by omega)]
          obtain ⟨j, hj⟩ : ∃ j, v - k = j + 1 := ⟨v - k - 1, by omega⟩
          rw [hj, show v - (k + 1) = j by omega]; rfl
        · rw [if_neg hk, if_neg (by omega)]

theorem inSourceOrder_buildOps (rows : List (List (Nat × Nat))) : InSourceOrder rows.length (buildOps rows) := by
  obtain ⟨a, b, c, -⟩ := buildOps_spec rows 0
  exact ⟨a, b, fun s hs => by have := c s hs; omega⟩

theorem computeDegrees_adj (g : CSR) (v : Nat) : g.computeDegrees.adj v = g.adj v := by
  unfold computeDegrees; split <;> rfl

theorem computeDegrees_n (g : CSR) : g.computeDegrees.n = g.n := by
  unfold computeDegrees; split <;> rfl

theorem build_n (n : Nat) (ops : List Op) : (build n ops).n = n := by
  have : ∀ (l : List Op) (g : CSR), (l.foldl Op.apply g).n = g.n := by
    intro l
    induction l with
    | nil => intro g; rfl
    | cons o l ih =>
      intro g
      rw [List.foldl_cons, ih]
      cases o with
      | newNode => rfl
      | newEdge s t w =>
        show (g.newEdge s t w).2.n = _
        unfold newEdge
        split <;> rfl
  show (ops.foldl Op.apply (start n)).n = n
  rw [this]; rfl

theorem loopless_getD (rows : List (List (Nat × Nat))) (v : Nat) :
    (loopless rows 0).getD v [] = (rows.getD v []).filter (fun e => e.1 != v) := by
  unfold loopless
  rw [List.getD_eq_getElem?_getD, List.getElem?_map, List.getElem?_zipIdx, List.getD_eq_getElem?_getD]
  cases rows[v]? <;> simp

/-- C40: a METIS file with comments anywhere, arbitrary leading and trailing white space, and one white space character between
two numbers is read as the graph it describes; self-loop entries are skipped (with edge weights there must be none).
(Missing for the full claim: vertex weights, repeated white space inside a line, weighted self loops, all of which are misread,
see below.) -/
theorem C40_read_partial (F : MetisFile) (h : F.Good) (hl : F.weighted = false ∨ F.NoLoops) :
    ∃ g, readGraphAccess F.text = some g ∧ g.n = F.n ∧ ∀ v, v < F.n → g.adj v = (F.row v).filter (fun e => e.1 != v) := by
  refine ⟨(build F.n (buildOps (loopless F.rows 0))).computeDegrees, ?_, ?_, ?_⟩
  · unfold readGraphAccess; rw [parse_text h hl]
  · rw [computeDegrees_n, build_n]
  · intro v hv
    have hlen : (loopless F.rows 0).length = F.n := by
      unfold loopless
      rw [List.length_map, List.length_zipIdx, h.count]
    have hord := inSourceOrder_buildOps (loopless F.rows 0)
    rw [hlen] at hord
    rw [computeDegrees_adj, C10_construction F.n _ hord v hv]
    obtain ⟨-, -, -, d⟩ := buildOps_spec (loopless F.rows 0) 0
    rw [show buildOps (loopless F.rows 0) = ((loopless F.rows 0).zipIdx 0).flatMap fun r => Op.newNode :: r.1.map fun e => Op.newEdge r.2 e.1 e.2 from rfl,
      d v, if_pos (Nat.zero_le _), Nat.sub_zero, loopless_getD, List.filter_filter]
    unfold MetisFile.row
    simp

/-- A missing newline at the end of the file makes no difference. -/
theorem C40_final_newline (s : List Char) (hne : s ≠ []) (h : s.getLast? ≠ some '\n') : parse (s ++ ['\n']) = parse s := by
  unfold parse; rw [readLines_final s h hne]

/-! ### C18: what was written is read back -/

/-- The file written for `g`. -/
def fileOf (g : CSR) (fmt : Nat) : MetisFile :=
  { pre := [], n := g.n, m := g.edges.length / 2, fmt := some fmt,
    lines := (List.range g.n).map fun v => .vertex 0 ' ' (g.adj v) (if g.adj v = [] then [] else [' ']) }

theorem joinNums_space (l : List Nat) (hl : l ≠ []) : joinNums ' ' [' '] l = l.flatMap (fun x => dec x ++ [' ']) := by
  induction l with
  | nil => exact absurd rfl hl
  | cons x l ih =>
    rw [joinNums_cons, List.flatMap_cons]
    unfold follow
    by_cases h : l = []
    · rw [if_pos h, h]; simp
    · rw [if_neg h, ih h]; simp

theorem lineText_written (ew : Bool) (es : List (Nat × Nat)) :
    lineText ew (.vertex 0 ' ' es (if es = [] then [] else [' '])) =
      es.flatMap (fun e => if ew then dec (e.1 + 1) ++ ' ' :: dec e.2 ++ [' '] else dec (e.1 + 1) ++ [' ']) := by
  show [] ++ joinNums ' ' _ (numbers ew es) = _
  rw [List.nil_append]
  by_cases h : es = []
  · subst h; rfl
  · have hn : numbers ew es ≠ [] := by
      cases es with
      | nil => exact absurd rfl h
      | cons e es => cases ew <;> simp [numbers]
    rw [if_neg h, joinNums_space _ hn]
    unfold numbers
    rw [List.flatMap_assoc]
    refine List.flatMap_congr fun e _ => ?_
    cases ew <;> simp

theorem writeWeighted_eq (g : CSR) : writeWeighted g = (fileOf g 1).text := by
  unfold writeWeighted MetisFile.text headerText
  show _ = [].flatMap _ ++ (dec g.n ++ ' ' :: dec (g.edges.length / 2) ++ ' ' :: dec 1) ++ '\n' :: ((List.range g.n).map _).flatMap _
  rw [List.flatMap_map, show dec 1 = ['1'] from rfl]
  simp only [List.flatMap_nil, List.nil_append, List.append_assoc, List.cons_append]
  congr 5
  simp only [List.cons.injEq, true_and]
  refine List.flatMap_congr fun v _ => ?_
  rw [lineText_written]
  simp [show (fileOf g 1).weighted = true from rfl]

theorem writeUnweighted_eq (g : CSR) : writeUnweighted g = (fileOf g 0).text := by
  unfold writeUnweighted MetisFile.text headerText
  show _ = [].flatMap _ ++ (dec g.n ++ ' ' :: dec (g.edges.length / 2) ++ ' ' :: dec 0) ++ '\n' :: ((List.range g.n).map _).flatMap _
  rw [List.flatMap_map, show dec 0 = ['0'] from rfl]
  simp only [List.flatMap_nil, List.nil_append, List.append_assoc, List.cons_append]
  congr 5
  simp only [List.cons.injEq, true_and]
  refine List.flatMap_congr fun v _ => ?_
  rw [lineText_written]
  rfl

theorem fileOf_rows (g : CSR) (fmt : Nat) :
    (fileOf g fmt).rows = (List.range g.n).map fun v => (g.adj v).map fun e => (e.1, if (fileOf g fmt).weighted then e.2 else 1) := by
  unfold MetisFile.rows
  show ((List.range g.n).map _).filterMap _ = _
  rw [List.filterMap_map]
  induction List.range g.n with
  | nil => rfl
  | cons a l ih => rw [List.map_cons, ← ih]; rfl

theorem fileOf_row (g : CSR) (fmt : Nat) {v : Nat} (hv : v < g.n) :
    (fileOf g fmt).row v = (g.adj v).map fun e => (e.1, if (fileOf g fmt).weighted then e.2 else 1) := by
  unfold MetisFile.row
  rw [fileOf_rows, List.getD_eq_getElem?_getD, List.getElem?_map, List.getElem?_range hv]
  rfl

theorem fileOf_good (g : CSR) (fmt : Nat) (hf : fmt = 0 ∨ fmt = 1) (hn : g.n < 2 ^ 32)
    (hfit : ∀ v, v < g.n → ∀ e ∈ g.adj v, e.1 + 1 < 2 ^ 32 ∧ e.2 < 2 ^ 64) : (fileOf g fmt).Good := by
  refine ⟨?_, ?_, hn, ?_, ?_, ?_, ?_⟩
  · rcases hf with rfl | rfl
    · exact Or.inr (Or.inl rfl)
    · exact Or.inr (Or.inr rfl)
  · rw [fileOf_rows]; simp [fileOf]
  · intro c hc; cases hc
  · intro c hc
    obtain ⟨v, _, h⟩ := List.mem_map.1 hc
    cases h
  · intro k s es tr h
    obtain ⟨v, _, h⟩ := List.mem_map.1 h
    cases h
    refine ⟨rfl, fun c hc => ?_⟩
    split at hc
    · cases hc
    · rw [List.mem_singleton] at hc; subst hc; rfl
  · intro k s es tr h
    obtain ⟨v, hv, h⟩ := List.mem_map.1 h
    cases h
    exact hfit v (List.mem_range.1 hv)

theorem fileOf_noLoops (g : CSR) (fmt : Nat) (hl : ∀ v, v < g.n → ∀ e ∈ g.adj v, e.1 ≠ v) : (fileOf g fmt).NoLoops := by
  intro v e he
  by_cases hv : v < g.n
  · rw [fileOf_row g fmt hv] at he
    obtain ⟨e', he', rfl⟩ := List.mem_map.1 he
    exact hl v hv e' he'
  · unfold MetisFile.row at he
    rw [fileOf_rows, List.getD_eq_getElem?_getD, List.getElem?_eq_none (by simp; omega)] at he
    cases he

/-- C18: a graph without self loops whose ids and weights fit their types is read back from the file written by
`writeGraphWeighted`: the same number of vertices and the same adjacency lists with weights. -/
theorem C18_round_trip (g : CSR) (hn : g.n < 2 ^ 32) (hl : ∀ v, v < g.n → ∀ e ∈ g.adj v, e.1 ≠ v)
    (hfit : ∀ v, v < g.n → ∀ e ∈ g.adj v, e.1 + 1 < 2 ^ 32 ∧ e.2 < 2 ^ 64) :
    ∃ g', readGraphAccess (writeWeighted g) = some g' ∧ g'.n = g.n ∧ ∀ v, v < g.n → g'.adj v = g.adj v := by
  obtain ⟨g', a, b, c⟩ := C40_read_partial (fileOf g 1) (fileOf_good g 1 (Or.inr rfl) hn hfit) (Or.inr (fileOf_noLoops g 1 hl))
  refine ⟨g', by rw [writeWeighted_eq, a], b, fun v hv => ?_⟩
  rw [c v hv, fileOf_row g 1 hv]
  have h1 : (g.adj v).map (fun e => (e.1, if (fileOf g 1).weighted then e.2 else 1)) = g.adj v := by
    conv_rhs => rw [← List.map_id (g.adj v)]
    refine List.map_congr_left fun e _ => ?_
    rfl
  rw [h1, List.filter_eq_self]
  intro e he
  simpa using hl v hv e he

/-- C18 for `writeGraph`: the adjacency lists are read back with weight 1, so a graph with unit weights is read back
unchanged. -/
theorem C18_unweighted (g : CSR) (hn : g.n < 2 ^ 32) (hl : ∀ v, v < g.n → ∀ e ∈ g.adj v, e.1 ≠ v)
    (hfit : ∀ v, v < g.n → ∀ e ∈ g.adj v, e.1 + 1 < 2 ^ 32 ∧ e.2 < 2 ^ 64) :
    ∃ g', readGraphAccess (writeUnweighted g) = some g' ∧ g'.n = g.n ∧
      (∀ v, v < g.n → g'.adj v = (g.adj v).map (fun e => (e.1, 1))) ∧
      ((∀ v, v < g.n → ∀ e ∈ g.adj v, e.2 = 1) → ∀ v, v < g.n → g'.adj v = g.adj v) := by
  obtain ⟨g', a, b, c⟩ := C40_read_partial (fileOf g 0) (fileOf_good g 0 (Or.inl rfl) hn hfit) (Or.inr (fileOf_noLoops g 0 hl))
  have hadj : ∀ v, v < g.n → g'.adj v = (g.adj v).map (fun e => (e.1, 1)) := by
    intro v hv
    rw [c v hv, fileOf_row g 0 hv]
    have h1 : (g.adj v).map (fun e => (e.1, if (fileOf g 0).weighted then e.2 else 1)) = (g.adj v).map (fun e => (e.1, 1)) := rfl
    rw [h1, List.filter_eq_self]
    intro e he
    obtain ⟨e', he', rfl⟩ := List.mem_map.1 he
    simpa using hl v hv e' he'
  refine ⟨g', by rw [writeUnweighted_eq, a], b, hadj, fun h1 v hv => ?_⟩
  rw [hadj v hv]
  conv_rhs => rw [← List.map_id (g.adj v)]
  refine List.map_congr_left fun e he => ?_
  show (e.1, 1) = e
  rw [← h1 v hv e he]

/-! ### Mutable graphs -/

theorem newEdge_lastNode (g : MGraph) (k s t w : Nat) :
    ({ g with lastNode := k } : MGraph).newEdge s t w = { g.newEdge s t w with lastNode := k } := by
  unfold MGraph.newEdge
  split <;> rfl

theorem foldNew_lastNode (E : List (Nat × Nat × Nat)) (k : Nat) : ∀ g : MGraph,
    E.foldl (fun h x => h.newEdge x.1 x.2.1 x.2.2) ({ g with lastNode := k } : MGraph) =
      { E.foldl (fun h x => h.newEdge x.1 x.2.1 x.2.2) g with lastNode := k } := by
  induction E with
  | nil => intro g; rfl
  | cons x E ih => intro g; rw [List.foldl_cons, newEdge_lastNode, ih]; rfl

theorem newEdge_n (g : MGraph) (s t w : Nat) : (g.newEdge s t w).n = g.n := by
  unfold MGraph.newEdge; split <;> rfl

theorem foldNew_n (E : List (Nat × Nat × Nat)) : ∀ g : MGraph, (E.foldl (fun h x => h.newEdge x.1 x.2.1 x.2.2) g).n = g.n := by
  induction E with
  | nil => intro g; rfl
  | cons x E ih => intro g; rw [List.foldl_cons, ih, newEdge_n]

theorem addRow_fold (i : Nat) (es : List (Nat × Nat)) : ∀ g : MGraph, (∀ e ∈ es, e.1 < g.n) →
    es.foldl (fun g e => g.bind fun g => if i < e.1 ∧ g.n ≤ e.1 then none else some (g.newEdge i e.1 e.2)) (some g) =
      some ((es.map (fun e => (i, e.1, e.2))).foldl (fun h x => h.newEdge x.1 x.2.1 x.2.2) g) := by
  induction es with
  | nil => intro g _; rfl
  | cons e es ih =>
    intro g h
    have h1 := h e (by simp)
    rw [List.foldl_cons, Option.bind_some, if_neg (by omega), ih _ (by
      intro e' he'
      rw [newEdge_n]; exact h e' (by simp [he']))]
    rfl

theorem addRows (n : Nat) (f : Nat → List (Nat × Nat)) (hf : ∀ v, v < n → ∀ e ∈ f v, e.1 < n) : ∀ k, k ≤ n →
    ((List.range k).map (fun v => (f v, v))).foldl addRow (some (MGraph.start n)) =
      some { (rowsFlat f k).foldl (fun h x => h.newEdge x.1 x.2.1 x.2.2) (MGraph.start n) with lastNode := k } := by
  intro k
  induction k with
  | zero => intro _; rfl
  | succ k ih =>
    intro hk
    rw [List.range_succ, List.map_append, List.foldl_append, ih (by omega)]
    set g := (rowsFlat f k).foldl (fun h x => h.newEdge x.1 x.2.1 x.2.2) (MGraph.start n) with hg
    have hgn : g.n = n := by rw [hg, foldNew_n]; rfl
    show addRow (some { g with lastNode := k }) (f k, k) = _
    unfold addRow
    have h1 : ({ g with lastNode := k } : MGraph).newNode = { g with lastNode := k + 1 } := by
      unfold MGraph.newNode
      rw [if_neg (by dsimp only; omega)]
    dsimp only
    rw [Option.map_some, h1, addRow_fold k (f k) _ (fun e he => by
      show e.1 < g.n
      rw [hgn]; exact hf k (by omega) e he), foldNew_lastNode, rowsFlat_succ, List.foldl_append]

theorem rowsFlat_sum (f : Nat → List (Nat × Nat)) (n : Nat) (c : Nat × Nat × Nat → Nat) :
    ((rowsFlat f n).map c).sum = ∑ u ∈ Finset.range n, ((f u).map (fun e => c (u, e.1, e.2))).sum := by
  induction n with
  | zero => rfl
  | succ n ih => rw [rowsFlat_succ, List.map_append, List.sum_append, ih, Finset.sum_range_succ, List.map_map]; rfl

/-- The weights after all rows of a well-formed graph were added to a mutable graph. -/
theorem addRows_wt {G : Graph} (hG : G.WF) {u v : Nat} (hu : u < G.n) (hv : v < G.n) :
    ((rowsFlat G.edges G.n).map (MGraph.contrib (fun t w => if t = v then w else 0) u)).sum = G.wt u v := by
  rw [rowsFlat_sum]
  have hw : ∀ a b, G.wt a b = ((G.edges a).map (fun e => if e.1 = b then e.2 else 0)).sum := by
    intro a b
    unfold Graph.wt
    generalize G.edges a = l
    induction l with
    | nil => rfl
    | cons e l ih =>
      by_cases h : e.1 = b
      · rw [List.filter_cons_of_pos (by simp [h]), List.map_cons, List.sum_cons, ih, List.map_cons, List.sum_cons, if_pos h]
      · rw [List.filter_cons_of_neg (by simp [h]), ih, List.map_cons, List.sum_cons, if_neg h, Nat.zero_add]
  rcases Nat.lt_trichotomy u v with h | h | h
  · rw [Finset.sum_eq_single u]
    · rw [hw]
      congr 1
      refine List.map_congr_left fun e _ => ?_
      unfold MGraph.contrib
      dsimp only
      repeat' split
      all_goals omega
    · intro i _ hi
      rw [List.sum_eq_zero]
      intro x hx
      obtain ⟨e, _, rfl⟩ := List.mem_map.1 hx
      unfold MGraph.contrib
      dsimp only
      repeat' split
      all_goals omega
    · intro hh; exact absurd (Finset.mem_range.2 hu) hh
  · subst h
    rw [hG.wt_self, Finset.sum_eq_zero]
    intro i _
    rw [List.sum_eq_zero]
    intro x hx
    obtain ⟨e, _, rfl⟩ := List.mem_map.1 hx
    unfold MGraph.contrib
    dsimp only
    repeat' split
    all_goals omega
  · rw [hG.symm u v hu hv, Finset.sum_eq_single v]
    · rw [hw]
      congr 1
      refine List.map_congr_left fun e _ => ?_
      unfold MGraph.contrib
      dsimp only
      repeat' split
      all_goals omega
    · intro i _ hi
      rw [List.sum_eq_zero]
      intro x hx
      obtain ⟨e, _, rfl⟩ := List.mem_map.1 hx
      unfold MGraph.contrib
      dsimp only
      repeat' split
      all_goals omega
    · intro hh; exact absurd (Finset.mem_range.2 hv) hh

/-- Reading a METIS file as a `mutable_graph`: if the file describes an undirected graph without self loops, the result is a
consistent graph with the same vertices, each containing itself, and the same total weight between every two vertices. -/
theorem C40_read_mutable_partial (F : MetisFile) (h : F.Good) (hG : Graph.WF ⟨F.rows⟩) :
    ∃ g, readMutable F.text = some g ∧ g.Consistent ∧ g.Fresh ∧ g.n = F.n ∧
      ∀ u v, u < F.n → v < F.n → g.toGraph.wt u v = Graph.wt ⟨F.rows⟩ u v := by
  have hnl : F.NoLoops := fun v e he => hG.no_loop v e he
  have hlen : (loopless F.rows 0).length = F.n := by
    unfold loopless
    rw [List.length_map, List.length_zipIdx, h.count]
  have hcnt : F.rows.length = F.n := h.count
  have hself : loopless F.rows 0 = F.rows := by
    apply List.ext_getElem?
    intro i
    by_cases hi : i < F.rows.length
    · have h1 := loopless_getD F.rows i
      have h2 : (F.rows.getD i []).filter (fun e => e.1 != i) = F.rows.getD i [] := by
        rw [List.filter_eq_self]
        intro e he
        simpa using hnl i e he
      rw [h2, List.getD_eq_getElem?_getD, List.getD_eq_getElem?_getD, List.getElem?_eq_getElem hi,
        List.getElem?_eq_getElem (by omega)] at h1
      rw [List.getElem?_eq_getElem hi, List.getElem?_eq_getElem (by omega)]
      exact congrArg some h1
    · rw [List.getElem?_eq_none (by omega), List.getElem?_eq_none (by omega)]
  have hz : F.rows.zipIdx = (List.range F.n).map (fun v => (Graph.edges ⟨F.rows⟩ v, v)) := by
    apply List.ext_getElem?
    intro i
    rw [List.getElem?_zipIdx, List.getElem?_map]
    by_cases hi : i < F.n
    · have : i < F.rows.length := by rw [h.count]; exact hi
      simp [Graph.edges, List.getD_eq_getElem?_getD, hi, this]
    · have : ¬ i < F.rows.length := by rw [h.count]; exact hi
      simp [hi, this]
  have hGn : Graph.n ⟨F.rows⟩ = F.n := h.count
  have hfold := addRows F.n (Graph.edges ⟨F.rows⟩) (fun v _ e he => by rw [← hGn]; exact hG.tgt_lt v e he) F.n (le_refl _)
  obtain ⟨b1, b2, b3, -, -, b6, -⟩ := MGraph.foldNew_spec (rowsFlat (Graph.edges ⟨F.rows⟩) F.n) (MGraph.Valid.start F.n) (by
    intro x hx
    unfold rowsFlat at hx
    obtain ⟨u, _, hx⟩ := List.mem_flatMap.1 hx
    obtain ⟨e, he, rfl⟩ := List.mem_map.1 hx
    show e.1 < F.n
    rw [← hGn]; exact hG.tgt_lt u e he)
  set g1 := (rowsFlat (Graph.edges ⟨F.rows⟩) F.n).foldl (fun h x => h.newEdge x.1 x.2.1 x.2.2) (MGraph.start F.n) with hg1
  unfold MGraph.pframe at b2
  simp only [Prod.mk.injEq] at b2
  obtain ⟨c1, c2, c3, c4, c5⟩ := b2
  refine ⟨({ g1 with lastNode := F.n } : MGraph).finishConstruction, ?_, ?_, ?_, c1, ?_⟩
  · unfold readMutable
    rw [parse_text h (Or.inr hnl), hself]
    dsimp only
    rw [hz, hfold]
    rfl
  · exact (MGraph.consistent_iff).2 ⟨b1.pv, b1.wdeg, b1.num⟩
  · refine ⟨c3.trans c1.symm, fun v hv => ?_⟩
    have hv' : v < F.n := lt_of_lt_of_eq hv c1
    constructor
    · show g1.pos v = v
      rw [c2]; rfl
    · show g1.cont v = [v]
      rw [c4]; rfl
  · intro u v hu hv
    have h1 : ({ g1 with lastNode := F.n } : MGraph).finishConstruction.toGraph.wt u v = g1.toGraph.wt u v := rfl
    rw [h1, MGraph.toGraph_wt g1 (by rw [c1]; exact hu)]
    have h2 := b3 (fun t w => if t = v then w else 0) u
    rw [← hGn, addRows_wt hG (by rw [hGn]; exact hu) (by rw [hGn]; exact hv)] at h2
    rw [hGn] at h2
    have h3 : MGraph.rowSum (MGraph.start F.n) (fun t w => if t = v then w else 0) u = 0 := by simp [MGraph.rowSum, MGraph.start]
    rw [h3, Nat.zero_add] at h2
    exact h2

/-- C18 for mutable graphs: the file written for a consistent mutable graph is read back as a mutable graph with the same vertices
and the same weight between every two vertices. -/
theorem C18_mutable (g : MGraph) (hg : g.Consistent) (hn : g.n < 2 ^ 32)
    (hfit : ∀ v, v < g.n → ∀ e ∈ g.toGraph.edges v, e.2 < 2 ^ 64) :
    ∃ t g', writeMutable g = some t ∧ readMutable t = some g' ∧ g'.Consistent ∧ g'.Fresh ∧ g'.n = g.n ∧
      ∀ u v, u < g.n → v < g.n → g'.toGraph.wt u v = g.toGraph.wt u v := by
  obtain ⟨h, a, b, c⟩ := C38_to_graph_access g hg
  have hv := (MGraph.consistent_iff).1 hg
  have hw := hv.wf
  have htl : ∀ v, v < g.n → ∀ e ∈ g.toGraph.edges v, e.1 < g.n := fun v _ e he => by
    have := hw.tgt_lt v e he
    rwa [MGraph.toGraph_n] at this
  have hrows : (⟨(fileOf h 1).rows⟩ : Graph) = g.toGraph := by
    rw [fileOf_rows]
    have : g.toGraph = ⟨(List.range g.n).map g.toGraph.edges⟩ := by
      conv_lhs => rw [show g.toGraph = ⟨g.toGraph.adj⟩ from rfl]
      congr 1
      apply List.ext_getElem?
      intro i
      rw [List.getElem?_map]
      by_cases hi : i < g.n
      · have hl : i < g.toGraph.adj.length := by
          have : g.toGraph.n = g.n := MGraph.toGraph_n g
          unfold Graph.n at this
          omega
        rw [List.getElem?_range hi]
        simp [Graph.edges, List.getD_eq_getElem?_getD, hl]
      · have hl : ¬ i < g.toGraph.adj.length := by
          have : g.toGraph.n = g.n := MGraph.toGraph_n g
          unfold Graph.n at this
          omega
        rw [List.getElem?_eq_none (by omega), List.getElem?_eq_none (by simp; omega)]
        rfl
    rw [this, b]
    congr 1
    refine List.map_congr_left fun v hv => ?_
    rw [c v (List.mem_range.1 hv)]
    conv_rhs => rw [← List.map_id (g.toGraph.edges v)]
    exact List.map_congr_left fun e _ => rfl
  have hgood : (fileOf h 1).Good := fileOf_good h 1 (Or.inr rfl) (by rw [b]; exact hn) (by
    intro v hv e he
    rw [b] at hv
    rw [c v hv] at he
    have h1 := htl v hv e he
    exact ⟨by omega, hfit v hv e he⟩)
  obtain ⟨g', d1, d2, d3, d4, d5⟩ := C40_read_mutable_partial (fileOf h 1) hgood (by rw [hrows]; exact hw)
  refine ⟨(fileOf h 1).text, g', ?_, d1, d2, d3, d4.trans b, ?_⟩
  · unfold writeMutable; rw [a, Option.map_some, writeWeighted_eq]
  · intro u v hu hv
    rw [d5 u v (by show u < h.n; omega) (by show v < h.n; omega), hrows]

/-! ### C19: self loops -/

theorem rowsOf_dropLoops (ew : Bool) (ls : List FileLine) : ∀ v,
    loopless (rowsOf ew (dropLoops v ls)) v = loopless (rowsOf ew ls) v ∧
      (rowsOf ew (dropLoops v ls)).length = (rowsOf ew ls).length := by
  induction ls with
  | nil => intro v; exact ⟨rfl, rfl⟩
  | cons l ls ih =>
    intro v
    cases l with
    | comment c => exact ih v
    | vertex k s es tr =>
      obtain ⟨i1, i2⟩ := ih (v + 1)
      have e1 : rowsOf ew (dropLoops v (.vertex k s es tr :: ls)) =
        ((es.filter (fun e => e.1 != v)).map fun e => (e.1, if ew then e.2 else 1)) :: rowsOf ew (dropLoops (v + 1) ls) := rfl
      have e2 : rowsOf ew (.vertex k s es tr :: ls) = (es.map fun e => (e.1, if ew then e.2 else 1)) :: rowsOf ew ls := rfl
      have e3 : ∀ r rs, loopless (r :: rs) v = r.filter (fun e => e.1 != v) :: loopless rs (v + 1) := fun r rs => rfl
      refine ⟨?_, by rw [e1, e2, List.length_cons, List.length_cons, i2]⟩
      rw [e1, e2, e3, e3, i1]
      congr 1
      clear e1 e2
      induction es with
      | nil => rfl
      | cons e es ih' =>
        by_cases he : e.1 = v
        · rw [List.filter_cons_of_neg (by simp [he]), ih', List.map_cons, List.filter_cons_of_neg (by simp [he])]
        · rw [List.filter_cons_of_pos (by simp [he]), List.map_cons, List.map_cons, List.filter_cons_of_pos (by simp [he]),
            List.filter_cons_of_pos (by simp [he]), ih']

theorem mem_dropLoops {l : FileLine} (ls : List FileLine) : ∀ v, l ∈ dropLoops v ls →
    (∃ c, l = .comment c ∧ .comment c ∈ ls) ∨
      ∃ k s es es' tr, l = .vertex k s es tr ∧ .vertex k s es' tr ∈ ls ∧ ∀ e ∈ es, e ∈ es' := by
  induction ls with
  | nil => intro v h; cases h
  | cons a ls ih =>
    intro v h
    cases a with
    | comment c =>
      rcases List.mem_cons.1 h with rfl | h
      · exact Or.inl ⟨c, rfl, by simp⟩
      · rcases ih v h with ⟨c, h1, h2⟩ | ⟨k, s, es, es', tr, h1, h2, h3⟩
        · exact Or.inl ⟨c, h1, by simp [h2]⟩
        · exact Or.inr ⟨k, s, es, es', tr, h1, by simp [h2], h3⟩
    | vertex k s es tr =>
      rcases List.mem_cons.1 h with rfl | h
      · exact Or.inr ⟨k, s, _, es, tr, rfl, by simp, fun e he => List.mem_of_mem_filter he⟩
      · rcases ih (v + 1) h with ⟨c, h1, h2⟩ | ⟨k, s, es, es', tr, h1, h2, h3⟩
        · exact Or.inl ⟨c, h1, by simp [h2]⟩
        · exact Or.inr ⟨k, s, es, es', tr, h1, by simp [h2], h3⟩

theorem withoutLoops_good {F : MetisFile} (h : F.Good) (m : Nat) : (F.withoutLoops m).Good := by
  refine ⟨h.fmt, ?_, h.small, h.pre, ?_, ?_, ?_⟩
  · exact ((rowsOf_dropLoops F.weighted F.lines 0).2).trans h.count
  · intro c hc
    rcases mem_dropLoops F.lines 0 hc with ⟨c', h1, h2⟩ | ⟨k, s, es, es', tr, h1, _, _⟩
    · cases h1; exact h.comments c h2
    · cases h1
  · intro k s es tr hc
    rcases mem_dropLoops F.lines 0 hc with ⟨c', h1, h2⟩ | ⟨k, s, es, es', tr, h1, h2, _⟩
    · cases h1
    · cases h1; exact h.spaces _ _ _ _ h2
  · intro k s es tr hc e he
    rcases mem_dropLoops F.lines 0 hc with ⟨c', h1, h2⟩ | ⟨k, s, es, es', tr, h1, h2, h3⟩
    · cases h1
    · cases h1; exact h.fits _ _ _ _ h2 e (h3 e he)

/-- C19 without edge weights: a file with self-loop entries is read as the file without them (whatever number of edges that file
announces), both as `graph_access` and as `mutable_graph`.  (False with edge weights: `C19_weighted_false`.) -/
theorem C19_unweighted_partial (F : MetisFile) (h : F.Good) (hw : F.weighted = false) (m : Nat) :
    readGraphAccess F.text = readGraphAccess (F.withoutLoops m).text ∧
    readMutable F.text = readMutable (F.withoutLoops m).text := by
  have hp : parse F.text = parse (F.withoutLoops m).text := by
    rw [parse_text h (Or.inl hw), parse_text (withoutLoops_good h m) (Or.inl hw)]
    have := (rowsOf_dropLoops F.weighted F.lines 0).1
    exact congrArg (Parsed.rows F.n) this.symm
  unfold readGraphAccess readMutable
  rw [hp]
  exact ⟨rfl, rfl⟩

/-- A weighted file in which vertex 0 lists itself with weight 2. -/
def loopFile : MetisFile :=
  { pre := [], n := 3, m := 2, fmt := some 1, lines := [.vertex 0 ' ' [(0, 2), (1, 3)] [' '], .vertex 0 ' ' [(0, 3)] [' '], .vertex 0 ' ' [] []] }

/-- C19 fails with edge weights: after the self loop of vertex 0, its weight 2 is taken for the next neighbour and the neighbour
for its weight, and the rest of the line is read out of step; the graph gets wrong neighbours and wrong weights.  Without the space at the end
of the line, the reader runs behind the end of the line. -/
theorem C19_weighted_false :
    loopFile.text = "3 2 1\n1 2 2 3 \n1 3 \n\n".toList ∧
    (loopFile.withoutLoops 1).text = "3 1 1\n2 3 \n1 3 \n\n".toList ∧
    parse loopFile.text = .rows 3 [[(1, 2), (2, 0)], [(0, 3)], []] ∧
    parse (loopFile.withoutLoops 1).text = .rows 3 [[(1, 3)], [(0, 3)], []] ∧
    parse "3 2 1\n1 2 2 3\n1 3\n\n".toList = .undefined ∧
    (readGraphAccess loopFile.text).map (fun g => g.adj 0) = some [(1, 2), (2, 0)] ∧
    (readGraphAccess (loopFile.withoutLoops 1).text).map (fun g => g.adj 0) = some [(1, 3)] := by
  decide +kernel

/-! ### C40: formats that are misread -/

/-- Vertex weights (format 10 or 11, which the reader accepts) are taken for neighbours. -/
theorem C40_vertex_weights_misread :
    parse "3 2 10\n3 2\n5 1 3\n7 2\n".toList = .rows 3 [[(2, 1), (1, 1)], [(4, 1), (0, 1), (2, 1)], [(6, 1), (1, 1)]] ∧
    parse "2 1 11\n7 2 3\n7 1 3\n".toList = .undefined := by
  decide +kernel

/-- Two spaces between two numbers end the line: the edge to vertex 3 is lost on one side. -/
theorem C40_double_space_misread :
    parse "3 3\n2 3\n1 3\n1 2\n".toList = .rows 3 [[(1, 1), (2, 1)], [(0, 1), (2, 1)], [(0, 1), (1, 1)]] ∧
    parse "3 3\n2  3\n1 3\n1 2\n".toList = .rows 3 [[(1, 1)], [(0, 1), (2, 1)], [(0, 1), (1, 1)]] := by
  decide +kernel

/-! ### The hypotheses are met -/

/-- A file with comments, leading and trailing white space, a tab, an isolated vertex and a self loop. -/
def sampleFile : MetisFile :=
  { pre := [" graph".toList], n := 4, m := 2, fmt := none,
    lines := [.vertex 2 ' ' [(1, 1), (2, 1), (0, 1)] [' '], .comment "x".toList, .vertex 0 '\t' [(0, 1)] ['\r'],
      .vertex 0 ' ' [(0, 1)] [], .vertex 0 ' ' [] []] }

/-- A weighted file. -/
def weightedFile : MetisFile :=
  { pre := [], n := 3, m := 2, fmt := some 1,
    lines := [.vertex 0 ' ' [(1, 50), (2, 7)] [' '], .vertex 0 ' ' [(0, 50)] [], .vertex 1 ' ' [(0, 7)] []] }

theorem good_of_check (F : MetisFile) (h1 : F.fmt = none ∨ F.fmt = some 0 ∨ F.fmt = some 1) (h2 : F.rows.length = F.n) (h3 : F.n < 2 ^ 32)
    (h4 : ∀ c ∈ F.pre, '\n' ∉ c)
    (h5 : F.lines.all (fun l => match l with
      | .comment c => !c.contains '\n'
      | .vertex _ s es tr => isSpace s && tr.all isSpace && es.all (fun e => decide (e.1 + 1 < 2 ^ 32) && decide (e.2 < 2 ^ 64))) = true) :
    F.Good := by
  rw [List.all_eq_true] at h5
  refine ⟨h1, h2, h3, h4, ?_, ?_, ?_⟩
  · intro c hc
    have := h5 _ hc
    simpa using this
  · intro k s es tr hc
    have := h5 _ hc
    simp only [Bool.and_eq_true, List.all_eq_true] at this
    exact ⟨this.1.1, this.1.2⟩
  · intro k s es tr hc e he
    have := h5 _ hc
    simp only [Bool.and_eq_true, List.all_eq_true, decide_eq_true_eq] at this
    exact this.2 e he

theorem sampleFile_good : sampleFile.Good := good_of_check _ (by decide) (by decide) (by decide) (by decide) (by decide)

theorem weightedFile_good : weightedFile.Good := good_of_check _ (by decide) (by decide) (by decide) (by decide) (by decide)

/-- `C40_read_partial`, `C19_unweighted_partial`. -/
example : sampleFile.text = "% graph\n4 2\n  2 3 1 \n%x\n1\r\n1\n\n".toList ∧ sampleFile.Good ∧ sampleFile.weighted = false ∧
    (readGraphAccess sampleFile.text).map (fun g => (g.n, (List.range 4).map g.adj)) = some (4, [[(1, 1), (2, 1)], [(0, 1)], [(0, 1)], []]) ∧
    (sampleFile.withoutLoops 2).text = "% graph\n4 2\n  2 3 \n%x\n1\r\n1\n\n".toList :=
  ⟨by decide +kernel, sampleFile_good, rfl, by decide +kernel, by decide +kernel⟩

/-- `C40_read_mutable_partial`. -/
example : weightedFile.text = "3 2 1\n2 50 3 7 \n1 50\n 1 7\n".toList ∧ weightedFile.Good ∧ Graph.WF ⟨weightedFile.rows⟩ ∧
    (readMutable weightedFile.text).map (fun g => (g.n, g.toGraph.wt 0 1, g.toGraph.wt 2 0)) = some (3, 50, 7) :=
  ⟨by decide +kernel, weightedFile_good, Graph.wf_of_check (by decide +kernel), by decide +kernel⟩

/-- `C18_round_trip`, `C18_unweighted`: the graph of `weightedFile` has three vertices and no loops. -/
example : ∃ g : CSR, g.n = 3 ∧ (∀ v, v < g.n → ∀ e ∈ g.adj v, e.1 ≠ v) ∧
    (∀ v, v < g.n → ∀ e ∈ g.adj v, e.1 + 1 < 2 ^ 32 ∧ e.2 < 2 ^ 64) ∧ g.adj 0 = [(1, 50), (2, 7)] ∧
    writeWeighted g = "3 2 1\n2 50 3 7 \n1 50 \n1 7 \n".toList ∧
    writeUnweighted g = "3 2 0\n2 3 \n1 \n1 \n".toList :=
  ⟨CSR.build 3 [.newNode, .newEdge 0 1 50, .newEdge 0 2 7, .newNode, .newEdge 1 0 50, .newNode, .newEdge 2 0 7], by decide +kernel,
    by decide +kernel, by decide +kernel, by decide +kernel, by decide +kernel, by decide +kernel⟩

/-- `C18_mutable`. -/
example : ∃ g : MGraph, g.Consistent ∧ g.n = 3 ∧ (∀ v, v < g.n → ∀ e ∈ g.toGraph.edges v, e.2 < 2 ^ 64) ∧
    writeMutable g = some "3 2 1\n2 50 3 7 \n1 50 \n1 7 \n".toList := by
  obtain ⟨g, h1, h2, -, h4, -⟩ := C40_read_mutable_partial weightedFile weightedFile_good (Graph.wf_of_check (by decide +kernel))
  have hg : g = ((readMutable weightedFile.text).getD (MGraph.start 0)) := by rw [h1]; rfl
  refine ⟨g, h2, h4, ?_, ?_⟩
  · rw [hg]; decide +kernel
  · rw [hg]; decide +kernel

end GraphIO
end VieCut
