import Verif.Model.GraphIO

/-!
# Model of reading the file of a dynamic graph (lib/io/graph_io.h: `readTemporalGraph`, `readDimacs`)

A file is its list of characters.  Failures to open a file are not modelled.
-/

namespace VieCut
namespace TemporalIO
open GraphIO

/-- `std::tuple<NodeID, NodeID, int64_t, uint64_t>` (graph_io.h:43, 69). -/
structure Event where
  source : Nat
  target : Nat
  weight : Int
  time : Nat
deriving DecidableEq, Repr

/-- `NodeID source = fast_atoi(...) - 1` (graph_io.h:54-55, 91-92): 64 bits, truncated to 32. -/
def vertex (x : Nat) : Nat := if x = 0 then 2 ^ 32 - 1 else (x - 1) % 2 ^ 32

/-- Conversion of `uint64_t` to `int64_t` (graph_io.h:103, 112). -/
def toInt (x : Nat) : Int := if x < 2 ^ 63 then x else (x : Int) - 2 ^ 64

/-- One line that is not a comment (graph_io.h:85-117).  The position is the rest of the line as in `fastAtoi`; `none`: a character behind the
end of the line is read (undefined behaviour).  The negation of the smallest 64-bit number, undefined in C++, is not modelled. -/
def readEvent (line : List Char) : Option Event :=
  let a := fastAtoi (line.dropWhile (· == ' '))
  a.2.bind fun l1 =>
  let b := fastAtoi l1
  b.2.bind fun l2 =>
  match l2.dropWhile (fun c => c == ' ' || c == '\t') with
  | [] => some ⟨vertex a.1, vertex b.1, 1, 0⟩
  | c :: l3 =>
    if c = '+' ∨ c = '-' then
      let w := fastAtoi l3
      w.2.bind fun l4 => some ⟨vertex a.1, vertex b.1, if c = '-' then -toInt w.1 else toInt w.1, (fastAtoi l4).1⟩
    else
      let x := fastAtoi (c :: l3)
      match x.2 with
      | some (d :: l4) => some ⟨vertex a.1, vertex b.1, toInt x.1, (fastAtoi (d :: l4)).1⟩
      | _ => some ⟨vertex a.1, vertex b.1, 1, x.1⟩

/-- `line_ptr = 2; fast_atoi(line, &line_ptr)` (graph_io.h:47-48, 52-54); `none`: undefined behaviour. -/
def atoiFrom2 (line : List Char) : Option (Nat × Option (List Char)) :=
  if line.length < 2 then none else some (fastAtoi (line.drop 2))

/-- The loop of `readDimacs` (graph_io.h:50-64). -/
def dimacsLoop : Nat → List (List Char) → Option (List Event)
  | _, [] => some []
  | counter, line :: ls =>
    (atoiFrom2 line).bind fun a =>
    a.2.bind fun l1 =>
    let s := vertex a.1
    let t := vertex (fastAtoi l1).1
    if s < t then (dimacsLoop (counter + 1) ls).map (⟨s, t, 1, counter⟩ :: ·) else dimacsLoop counter ls

/-- `readDimacs` (graph_io.h:41-66). -/
def readDimacs (file : List Char) : Option (Nat × List Event) :=
  match readLines file with
  | [] => none
  | header :: ls => (atoiFrom2 header).bind fun a => (dimacsLoop 1 ls).map fun es => (a.1 % 2 ^ 32, es)

/-- The update of `numVtxs` (graph_io.h:119-122), 32 bits. -/
def larger (n : Nat) (e : Event) : Nat := if n ≤ max e.source e.target then (max e.source e.target + 1) % 2 ^ 32 else n

/-- The loop of `readTemporalGraph` (graph_io.h:75-127) on the lines that are left, with `numVtxs` and `edges`.  A line that starts with `p` sends
the whole file to `readDimacs`, whose result is not sorted.  The first component tells whether the result goes to `std::sort`. -/
def loop (file : List Char) : List (List Char) → Nat → List Event → Option (Bool × Nat × List Event)
  | [], n, es => some (true, n, es)
  | line :: ls, n, es =>
    if line.head? = some 'p' then (readDimacs file).map fun r => (false, r)
    else if isComment line then loop file ls n es
    else (readEvent line).bind fun e => loop file ls (larger n e) (es ++ [e])

/-- The possible results of `readTemporalGraph` (graph_io.h:68-134).  `std::sort` (graph_io.h:129-132) compares times only and leaves open
how events with the same time are ordered. -/
def Outcome (file : List Char) (n : Nat) (out : List Event) : Prop :=
  ∃ sorted es, loop file (readLines file) 0 [] = some (sorted, n, es) ∧
    if sorted then out.Perm es ∧ out.Pairwise (fun a b => a.time ≤ b.time) else out = es

end TemporalIO
end VieCut
