import Verif.Model.GraphIO

/-!
# Specification: the METIS graph file format

A file consists of comment lines, a header line with the number of vertices, the number of edges and possibly a format
code (0: no weights, 1: edge weights), and then one line per vertex with its neighbours, counted from 1, each followed by the weight of the edge if the
format code says so.  Comment lines start with `%` and may stand anywhere.
-/

namespace VieCut
namespace GraphIO

/-- A line after the header: a comment, or the entries (neighbour, counted from 0, and weight) of a vertex, with `lead` leading spaces, a
white space character between two numbers, and trailing white space. -/
inductive FileLine where
  | comment (text : List Char)
  | vertex (lead : Nat) (sep : Char) (entries : List (Nat × Nat)) (trail : List Char)

/-- A METIS file. -/
structure MetisFile where
  /-- comments before the header -/
  pre : List (List Char)
  n : Nat
  m : Nat
  fmt : Option Nat
  lines : List FileLine

namespace MetisFile

/-- The numbers, separated by `sep`. -/
def joinNums (sep : Char) (trail : List Char) : List Nat → List Char
  | [] => trail
  | [x] => dec x ++ trail
  | x :: y :: l => dec x ++ sep :: joinNums sep trail (y :: l)

/-- The numbers of a vertex line. -/
def numbers (weighted : Bool) (es : List (Nat × Nat)) : List Nat :=
  es.flatMap fun e => if weighted then [e.1 + 1, e.2] else [e.1 + 1]

/-- Edge weights are present. -/
def weighted (F : MetisFile) : Bool := F.fmt == some 1

/-- The text of a line. -/
def lineText (weighted : Bool) : FileLine → List Char
  | .comment text => '%' :: text
  | .vertex lead sep es trail => List.replicate lead ' ' ++ joinNums sep trail (numbers weighted es)

/-- The text of the header. -/
def headerText (F : MetisFile) : List Char :=
  dec F.n ++ ' ' :: dec F.m ++ (match F.fmt with | none => [] | some k => ' ' :: dec k)

/-- The whole file; every line ends with a newline. -/
def text (F : MetisFile) : List Char :=
  F.pre.flatMap (fun c => '%' :: c ++ ['\n']) ++ F.headerText ++ '\n' :: F.lines.flatMap (fun l => lineText F.weighted l ++ ['\n'])

/-- The entries of the vertices in the order of the lines; without edge weights every weight is 1. -/
def rows (F : MetisFile) : List (List (Nat × Nat)) :=
  F.lines.filterMap fun
    | .comment _ => none
    | .vertex _ _ es _ => some (es.map fun e => (e.1, if F.weighted then e.2 else 1))

/-- The entries of vertex `v`. -/
def row (F : MetisFile) (v : Nat) : List (Nat × Nat) := F.rows.getD v []

/-- The file is in order: format code 0 or 1, as many vertex lines as announced, no newlines in lines, numbers that fit their
types. -/
structure Good (F : MetisFile) : Prop where
  fmt : F.fmt = none ∨ F.fmt = some 0 ∨ F.fmt = some 1
  count : F.rows.length = F.n
  small : F.n < 2 ^ 32
  pre : ∀ c ∈ F.pre, '\n' ∉ c
  comments : ∀ c, FileLine.comment c ∈ F.lines → '\n' ∉ c
  spaces : ∀ k s es tr, FileLine.vertex k s es tr ∈ F.lines → isSpace s = true ∧ ∀ c ∈ tr, isSpace c = true
  fits : ∀ k s es tr, FileLine.vertex k s es tr ∈ F.lines → ∀ e ∈ es, e.1 + 1 < 2 ^ 32 ∧ e.2 < 2 ^ 64

/-- No vertex lists itself. -/
def NoLoops (F : MetisFile) : Prop := ∀ v, ∀ e ∈ F.row v, e.1 ≠ v

/-- Remove the entries of the vertices that name the vertex itself, counting vertices from `v`. -/
def dropLoops : Nat → List FileLine → List FileLine
  | _, [] => []
  | v, .comment c :: ls => .comment c :: dropLoops v ls
  | v, .vertex k s es tr :: ls => .vertex k s (es.filter (fun e => e.1 != v)) tr :: dropLoops (v + 1) ls

/-- The file without self-loop entries (and any announced number of edges). -/
def withoutLoops (F : MetisFile) (m : Nat) : MetisFile := { F with m := m, lines := dropLoops 0 F.lines }

end MetisFile
end GraphIO
end VieCut
