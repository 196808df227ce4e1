import Verif.Model.GraphIO
import Mathlib.Logic.Function.Iterate

/-!
# Model of reading and writing vectors (lib/io/graph_io.h: `readVector`, `writeVector`)

A file is its list of characters.  Failures to open a file are not modelled.
-/

namespace VieCut
namespace VectorIO
open GraphIO

/-- `std::getline` (used in graph_io.h:347, 355): the line, the rest of the file and whether the end of the file has been hit. -/
def getline (file : List Char) : List Char × List Char × Bool :=
  match file.dropWhile (· ≠ '\n') with
  | [] => (file.takeWhile (· ≠ '\n'), [], true)
  | _ :: rest => (file.takeWhile (· ≠ '\n'), rest, false)

/-- The nearest number that a `double` can have, for whole numbers; of two nearest ones that with an even significand. -/
def toDouble (x : Nat) : Nat :=
  if x < 2 ^ 53 then x
  else
    let u := 2 ^ (Nat.log2 x - 52)
    let q := x / u
    let r := x % u
    if 2 * r < u ∨ (2 * r = u ∧ q % 2 = 0) then q * u else (q + 1) * u

/-- `(vectortype)atof(line.c_str())` (graph_io.h:353).  Lines of digits are modelled; `other` stands for the results of all
other lines.  Results that do not fit into `vectortype` are undefined in C++; this is not modelled. -/
def value (other : List Char → Nat) (line : List Char) : Nat :=
  if line ≠ [] ∧ line.all Char.isDigit then toDouble (Nat.ofDigitChars 10 line 0) else other line

/-- Local variables of `readVector` (graph_io.h:338-341); `eof` is `instream.eof()`. -/
structure Reader where
  line : List Char
  rest : List Char
  eof : Bool
  vec : List Nat

/-- Reading a line (graph_io.h:347, 355). -/
def Reader.next (s : Reader) : Reader :=
  { s with line := (getline s.rest).1, rest := (getline s.rest).2.1, eof := (getline s.rest).2.2 }

/-- One iteration of the loop (graph_io.h:348-356); no change after its end.  A comment is followed by `continue`. -/
def step (other : List Char → Nat) (s : Reader) : Reader :=
  if s.eof then s
  else if isComment s.line then s
  else { s with vec := s.vec ++ [value other s.line] }.next

/-- The state after at most `N` iterations of the loop of `readVector` (graph_io.h:337-360). -/
def read (other : List Char → Nat) (N : Nat) (file : List Char) : Reader :=
  (step other)^[N] (Reader.next { line := [], rest := file, eof := false, vec := [] })

/-- `writeVector` (graph_io.h:363-369) for vectors with less than 2^32 entries. -/
def write (vec : List Nat) : List Char := vec.flatMap fun x => dec x ++ ['\n']

end VectorIO
end VieCut
