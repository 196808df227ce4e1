import Verif.Model.Convert

/-!
# Model of reading and writing graph files
(lib/io/graph_io.h: `readGraphWeighted`, `writeGraphWeighted`, `writeGraph`, `writeGraphDimacsKS`, `fast_atoi`)

A file is its list of characters.  Failures to open a file are not modelled.
-/

namespace VieCut
namespace GraphIO

/-- The lines that successive calls of `std::getline` return: a line ends with a newline or with the end of the file; at the end of
the file the call fails. -/
def readLines : List Char → List (List Char)
  | [] => []
  | c :: cs =>
    if c = '\n' then [] :: readLines cs
    else match readLines cs with
      | [] => [[c]]
      | l :: ls => (c :: l) :: ls

/-- `line[0] == '%'` (graph_io.h:152, 177). -/
def isComment (line : List Char) : Bool := line.head? == some '%'

/-- The loop of `fast_atoi` (graph_io.h:373-382) on the rest of the line, with its variable `x` (64 bits).  Returns the number and the
rest after the character that ended it; `none` if the number ended at the end of the line, so that `line_ptr` is the length of the line plus one. -/
def atoiLoop (x : Nat) : List Char → Nat × Option (List Char)
  | [] => (x, none)
  | c :: cs => if c.isDigit then atoiLoop ((x * 10 + (c.toNat - 48)) % 2 ^ 64) cs else (x, some cs)

/-- `fast_atoi` (graph_io.h:373-382). -/
def fastAtoi (cs : List Char) : Nat × Option (List Char) := atoiLoop 0 cs

/-- The loop over the entries of a line (graph_io.h:191-208) at vertex `node`; the position is the rest of the line as in `fastAtoi`.
The result lists the calls of `new_edge` (target and weight); `none`: `fast_atoi` reads behind the end of the line (undefined behaviour), or `fuel`
is used up (which does not happen if it is larger than the length of the line).  `NodeID` has 32 bits. -/
def readEntries (readEw : Bool) (node : Nat) : Nat → Option (List Char) → Option (List (Nat × Nat))
  | 0, _ => none
  | _ + 1, none => some []
  | _ + 1, some [] => some []
  | fuel + 1, some (c :: cs) =>
    let r := fastAtoi (c :: cs)
    let target := r.1 % 2 ^ 32
    if target = 0 then some []
    else if target - 1 = node then readEntries readEw node fuel r.2
    else if readEw then
      match r.2 with
      | none => none
      | some cs' =>
        let q := fastAtoi cs'
        (readEntries readEw node fuel q.2).map ((target - 1, q.1) :: ·)
    else (readEntries readEw node fuel r.2).map ((target - 1, 1) :: ·)

/-- The part of the loop body for one line that is not a comment (graph_io.h:181-208). -/
def readRow (readEw : Bool) (node : Nat) (line : List Char) : Option (List (Nat × Nat)) :=
  readEntries readEw node (line.length + 1) (some (line.dropWhile (· == ' ')))

/-- `isspace` in the C locale, without the newline. -/
def isSpace (c : Char) : Bool := c == ' ' || c == '\t' || c == '\r' || c == '\x0b' || c == '\x0c'

/-- `ss >> x` for an unsigned number: skip white space, read digits; `none` if there are none.  Signs and numbers of more than 64
bits are not modelled. -/
def extract (cs : List Char) : Option (Nat × List Char) :=
  let ds := (cs.dropWhile isSpace).takeWhile Char.isDigit
  if ds = [] then none else some (Nat.ofDigitChars 10 ds 0, (cs.dropWhile isSpace).dropWhile Char.isDigit)

/-- The header (graph_io.h:156-169): number of vertices (truncated to `NodeID`), announced number of edges, `read_ew`.
Without a number of vertices, `nmbEdges` is used uninitialised (`none`); a missing number of edges or format is read as 0. -/
def parseHeader (line : List Char) : Option (Nat × Nat × Bool) :=
  (extract line).map fun r1 =>
    match extract r1.2 with
    | none => (r1.1 % 2 ^ 32, 0, false)
    | some r2 => match extract r2.2 with
      | none => (r1.1 % 2 ^ 32, r2.1, false)
      | some r3 => (r1.1 % 2 ^ 32, r2.1, decide (r3.1 = 1 ∨ r3.1 = 11))

/-- What reading a file does: undefined behaviour; `exit(4)`; or a graph with `n` vertices for which `new_edge` was called with
the given targets and weights, vertex by vertex. -/
inductive Parsed where
  | undefined
  | exit
  | rows (n : Nat) (rows : List (List (Nat × Nat)))
deriving DecidableEq, Repr

/-- `readRow` on all lines, the vertices being counted from `node`. -/
def readRows (readEw : Bool) : Nat → List (List Char) → Option (List (List (Nat × Nat)))
  | _, [] => some []
  | node, l :: ls => (readRow readEw node l).bind fun r => (readRows readEw (node + 1) ls).map (r :: ·)

/-- `readGraphWeighted` (graph_io.h:136-231) up to the construction of the graph.  A file without a header line is not modelled (the code uses
an empty header or does not terminate).  A row behind the announced number of vertices is written out of bounds if it has
entries or is not the first such row.  The announced number of edges is only used to reserve memory and for a warning. -/
def parse (file : List Char) : Parsed :=
  match (readLines file).dropWhile isComment with
  | [] => .undefined
  | header :: body =>
    match parseHeader header with
    | none => .undefined
    | some (n, _, readEw) =>
      match readRows readEw 0 (body.filter (fun l => !isComment l)) with
      | none => .undefined
      | some rows =>
        if rows.length = n then .rows n rows
        else if rows.length ≤ n + 1 ∧ rows.drop n = List.replicate (rows.length - n) [] then .exit
        else .undefined

/-- The calls `new_node`, `new_edge` of `readGraphWeighted`. -/
def buildOps (rows : List (List (Nat × Nat))) : List CSR.Op :=
  rows.zipIdx.flatMap fun r => .newNode :: r.1.map fun e => .newEdge r.2 e.1 e.2

/-- `readGraphWeighted<graph_access>` (graph_io.h:136-231); `none`: no graph is returned. -/
def readGraphAccess (file : List Char) : Option CSR :=
  match parse file with
  | .rows n rows => some (CSR.build n (buildOps rows)).computeDegrees
  | _ => none

/-- One row of `readGraphWeighted<mutable_graph>`; an edge to a vertex that does not exist is undefined behaviour. -/
def addRow (g : Option MGraph) (r : List (Nat × Nat) × Nat) : Option MGraph :=
  r.1.foldl (fun g e => g.bind fun g => if r.2 < e.1 ∧ g.n ≤ e.1 then none else some (g.newEdge r.2 e.1 e.2)) (g.map MGraph.newNode)

/-- `readGraphWeighted<mutable_graph>` (graph_io.h:136-231); `none`: no graph is returned. -/
def readMutable (file : List Char) : Option MGraph :=
  match parse file with
  | .rows n rows => (rows.zipIdx.foldl addRow (some (MGraph.start n))).map MGraph.finishConstruction
  | _ => none

/-- `f << x` for an unsigned number. -/
def dec (x : Nat) : List Char := Nat.toDigits 10 x

/-- `writeGraphWeighted` (graph_io.h:237-252). -/
def writeWeighted (g : CSR) : List Char :=
  dec g.n ++ ' ' :: dec (g.edges.length / 2) ++ [' ', '1', '\n'] ++
  (List.range g.n).flatMap fun v => (g.adj v).flatMap (fun e => dec (e.1 + 1) ++ ' ' :: dec e.2 ++ [' ']) ++ ['\n']

/-- `writeGraph` (graph_io.h:254-269). -/
def writeUnweighted (g : CSR) : List Char :=
  dec g.n ++ ' ' :: dec (g.edges.length / 2) ++ [' ', '0', '\n'] ++
  (List.range g.n).flatMap fun v => (g.adj v).flatMap (fun e => dec (e.1 + 1) ++ [' ']) ++ ['\n']

/-- `writeGraphWeighted` for a `mutable_graph` (graph_io.h:233-235). -/
def writeMutable (g : MGraph) : Option (List Char) := g.toGraphAccess.map writeWeighted

end GraphIO
end VieCut
