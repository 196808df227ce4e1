import Mathlib.Data.List.Basic

/-!
# A reader for the GraphML files of a cactus

Written from the file format: every `<node>` and `<edge>` starts on its own line, its attributes stand between quotation marks, and the next
line holds its `<data>`.
-/

namespace VieCut
namespace CactusFile

/-- The parts of a text between the separators `q`. -/
def fields (q : Char) : List Char → List (List Char)
  | [] => [[]]
  | c :: cs => if c = q then [] :: fields q cs else
    match fields q cs with
    | f :: fs => (c :: f) :: fs
    | [] => [[c]]

/-- A decimal number. -/
def number (l : List Char) : Nat := Nat.ofDigitChars 10 l 0

/-- Numbers separated by commas. -/
def numbers (l : List Char) : List Nat := if l = [] then [] else (fields ',' l).map number

/-- The text between the first `>` and the next `<` of a line. -/
def content (l : List Char) : List Char := (fields '<' ((fields '>' l).getD 1 [])).headD []

/-- What a file says. -/
inductive Item where
  | node (id : Nat) (contained : List Nat)
  | edge (source target weight : Nat)
deriving DecidableEq

/-- The items in the lines of a file. -/
def readLines : List (List Char) → List Item
  | l1 :: l2 :: rest =>
    if (fields '"' l1).headD [] = "    <node id=".toList then
      .node (number ((fields '"' l1).getD 1 [])) (numbers (content l2)) :: readLines rest
    else if (fields '"' l1).headD [] = "    <edge id=".toList then
      .edge (number ((fields '"' l1).getD 3 [])) (number ((fields '"' l1).getD 5 [])) (number (content l2)) :: readLines rest
    else readLines (l2 :: rest)
  | _ => []

/-- The items of a file. -/
def readCactus (file : List Char) : List Item := readLines (fields '\n' file)

/-- The vertex, if the item is one. -/
def Item.asNode : Item → Option (Nat × List Nat)
  | .node p c => some (p, c)
  | .edge _ _ _ => none

/-- The edge, if the item is one: source, target, weight. -/
def Item.asEdge : Item → Option (Nat × Nat × Nat)
  | .node _ _ => none
  | .edge u v w => some (u, v, w)

/-- The vertices of a file and what they contain. -/
def nodesOf (l : List Item) : List (Nat × List Nat) := l.filterMap Item.asNode

/-- The edges of a file. -/
def edgesOf (l : List Item) : List (Nat × Nat × Nat) := l.filterMap Item.asEdge

/-- The weights of the edges of a file from `u` to `v`. -/
def weightsOf (l : List Item) (u v : Nat) : List Nat := ((edgesOf l).filter fun x => x.1 == u && x.2.1 == v).map fun x => x.2.2

/-- Total weight of the edges of a file between two vertices. -/
def fileWt (l : List Item) (u v : Nat) : Nat := (weightsOf l (min u v) (max u v)).sum

/-- The attributes `id` of the edges of a file. -/
def edgeIds (file : List Char) : List (List Char) :=
  (fields '\n' file).filterMap fun l => if (fields '"' l).headD [] = "    <edge id=".toList then some ((fields '"' l).getD 1 []) else none

end CactusFile
end VieCut
