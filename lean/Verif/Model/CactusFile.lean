import Verif.Model.GraphIO
import Verif.Model.MutableGraph

/-!
# Model of `_write_cactus_graphml_file` (cactus_mincut.h:193-243)

The file is modelled as its characters.  Opening and closing the file is left out.
-/

namespace VieCut
namespace CactusFile
open GraphIO

/-- The lines before the vertices (cactus_mincut.h:196-204). -/
def header : List (List Char) :=
  ["<?xml version=\"1.0\" encoding=\"UTF-8\"?>".toList,
   "<graphml xmlns=\"http://graphml.graphdrawing.org/xmlns\"".toList,
   "         xmlns:xsi=\"http://www.w3.org/2001/XMLSchema-instance\"".toList,
   "         xsi:schemaLocation=\"http://graphml.graphdrawing.org/xmlns http://graphml.graphdrawing.org/xmlns/1.0/graphml.xsd\">".toList,
   "  <key id=\"containedVertices\" for=\"node\" attr.name=\"containedVertices\" attr.type=\"string\"/>".toList,
   "  <key id=\"weight\" for=\"edge\" attr.name=\"weight\" attr.type=\"double\"/>".toList,
   "  <graph id=\"cactus\" edgedefault=\"undirected\">".toList]

/-- The contained vertices, separated by commas (cactus_mincut.h:215-219). -/
def commas : List Nat → List Char
  | [] => []
  | [v] => dec v
  | v :: w :: l => dec v ++ ',' :: commas (w :: l)

/-- The lines of a vertex (cactus_mincut.h:210-223). -/
def nodeLines (C : MGraph) (p : Nat) : List (List Char) :=
  ["    <node id=\"".toList ++ dec p ++ "\">".toList,
   "      <data key=\"containedVertices\">".toList ++ commas (C.cont p) ++ "</data>".toList,
   "    </node>".toList]

/-- The lines of the edge with number `e` of vertex `u` (cactus_mincut.h:228-237). -/
def edgeLines (C : MGraph) (u e : Nat) : List (List Char) :=
  if u > (C.edge u e).target then []
  else
    ["    <edge id=\"".toList ++ dec u ++ "-".toList ++ dec (C.edge u e).target ++ "-".toList ++ dec e ++ "\" source=\"".toList ++ dec u ++
      "\" target=\"".toList ++ dec (C.edge u e).target ++ "\">".toList,
     "      <data key=\"weight\">".toList ++ dec (C.edge u e).weight ++ "</data>".toList,
     "    </edge>".toList]

/-- All lines of the file. -/
def fileLines (C : MGraph) : List (List Char) :=
  header ++ (List.range C.n).flatMap (nodeLines C) ++ (List.range C.n).flatMap (fun u => (List.range (C.len u)).flatMap (edgeLines C u)) ++
    ["  </graph>".toList, "</graphml>".toList]

/-- `_write_cactus_graphml_file` (cactus_mincut.h:193-243): every line ends with a newline. -/
def writeCactus (C : MGraph) : List Char := (fileLines C).flatMap fun l => l ++ ['\n']

end CactusFile
end VieCut
