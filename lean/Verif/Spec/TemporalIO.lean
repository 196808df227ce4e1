import Verif.Spec.GraphIO
import Verif.Model.TemporalIO

/-!
# Files of dynamic graphs

Written from the format: an event is a line `u v t`, `u v w t`, `u v +w t` or `u v -w t` with vertices counted from 1; `%` starts a
comment.
-/

namespace VieCut
namespace TemporalIO
open GraphIO

/-- How the weight of an event is given. -/
inductive Weight where
  | none
  | plain (w : Nat)
  | plus (w : Nat)
  | minus (w : Nat)
deriving DecidableEq

/-- The weight that is meant. -/
def Weight.value : Weight → Int
  | .none => 1
  | .plain w => w
  | .plus w => w
  | .minus w => -(w : Int)

/-- The text of the weight, with the blank behind it. -/
def Weight.text : Weight → List Char
  | .none => []
  | .plain w => dec w ++ [' ']
  | .plus w => '+' :: (dec w ++ [' '])
  | .minus w => '-' :: (dec w ++ [' '])

/-- The number without its sign. -/
def Weight.abs : Weight → Nat
  | .none => 1
  | .plain w => w
  | .plus w => w
  | .minus w => w

/-- A line of a file: a comment, or an event between the vertices `u` and `v` (counted from 1) with `lead` blanks in front and
further blanks or tabulators `gap` before the third column. -/
inductive Line where
  | comment (text : List Char)
  | event (lead : Nat) (u v : Nat) (gap : List Char) (w : Weight) (t : Nat)

/-- The characters of a line. -/
def Line.text : Line → List Char
  | .comment text => '%' :: text
  | .event lead u v gap w t => List.replicate lead ' ' ++ (dec u ++ ' ' :: (dec v ++ ' ' :: (gap ++ (w.text ++ dec t))))

/-- The numbers are in the range of their types. -/
def Line.Valid : Line → Prop
  | .comment text => '\n' ∉ text
  | .event _ u v gap w t => 1 ≤ u ∧ u < 2 ^ 32 ∧ 1 ≤ v ∧ v < 2 ^ 32 ∧ (∀ c ∈ gap, c = ' ' ∨ c = '\t') ∧ w.abs < 2 ^ 63 ∧ t < 2 ^ 64

/-- The event that is meant, with vertices counted from 0. -/
def Line.meaning : Line → Option Event
  | .comment _ => Option.none
  | .event _ u v _ w t => some ⟨u - 1, v - 1, w.value, t⟩

/-- The characters of a file. -/
def fileOf (ls : List Line) : List Char := ls.flatMap fun l => l.text ++ ['\n']

/-- The events of a file, in their order. -/
def eventsOf (ls : List Line) : List Event := ls.filterMap Line.meaning

/-- A file with the header `p n m` and one line `e u v` for each edge. -/
def dimacsFile (n m : Nat) (es : List (Nat × Nat)) : List Char :=
  (['p', ' '] ++ (dec n ++ ' ' :: dec m)) ++ '\n' :: es.flatMap fun e => (['e', ' '] ++ (dec e.1 ++ ' ' :: dec e.2)) ++ ['\n']

/-- The list with its entries numbered from `k` as times: edges of weight 1. -/
def numbered (k : Nat) : List (Nat × Nat) → List Event
  | [] => []
  | e :: es => ⟨e.1 - 1, e.2 - 1, 1, k⟩ :: numbered (k + 1) es

end TemporalIO
end VieCut
