import Mathlib.Data.List.Basic

/-!
# Model of the permutation helpers of `lib/tools/random_functions.h`

`std::uniform_int_distribution(a, b)(m_mt)` returns some value in `[a, b]`; the generator is an arbitrary stream of
natural numbers `r`, of which the `k`-th is reduced to the requested range (every sequence of results is obtained from
some stream).  Accesses out of range are undefined behaviour (`none`).
-/

namespace VieCut.Rand

/-- `std::uniform_int_distribution<unsigned>(lb, rb)(m_mt)` on the raw random number `x`. -/
def draw (lb rb x : Nat) : Nat := lb + x % (rb - lb + 1)

/-- `std::swap(vec[i], vec[j])`. -/
def swapAt {α : Type} (l : List α) (i j : Nat) : Option (List α) :=
  match l[i]?, l[j]? with
  | some a, some b => some ((l.set i b).set j a)
  | _, _ => none

/-- The four consecutive swaps (random_functions.h:78-81, 114-117, 141-144). -/
def swap4 {α : Type} (l : List α) (a b : Nat) : Option (List α) :=
  (swapAt l a b).bind fun l => (swapAt l (a + 1) (b + 1)).bind fun l =>
    (swapAt l (a + 2) (b + 2)).bind fun l => swapAt l (a + 3) (b + 3)

/-- `permutate_vector_good(v)` without initialisation (random_functions.h:101-119). -/
def good (r : Nat → Nat) {α : Type} (l : List α) : Option (List α) :=
  if l.length < 4 then some l
  else (List.range l.length).foldl
    (fun s i => s.bind fun s => swap4 s (draw 0 (l.length - 4) (r (2 * i))) (draw 0 (l.length - 4) (r (2 * i + 1))))
    (some l)

/-- `permutate_vector_good_small(v)` (random_functions.h:148-161). -/
def goodSmall (r : Nat → Nat) {α : Type} (l : List α) : Option (List α) :=
  if l.length < 2 then some l
  else (List.range l.length).foldl
    (fun s i => s.bind fun s => swapAt s (draw 0 (l.length - 1) (r (2 * i))) (draw 0 (l.length - 1) (r (2 * i + 1))))
    (some l)

/-- The optional initialisation `vec[i] = i`. -/
def initVec (init : Bool) (l : List Nat) : List Nat := if init then List.range l.length else l

/-- `permutate_vector_good(v, init)` (random_functions.h:121-146). -/
def goodInit (r : Nat → Nat) (init : Bool) (l : List Nat) : Option (List Nat) :=
  if l.length < 10 then goodSmall r (initVec init l)
  else (List.range l.length).foldl
    (fun s i => s.bind fun s => swap4 s (draw 0 (l.length - 4) (r (2 * i))) (draw 0 (l.length - 4) (r (2 * i + 1))))
    (some (initVec init l))

/-- `permutate_vector_fast(v, init)` (random_functions.h:61-83); `distance = 20`. -/
def fast (r : Nat → Nat) (init : Bool) (l : List Nat) : Option (List Nat) :=
  if l.length < 10 then some (initVec init l)
  else (List.range (l.length - 4)).foldl
    (fun s i => s.bind fun s => swap4 s i ((i + draw 0 20 (r i)) % (l.length - 4)))
    (some (initVec init l))

/-- `permutate_vector_local(v, init)` (random_functions.h:85-99): consecutive blocks of 128 entries are shuffled;
`σ` is the effect of `std::shuffle` on the `k`-th block. -/
def local' (σ : Nat → List Nat → List Nat) (init : Bool) (l : List Nat) : List Nat :=
  go (initVec init l).length 0 (initVec init l)
where
  /-- Remaining blocks (fuel bounds the number of blocks). -/
  go : Nat → Nat → List Nat → List Nat
    | 0, _, l => l
    | fuel + 1, k, l => if l = [] then [] else σ k (l.take 128) ++ go fuel (k + 1) (l.drop 128)

/-- `circular_permutation(v)` (random_functions.h:35-59).  The inner loop draws `posB` until it differs from `posA`;
the model takes the final value (`posA + 1 + x mod (size - 1)`, which ranges over all other positions). -/
def circular (r : Nat → Nat) (l : List Nat) : Option (List Nat) :=
  if l.length < 2 then some l
  else (List.range l.length).foldl
    (fun s i => s.bind fun s =>
      let posA := draw 0 (l.length - 1) (r (2 * i))
      let posB := (posA + 1 + r (2 * i + 1) % (l.length - 1)) % l.length
      match s[posA]?, s[posB]? with
      | some a, some b => if posA ≠ b ∧ posB ≠ a then swapAt s posA posB else some s
      | _, _ => none)
    (some (List.range l.length))

end VieCut.Rand
