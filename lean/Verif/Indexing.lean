import Verif.Numpy
import Mathlib.Data.Rat.Floor

/-
Model of `sumpf/_internal/_indexing.py` and of `sanitize_labels` in
`sumpf/_internal/_functions.py`.
-/

namespace Verif

/-- Python's `round(q)` (round half to even), on exact rationals.
Simplification: the product `i * length` of `_indexing.py:39` is computed exactly, not in binary
floating point. -/
def pyRound (q : ℚ) : Int :=
  let f := ⌊q⌋
  let r := q - f
  if r < 1/2 then f
  else if 1/2 < r then f + 1
  else if f % 2 = 0 then f else f + 1

namespace Indexing

/-- `while i < 0: i += length` of `sumpf/_internal/_indexing.py:42-43`, with a bound on the number
of iterations.  `none` means that the loop is still running.  `length` may be negative, because
`key_to_slices` calls `index` with `shape[0] - 1` (`_indexing.py:59`). -/
def loop (length : Int) : Nat → Int → Option Int
  | 0, _ => none
  | n + 1, i => if i < 0 then loop length n (i + length) else some i

/-- The loop runs forever for the start value `i`. -/
def Diverges (length i : Int) : Prop := ∀ n, loop length n i = none

/-- An index as it can be passed by the user: an integer or a float
(`_indexing.py:24-44`; iterables are mapped element by element, see `indexList`). -/
inductive Idx where
  | int (i : Int)
  | float (q : ℚ)
  deriving DecidableEq, Repr

/-- the start value of the loop (`_indexing.py:38-39`) -/
def Idx.start (length : Int) : Idx → Int
  | .int i => i
  | .float q => pyRound (q * length)

/-- `index(i, length)` (`_indexing.py:24-44`) with bounded loop. -/
def indexFuel (length : Int) (fuel : Nat) (i : Idx) : Option Int :=
  loop length fuel (i.start length)

/-- The result of `index(i, length)`, `none` if the loop does not terminate.  That this closed form
is the result of the loop is proved in `IndexingProps.lean` (`index_iff_loop`). -/
def index (length : Int) (i : Idx) : Option Int :=
  let s := i.start length
  if 0 ≤ s then some s
  else if 0 < length then some (s % length)
  else none

/-- `index` of an iterable (`_indexing.py:40-41`). -/
def indexList (length : Int) : List Idx → Option (List Int)
  | [] => some []
  | i :: l => match index length i, indexList length l with
    | some j, some js => some (j :: js)
    | _, _ => none

/-- A key for one axis: an index or a slice with optional bounds.
Simplification: the slice's step is `None`. -/
inductive Key where
  | idx (i : Idx)
  | slice (start stop : Option Idx)
  deriving DecidableEq, Repr

/-- A slice bound: floats are scaled with `index`, everything else is left as it is
(`_indexing.py:61-62`).  The outer `Option` is `none` if `index` does not terminate. -/
def boundOf (n : Nat) : Option Idx → Option (Option Int)
  | none => some none
  | some (.int i) => some (some i)
  | some (.float q) => (index n (.float q)).map some

/-- `key_to_slices(key, (n,))` for one axis of length `n` (`_indexing.py:47-62`); `none` if it does
not terminate. -/
def keyToSlice (n : Nat) : Key → Option PySlice
  | .idx (.int k) => some (.range k (k + 1))
  | .idx (.float q) => (index ((n : Int) - 1) (.float q)).map fun k => .range k (k + 1)
  | .slice a b => match boundOf n a, boundOf n b with
    | some a', some b' => some { start := a', stop := b' }
    | _, _ => none

end Indexing

/-- `sanitize_labels(labels, number)` (`sumpf/_internal/_functions.py:84-106`).  Labels are strings;
`none` is python's `None`. -/
def sanitizeLabels (labels : Option (List String)) (number : Nat) : List String :=
  match labels with
  | none => List.replicate number ""
  | some l =>
    if l.length < number then l ++ List.replicate (number - l.length) ""
    else if l.length > number then l.take number
    else l

end Verif
