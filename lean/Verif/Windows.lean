import Verif.Fade
import Verif.PyRange
import Mathlib.Algebra.BigOperators.Group.Finset.Basic
import Mathlib.Algebra.Field.Defs
import Mathlib.Analysis.SpecialFunctions.Trigonometric.Basic

/-
`sumpf.RectangularWindow`, `sumpf.HannWindow`, ... (`/repo/sumpf/_data/_signals/_windows.py`) and the function
`scaling_factor` (`/repo/sumpf/_internal/_functions.py`).
-/

namespace Verif
namespace Windows

open Indexing Finset

variable {α R : Type}

/-- the samples of a window (`_windows.py:50-67`); `function` is the method `_function` of the derived class. -/
def channels [One α] (mem : Nat → Nat → α) (function : Nat → Nat → α) (plateau : Int) (length : Nat)
    (symmetric : Bool) : Py (Mat α) :=
  let channels := alloc mem 1 length
  if plateau = 0 then
    if symmetric then channels.assign .all .all (Fade.window function length)
    else channels.assign .all .all ((Fade.window function (length + 1)).slice .all (.range 0 (-1)))
  else
    let fadeLength := ((length : Int) - plateau) / 2
    let fade := if symmetric then Fade.window function (2 * fadeLength) else Fade.window function (2 * fadeLength + 1)
    do
      let channels ← channels.assign .all (.range 0 fadeLength) (fade.slice .all (.range 0 fadeLength))
      let channels ← channels.assign .all (.range fadeLength (length - fadeLength)) (.scalar 1)
      channels.assign .all (.drop (length - fadeLength)) (fade.slice .all (.range fadeLength (2 * fadeLength)))

/-- `Window.__init__` (`_windows.py:34-68`), returns the signal and the value of `plateau()`; `none`: the computation of
the plateau's index does not terminate -/
def new [One α] (mem : Nat → Nat → α) (function : Nat → Nat → α) (label : String) (plateau : Idx) (rate : R)
    (length : Nat) (symmetric : Bool) : Option (Py (Signal α R × Int)) := do
  let plateau ← index length plateau
  return do
    let c ← channels mem function plateau length symmetric
    return (Signal.new c rate 0 (some [label]), plateau)

/-! ### The window functions of numpy -/

/-- `numpy.ones` -/
def rectangular [One α] : Nat → Nat → α := fun _ _ => 1

/-- `numpy.bartlett` -/
noncomputable def bartlett (M i : Nat) : ℝ :=
  if M = 1 then 1
  else
    let n : ℝ := 1 - M + 2 * i
    if n ≤ 0 then 1 + n / (M - 1) else 1 - n / (M - 1)

/-- `numpy.hanning` -/
noncomputable def hanning (M i : Nat) : ℝ :=
  if M = 1 then 1 else 1 / 2 + 1 / 2 * Real.cos (Real.pi * (1 - M + 2 * i) / (M - 1))

/-- `numpy.hamming` -/
noncomputable def hamming (M i : Nat) : ℝ :=
  if M = 1 then 1 else 54 / 100 + 46 / 100 * Real.cos (Real.pi * (1 - M + 2 * i) / (M - 1))

/-- `numpy.blackman` -/
noncomputable def blackman (M i : Nat) : ℝ :=
  if M = 1 then 1
  else 42 / 100 + 1 / 2 * Real.cos (Real.pi * (1 - M + 2 * i) / (M - 1))
    + 8 / 100 * Real.cos (2 * Real.pi * (1 - M + 2 * i) / (M - 1))

/-! ### The methods -/

/-- `numpy.sum` of a row -/
def rowSum [AddCommMonoid α] (A : Mat α) (r : Nat) : α := ∑ j ∈ range A.cols, A.get r j

/-- `scaling_factor` for the channel `r` of a signal: `_functions.py:109-135`, and for the first channel of a window:
`_windows.py:169-190`. `none`: the computation of the overlap does not terminate. Iterable overlaps are mapped element
by element by numpy.vectorize and not modelled. -/
def scalingFactor [Field α] (w : Mat α) (r : Nat) (overlap : Idx) : Option α := do
  let overlap ← index w.cols overlap
  let step := (w.cols : Int) - overlap
  if step = 0 then return 0
  let added := (pyRange step w.cols step).foldl (fun added shift =>
    added + rowSum (w.slice .all (.range 0 (w.cols - shift))) r + rowSum (w.slice .all (.drop shift)) r) (rowSum w r)
  return w.cols / added

/-- python's `min` of an array with one row -/
def rowMin [LinearOrder α] (A : Mat α) : Py α :=
  match (List.range A.cols).map (A.get 0) with
  | [] => .error .valueError
  | x :: l => .ok (l.foldl min x)

/-- python's `max` of an array with one row -/
def rowMax [LinearOrder α] (A : Mat α) : Py α :=
  match (List.range A.cols).map (A.get 0) with
  | [] => .error .valueError
  | x :: l => .ok (l.foldl max x)

/-- the body of the loop, that adds the overlapping windows (`_windows.py:217-219`, `_windows.py:247-249`) -/
def addShifted [Add α] (w overlapping : Mat α) (i : Int) : Py (Mat α) := do
  let overlapping ← Mat.ufunc2 (· + ·) (overlapping.slice .all (.range 0 (-i))) (w.slice .all (.drop i)) overlapping
    .all (.range 0 (-i))
  Mat.ufunc2 (· + ·) (overlapping.slice .all (.drop i)) (w.slice .all (.range 0 (-i))) overlapping .all (.drop i)

/-- the ratio, which is computed by `amplitude_flatness` for the window itself and by `power_flatness` for the squared
window (`_windows.py:205-222`, `_windows.py:236-250`), after the overlap's index has been computed -/
def flatnessOf [Field α] [LinearOrder α] (mem : Nat → Nat → α) (w : Mat α) (overlap : Int) : Py α :=
  if overlap = w.cols then return 1
  else if overlap = 0 then do
    let minimum ← rowMin w
    let maximum ← rowMax w
    return minimum / maximum
  else do
    let step := (w.cols : Int) - overlap
    let overlapping ← (alloc mem 1 w.cols).assign .all .all w
    let overlapping ← pyFor (addShifted w) (pyRange step w.cols step) overlapping
    let minimum ← rowMin overlapping
    let maximum ← rowMax overlapping
    return minimum / maximum

/-- `amplitude_flatness` (`_windows.py:192-222`) -/
def amplitudeFlatness [Field α] [LinearOrder α] (mem : Nat → Nat → α) (w : Mat α) (overlap : Idx) : Option (Py α) := do
  let overlap ← index w.cols overlap
  return flatnessOf mem w overlap

/-- `power_flatness` (`_windows.py:224-250`) -/
def powerFlatness [Field α] [LinearOrder α] (mem : Nat → Nat → α) (w : Mat α) (overlap : Idx) : Option (Py α) := do
  let overlap ← index w.cols overlap
  return flatnessOf mem (w.map fun x => x * x) overlap

/-- `overlap_correlation` (`_windows.py:252-274`) -/
def overlapCorrelation [Field α] [DecidableEq α] (w : Mat α) (overlap : Idx) : Option (Py α) := do
  let overlap ← index w.cols overlap
  return do
    let product ← Fade.binary (· * ·) (w.slice .all (.range 0 overlap)) (w.slice .all (.drop (w.cols - overlap)))
    let numerator := rowSum product 0
    let denominator := rowSum (w.map fun x => x * x) 0
    if denominator = 0 then return 1 else return numerator / denominator

end Windows
end Verif
