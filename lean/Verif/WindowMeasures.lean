import Verif.Windows
import Verif.Fft
import Mathlib.Analysis.SpecialFunctions.Sqrt

/-
The measures of windows, that are computed with their spectrum (`/repo/sumpf/_data/_signals/_windows.py:85-148`), and the
recommended overlap (`_windows.py:150-167`). The samples are exact real numbers. The argument `w` is the array with the
only channel of the window.
-/

namespace Verif
namespace Windows

open Indexing

/-- the window with appended zeros, `_windows.py:106-108`, `_windows.py:139-141` -/
def padded (mem : Nat → Nat → ℝ) (w : Mat ℝ) (factor : Nat) : Py (Mat ℝ) := do
  let channel ← (alloc mem 1 (factor * w.cols)).assign .all (.range 0 w.cols) w
  channel.assign .all (.drop w.cols) (.scalar 0)

/-- the loop over the magnitudes, `_windows.py:114-116`: the loop variables after the loop -/
noncomputable def crossing (threshold : ℝ) : Nat → Nat × ℝ → List ℝ → Nat × ℝ
  | _, result, [] => result
  | i, _, m :: l => if m < threshold then (i, m) else crossing threshold (i + 1) (i, m) l

/-- `bandwidth` (`_windows.py:85-121`). `none`: the division by zero returns a NaN or an infinite value. The magnitudes
are absolute values, so that the repeated `abs` in the lines 117 and 118 does nothing. Simplification: the oversampling is
a natural number. -/
noncomputable def bandwidth (mem : Nat → Nat → ℝ) (w : Mat ℝ) (rate : ℝ) (oversampling : Nat) : Py (Option ℝ) := do
  let channel ← padded mem w oversampling
  let spectrum ← channel.rfft
  let magnitude : Nat → ℝ := fun k => ‖spectrum.get 0 k‖
  let threshold := magnitude 0 / Real.sqrt 2
  let (i, m) := crossing threshold 0 (0, 0) ((List.range (spectrum.cols - 1)).map fun k => magnitude (k + 1))
  let y2 := |m|
  let y1 := |magnitude i|
  let duration := (w.cols : ℝ) / rate
  if y2 - y1 = 0 then return none
  let frequencyBin := 2 * (i + (threshold - y1) / (y2 - y1))
  let resolution := 1 / duration / oversampling
  return some (frequencyBin * resolution)

/-- `scalloping_loss` (`_windows.py:123-148`). The spectrum has more than one bin, because the padded window has at least
two samples. -/
noncomputable def scallopingLoss (mem : Nat → Nat → ℝ) (w : Mat ℝ) : Py ℝ := do
  let channel ← padded mem w 2
  let spectrum ← channel.rfft
  return ‖spectrum.get 0 1 / spectrum.get 0 0‖

/-- `numpy.argmax` of a list after its first element: the index of the first maximum -/
def argmaxFrom [LinearOrder α] : Nat → Nat × α → List α → Nat
  | _, best, [] => best.1
  | i, best, x :: l => argmaxFrom (i + 1) (if best.2 < x then (i, x) else best) l

/-- `numpy.argmax`, which raises a `ValueError` for empty arrays -/
def argmax [LinearOrder α] : List α → Py Nat
  | [] => .error .valueError
  | x :: l => .ok (argmaxFrom 1 (0, x) l)

/-- `recommended_overlap` (`_windows.py:150-167`). The methods are called for every overlap by `numpy.vectorize`. `none`:
the computation of an overlap's index does not terminate. -/
def recommendedOverlap [Field α] [LinearOrder α] (mem : Nat → Nat → α) (w : Mat α) : Option (Py Nat) := do
  let overlap := List.range w.cols
  let af ← overlap.mapM fun (o : Nat) => amplitudeFlatness mem w (.int o)
  let oc ← overlap.mapM fun (o : Nat) => overlapCorrelation w (.int o)
  return do
    let af ← af.mapM id
    let oc ← oc.mapM id
    argmax (List.zipWith (· - ·) af oc)

end Windows
end Verif
