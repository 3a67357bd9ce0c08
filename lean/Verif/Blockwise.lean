import Verif.Fourier
import Verif.Windows

/-
Model of the function `get_window` (`/repo/sumpf/_internal/_functions.py:46-81`) and of the block-wise Fourier transform
of signals (`/repo/sumpf/_data/_signals/_signal.py:441-501`) in exact arithmetic.
-/

namespace Verif
namespace Blockwise

open Indexing

/-- the values that can be passed as a window function. Iterables are converted to arrays by numpy. -/
inductive WindowArg where
  /-- an integer length -/
  | int (length : Nat)
  /-- an array with the given number of dimensions; the samples of arrays with one dimension are stored in the only row -/
  | array (dimensions : Nat) (samples : Mat ℝ)
  /-- a signal -/
  | signal (s : Signal ℝ ℝ)

/-- `overlap == 0` -/
def isZero : Idx → Bool
  | .int i => i = 0
  | .float q => q = 0

/-- `get_window` (`_functions.py:67-81`) -/
noncomputable def getWindow (mem : Nat → Nat → ℝ) (window : WindowArg) (overlap : Idx) (symmetric : Bool) (rate : ℝ) :
    Option (Py (Signal ℝ ℝ)) :=
  match window with
  | .int length =>
    if isZero overlap then
      (Windows.new mem Windows.rectangular "Rectangular window" (.int 0) rate length symmetric).map fun w => w.map Prod.fst
    else (Windows.new mem Windows.hanning "Hann window" (.int 0) rate length symmetric).map fun w => w.map Prod.fst
  | .array dimensions samples =>
    if dimensions = 1 then some (.ok (Signal.new samples rate 0 (some ["Window"])))
    else if dimensions = 2 then some (.ok (Signal.new samples rate 0 (some (List.replicate samples.rows "Window"))))
    else some (.error .valueError)
  | .signal s => some (.ok s)

/-! ### The segments -/

/-- a segment, that starts before the first sample of the signal (`_signal.py:464-469`) -/
noncomputable def leading (x w windowed : Mat ℝ) (i : Int) : Py (Mat ℝ) := do
  let l : Int := min (w.cols + i) x.cols
  let windowed ← windowed.assign .all (.range 0 (-i)) (.scalar 0)
  let windowed ← windowed.assign .all (.drop (l - i)) (.scalar 0)
  Mat.ufunc2 (· * ·) (x.slice .all (.range 0 l)) (w.slice .all (.range (-i) (l - i))) windowed .all (.range (-i) (l - i))

/-- a segment, that is completely inside of the signal (`_signal.py:478-480`) -/
noncomputable def inside (x w windowed : Mat ℝ) (i : Int) : Py (Mat ℝ) :=
  Mat.ufunc2 (· * ·) (x.slice .all (.range i (w.cols + i))) w windowed .all .all

/-- a segment, that ends behind the last sample of the signal (`_signal.py:488-492`) -/
noncomputable def trailing (x w windowed : Mat ℝ) (i : Int) : Py (Mat ℝ) := do
  let k : Int := x.cols - i
  let windowed ← windowed.assign .all (.drop k) (.scalar 0)
  Mat.ufunc2 (· * ·) (x.slice .all (.drop i)) (w.slice .all (.range 0 k)) windowed .all (.range 0 k)

/-- the common end of the loops' bodies, that adds the spectrum of a segment (`_signal.py:470-475`, `_signal.py:481-486`,
`_signal.py:493-498`); the array `compensated` is overwritten in each iteration, so it is modelled with arbitrary values -/
noncomputable def addSpectrum (mem : Nat → Nat → ℂ) (offset : Int) (rate resolution : ℝ) (length : Nat) (windowed : Mat ℝ)
    (channels : Mat ℂ) (i : Int) : Py (Mat ℂ) := do
  let spectrum ← windowed.rfft
  if rate = 0 then .error .zeroDivisionError
  else do
    let maxCompensation : ℂ := ((length : ℂ) - 1) * (resolution : ℂ) * (-2 * Complex.I) * (Real.pi : ℂ) *
      ((offset + i : Int) : ℂ) / (rate : ℂ)
    let compensated ← (alloc mem channels.rows channels.cols).assign .all .all (Fourier.compensation maxCompensation length)
    let compensated ← Mat.ufunc2 (· * ·) compensated spectrum compensated .all .all
    Mat.ufunc2 (· + ·) channels compensated channels .all .all

/-- one iteration of one of the loops -/
noncomputable def step (mem : Nat → Nat → ℂ) (s : Signal ℝ ℝ) (w : Mat ℝ) (resolution : ℝ) (length : Nat)
    (segment : Mat ℝ → Mat ℝ → Mat ℝ → Int → Py (Mat ℝ)) (state : Mat ℝ × Mat ℂ) (i : Int) : Py (Mat ℝ × Mat ℂ) := do
  let windowed ← segment s.channels w state.1 i
  let channels ← addSpectrum mem s.offset s.rate resolution length windowed state.2 i
  .ok (windowed, channels)

/-- the positions of the segments, that start before the first sample (`_signal.py:463`) -/
def leadingPositions (W step : Int) : List Int := pyRange (-step) (-W) (-step)

/-- the positions of the segments inside of the signal (`_signal.py:477`) -/
def insidePositions (L W step : Int) : List Int := pyRange 0 (L - W + 1) step

/-- the positions of the segments, that end behind the last sample (`_signal.py:476`, `_signal.py:488`): `i` has the value
from the last iteration of the preceding loop, or zero -/
def trailingPositions (L W step : Int) : List Int :=
  pyRange ((insidePositions L W step).getLastD 0 + step) L step

/-- the loops, that are only executed if the signal shall be padded (`_signal.py:462`, `_signal.py:487`) -/
def ifPad {α β : Type} (pad : Bool) (body : β → α → Py β) (l : List α) (state : β) : Py β :=
  if pad then pyFor body l state else .ok state

/-- the scaling factors as a column (`_signal.py:499`); the overlap is not negative, so that the computation of the
scaling factor terminates. Simplification: division by zero has the value zero. -/
noncomputable def factors (w : Mat ℝ) (overlap : Int) : Mat ℂ :=
  ⟨w.rows, 1, fun r _ => (((Windows.scalingFactor w r (.int overlap)).getD 0 : ℝ) : ℂ)⟩

/-- `Signal.__block_wise_fourier_transform` (`_signal.py:441-501`) after the call of `get_window`: the channels and the
resolution. The loop over a `range` with the step zero raises a `ValueError`. -/
noncomputable def blockwise (mem : Nat → Nat → ℂ) (mem' : Nat → Nat → ℝ) (s window : Signal ℝ ℝ) (overlap : Idx)
    (pad : Bool) : Option (Py (Mat ℂ × ℝ)) :=
  let W := window.length
  let length := W / 2 + 1
  let rows := max s.count window.count
  if s.count = 0 ∨ window.count = 0 ∨ W = 0 then
    some do
      let channels ← (alloc mem rows length).assign .all .all (.scalar 0)
      .ok (channels, window.rate / (max W 1 : Nat))
  else do
    let overlap ← index W overlap
    let resolution := window.rate / W
    let w := window.channels
    let stepSize := (W : Int) - overlap
    return do
      let channels ← (alloc mem rows length).assign .all .all (.scalar 0)
      let windowed := alloc mem' rows W
      if stepSize = 0 then .error .valueError
      else do
        let state := (windowed, channels)
        let state ← ifPad pad (step mem s w resolution length leading) (leadingPositions W stepSize) state
        let state ← pyFor (step mem s w resolution length inside) (insidePositions s.length W stepSize) state
        let state ← ifPad pad (step mem s w resolution length trailing) (trailingPositions s.length W stepSize) state
        let channels ← Mat.ufunc2 (· * ·) state.2 (factors w overlap) state.2 .all .all
        .ok (channels, resolution)

/-- `Signal.fourier_transform` with a window (`_signal.py:408-416`) -/
noncomputable def fourierTransform (mem : Nat → Nat → ℂ) (mem' : Nat → Nat → ℝ) (s : Signal ℝ ℝ) (window : WindowArg)
    (overlap : Idx) (pad : Bool) : Option (Py (Spectrum ℂ ℝ)) := do
  let w ← getWindow mem' window overlap false s.rate
  match w with
  | .error e => return .error e
  | .ok w =>
    let result ← blockwise mem mem' s w overlap pad
    return result.map fun r => Spectrum.new r.1 r.2 (some s.labels)

end Blockwise
end Verif
