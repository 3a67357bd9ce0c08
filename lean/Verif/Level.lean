import Verif.Convolution
import Verif.Sweep

/-
Model of the methods `level` and `level_vs_time` of the class `Signal` (`/repo/sumpf/_data/_signals/_signal.py:573-659`) with
real numbers instead of floats.
-/

namespace Verif
namespace Level

open Finset

/-- `abs(signal)` (`_signal.py:168-177`) -/
noncomputable def absolute (s : Signal ℝ ℝ) : Signal ℝ ℝ :=
  Signal.new ⟨s.channels.rows, s.channels.cols, fun c i => |s.channels.get c i|⟩ s.rate s.offset (some s.labels)

/-- `numpy.linalg.norm(channels, axis=1)[c]` -/
noncomputable def norm (A : Mat ℝ) (c : Nat) : ℝ := Real.sqrt (∑ i ∈ range A.cols, A.get c i ^ 2)

/-- `signal.level()[c]` (`_signal.py:573-586`). Simplification: the level of a signal without samples is NaN in the code. -/
noncomputable def level (s : Signal ℝ ℝ) (c : Nat) : ℝ := norm s.channels c / Real.sqrt s.length

/-- `numpy.linalg.norm(channels)` -/
noncomputable def totalNorm (A : Mat ℝ) : ℝ := Real.sqrt (∑ c ∈ range A.rows, ∑ i ∈ range A.cols, A.get c i ^ 2)

/-- `signal.level(single_value=True)` (`_signal.py:583-584`); the division of numpy does not raise an exception, so the same
simplification is made as above. -/
noncomputable def totalLevel (s : Signal ℝ ℝ) : ℝ := totalNorm s.channels / Real.sqrt (s.count * s.length)

/-- the window for the average (`_signal.py:620-625`) -/
noncomputable def window (w hf : ℝ) (h : Nat) : Mat ℝ :=
  let remainder := (h : ℝ) - hf
  ⟨1, 1 + 2 * h, fun _ i => if remainder ≠ 0 ∧ (i = 0 ∨ i = 2 * h) then remainder / w else 1 / w⟩

/-- `numpy.linspace(1 + half_window_length_float, half_window_length + half_window_length_float, half_window_length)` -/
noncomputable def effective (hf : ℝ) (h : Nat) : Mat ℝ := ⟨1, h, fun _ i => Sweep.linspace (1 + hf) (h + hf) h i⟩

/-- `numpy.square(channels)` -/
def square (A : Mat ℝ) : Mat ℝ := ⟨A.rows, A.cols, fun c i => A.get c i ^ 2⟩

/-- an element-wise function -/
def elementwise (f : ℝ → ℝ) (A : Mat ℝ) : Mat ℝ := ⟨A.rows, A.cols, fun c i => f (A.get c i)⟩

/-- `A[:, s] *= v` -/
def scaleColumns (A : Mat ℝ) (s : PySlice) (v : Mat ℝ) : Py (Mat ℝ) := Mat.ufunc2 (· * ·) (A.slice .all s) v A .all s

/-- the constant level (`_signal.py:610-617`) -/
noncomputable def constant (mem : Nat → Nat → ℝ) (s : Signal ℝ ℝ) (w : ℝ) (pad : Bool) : Py (Mat ℝ) :=
  fillRows mem s.count s.length fun c =>
    .ok (Mat.scalar (if pad then norm s.channels c / Real.sqrt w else level s c))

/-- the compensation for a short window (`_signal.py:631-638`) -/
noncomputable def compensateShort (w hf : ℝ) (h : Nat) (pad : Bool) (channels : Mat ℝ) : Py (Mat ℝ) :=
  if pad then .ok channels
  else do
    let correction := elementwise (fun x => Real.sqrt (w / x)) (effective hf h)
    let channels ← scaleColumns channels (.range 0 h) correction
    scaleColumns channels (.drop (-(h : Int))) correction.reverse

/-- the levels for a window, that is shorter than the signal (`_signal.py:627-638`) -/
noncomputable def short (mem : Nat → Nat → ℝ) (s : Signal ℝ ℝ) (w hf : ℝ) (h : Nat) (pad : Bool) : Py (Mat ℝ) := do
  let channels ← fillRows mem s.count s.length fun c => do
    let row ← npConvolve .same ((square s.channels).row c) (window w hf h)
    .ok (elementwise Real.sqrt row)
  compensateShort w hf h pad channels

/-- the computation of the correction for a long window (`_signal.py:647-655`). The array `correction` is created by
`numpy.empty`, its samples are given by `empty`. The last assignment with the slice
`[self._length - 1:(self._length + 1) // 2 - 1:-1]` is modelled with a reversed array and a slice in the forward direction. -/
noncomputable def longCorrection (empty : Nat → Nat → ℝ) (L : Nat) (w hf : ℝ) (h : Nat) : Py (Mat ℝ) := do
  let correction := alloc empty 1 L
  let correction ← correction.assign .all (.range 0 h) (effective hf h)
  let half := correction.slice .all (.range 0 ((L + 1) / 2 : Nat))
  let half := elementwise (fun x => Real.sqrt (w / min (L : ℝ) (max 0 x))) half
  let correction ← correction.assign .all (.range 0 ((L + 1) / 2 : Nat)) half
  correction.assign .all (.range ((L + 1) / 2 : Nat) L) (correction.slice .all (.range 0 (L / 2 : Nat))).reverse

/-- the compensation for a long window (`_signal.py:645-656`) -/
noncomputable def compensateLong (empty : Nat → Nat → ℝ) (w hf : ℝ) (h : Nat) (pad : Bool) (channels : Mat ℝ) : Py (Mat ℝ) :=
  if pad then .ok channels
  else do
    let correction ← longCorrection empty channels.cols w hf h
    scaleColumns channels .all correction

/-- the levels for a window, that is not shorter than the signal (`_signal.py:639-656`) -/
noncomputable def long (mem empty : Nat → Nat → ℝ) (s : Signal ℝ ℝ) (w hf : ℝ) (h : Nat) (pad : Bool) : Py (Mat ℝ) := do
  let a := ((1 + 2 * h : Nat) + 1 - (s.length : Int)) / 2
  let b := a + s.length
  let channels ← fillRows mem s.count s.length fun c => do
    let row ← npConvolve .same ((square s.channels).row c) (window w hf h)
    .ok (elementwise Real.sqrt (row.slice .all (.range a b)))
  compensateLong empty w hf h pad channels

/-- `Signal.level_vs_time` (`_signal.py:588-659`). The samples of the arrays, that are allocated by `allocate_array` and
`numpy.empty`, are given by `mem` and `empty`. -/
noncomputable def levelVsTime (mem empty : Nat → Nat → ℝ) (s : Signal ℝ ℝ) (integrationTime : ℝ) (pad : Bool) :
    Py (Signal ℝ ℝ) :=
  let w := integrationTime * s.rate
  if w ≤ 1 then .ok (absolute s)
  else do
    let hf := (w - 1) / 2
    let h := ⌈hf⌉.toNat
    let channels ←
      if 1 + h ≥ s.length then constant mem s w pad
      else if 1 + 2 * h < s.length then short mem s w hf h pad
      else long mem empty s w hf h pad
    .ok (Signal.new channels s.rate s.offset (some s.labels))

end Level
end Verif
