import Verif.Signal
import Mathlib.Analysis.SpecialFunctions.Log.Basic
import Mathlib.Analysis.SpecialFunctions.Trigonometric.Basic

/-
Model of the sweeps (`/repo/sumpf/_data/_signals/_sweep.py`) with real numbers instead of floats. The parameter `numexpr`
of the constructors says, if the optional library is available.
-/

namespace Verif
namespace Sweep

open Indexing

/-- `numpy.linspace(start, stop, n)[i]` -/
noncomputable def linspace (start stop : ℝ) (n i : Nat) : ℝ :=
  if n ≤ 1 then start else start + i * ((stop - start) / (n - 1))

/-- a division of floats -/
noncomputable def div (x y : ℝ) : Py ℝ := if y = 0 then .error .zeroDivisionError else .ok (x / y)

/-- the results of `general_sweep_parameters` -/
structure General where
  start : Int
  stop : Int
  /-- the array `t` -/
  t : Nat → ℝ
  duration : ℝ
  offset : ℝ

/-- `general_sweep_parameters` (`_sweep.py:37-44`); `none` if `index` does not terminate -/
noncomputable def general (interval : Idx × Idx) (rate : ℝ) (length : Nat) : Option (Py General) := do
  let start ← index length interval.1
  let stop ← index length interval.2
  return do
    let sweepOffset ← div start rate
    let sweepLength := stop - start
    let sweepDuration ← div sweepLength rate
    let last ← div ((length : ℝ) - 1) rate
    .ok ⟨start, stop, linspace (-sweepOffset) (last - sweepOffset) length, sweepDuration, sweepOffset⟩

/-- the results of `linear_sweep_parameters` -/
structure Linear extends General where
  a : ℝ
  b : ℝ
  k : ℝ

/-- `linear_sweep_parameters` (`_sweep.py:47-55`) -/
noncomputable def linearParameters (startFrequency stopFrequency : ℝ) (interval : Idx × Idx) (rate : ℝ) (length : Nat) :
    Option (Py Linear) := do
  let g ← general interval rate length
  return do
    let g ← g
    let k ← div (stopFrequency - startFrequency) g.duration
    .ok ⟨g, 2 * Real.pi * startFrequency, Real.pi * k, k⟩

/-- `math.log(x)` -/
noncomputable def log (x : ℝ) : Py ℝ := if x ≤ 0 then .error .valueError else .ok (Real.log x)

/-- the results of `exponential_sweep_parameters` -/
structure Exponential extends General where
  l : ℝ
  a : ℝ

/-- `exponential_sweep_parameters` (`_sweep.py:58-66`) -/
noncomputable def exponentialParameters (startFrequency stopFrequency : ℝ) (interval : Idx × Idx) (rate : ℝ) (length : Nat) :
    Option (Py Exponential) := do
  let g ← general interval rate length
  return do
    let g ← g
    let ratio ← div stopFrequency startFrequency
    let logarithm ← log ratio
    let l ← div g.duration logarithm
    .ok ⟨g, l, 2 * Real.pi * startFrequency * l⟩

/-- An instance of the class `Sweep`. The attribute `l` is that of `BaseExponentialSweep`; it is zero for linear sweeps. -/
structure Instance where
  signal : Signal ℝ ℝ
  minimum : ℝ
  maximum : ℝ
  function : ℝ → Py ℝ
  l : ℝ

/-- `Sweep.__init__` (`_sweep.py:90-118`) and `BaseExponentialSweep.__init__` (`_sweep.py:154-167`). The attributes have
the same values in both cases of the code except for the label and the order of the frequencies. -/
noncomputable def Instance.new (channels : Mat ℝ) (rate : ℝ) (offset : Int) (function : ℝ → Py ℝ) (l : ℝ) : Py Instance := do
  let a ← function 0
  let duration ← div channels.cols rate
  let b ← function duration
  .ok ⟨Signal.new channels rate offset (some [if a ≤ b then "Sweep" else "Inverse sweep"]),
    if a ≤ b then a else b, if a ≤ b then b else a, function, l⟩

/-- `Sweep.instantaneous_frequency(t)` for a float (`_sweep.py:138-148`) -/
def Instance.instantaneousFrequency (s : Instance) (t : ℝ) : Py ℝ := s.function t

/-- `Sweep.instantaneous_frequency(t)` for an iterable (`_sweep.py:144-146`) -/
def Instance.instantaneousFrequencies (s : Instance) (t : List ℝ) : Py (List ℝ) := t.mapM s.function

/-- `LinearSweep.__init__` (`_sweep.py:247-289`) -/
noncomputable def linearSweep (startFrequency stopFrequency phase : ℝ) (interval : Idx × Idx) (rate : ℝ) (length : Nat)
    (numexpr : Bool) : Option (Py Instance) := do
  let p ← linearParameters startFrequency stopFrequency interval rate length
  return do
    let p ← p
    let channels : Mat ℝ := ⟨1, length, fun _ i =>
      if length ≤ 8192 ∨ !numexpr then Real.sin (p.t i * p.t i * p.b + p.a * p.t i + phase)
      else Real.sin (phase + p.a * p.t i + p.b * p.t i ^ 2)⟩
    Instance.new channels rate 0 (fun tau => .ok (startFrequency + p.k * (tau - p.offset))) 0

/-- `InverseLinearSweep.__init__` (`_sweep.py:310-356`) -/
noncomputable def inverseLinearSweep (startFrequency stopFrequency phase : ℝ) (interval : Idx × Idx) (rate : ℝ)
    (length : Nat) (numexpr : Bool) : Option (Py Instance) := do
  let p ← linearParameters startFrequency stopFrequency interval rate length
  return do
    let p ← p
    let t : Nat → ℝ := fun i => p.t i * (-1) + p.duration
    let s ← div 2 (p.stop - p.start : Int)
    let channels : Mat ℝ := ⟨1, length, fun _ i =>
      if length ≤ 8192 ∨ !numexpr then Real.sin (t i * t i * p.b + p.a * t i + (phase + 0)) * s
      else s * Real.sin (phase + p.a * t i + p.b * t i ^ 2)⟩
    Instance.new channels rate (-p.stop - p.start) (fun tau => .ok (stopFrequency - p.k * (tau - p.offset))) 0

/-- `numpy.expm1(x)` -/
noncomputable def expm1 (x : ℝ) : ℝ := Real.exp x - 1

/-- `ExponentialSweep.__init__` (`_sweep.py:366-410`). Simplification: for `l = 0`, the samples are not relevant, because
the evaluation of the function in the constructor of `Sweep` raises an exception. -/
noncomputable def exponentialSweep (startFrequency stopFrequency phase : ℝ) (interval : Idx × Idx) (rate : ℝ) (length : Nat)
    (numexpr : Bool) : Option (Py Instance) := do
  let p ← exponentialParameters startFrequency stopFrequency interval rate length
  return do
    let p ← p
    let channels : Mat ℝ := ⟨1, length, fun _ i =>
      if length ≤ 8192 ∨ !numexpr then Real.sin (expm1 (p.t i / p.l) * p.a + phase)
      else Real.sin (p.a * expm1 (p.t i / p.l) + phase)⟩
    Instance.new channels rate 0
      (fun tau => do
        let exponent ← div (tau - p.offset) p.l
        .ok (startFrequency * Real.exp exponent)) p.l

/-- `InverseExponentialSweep.__init__` (`_sweep.py:431-491`) -/
noncomputable def inverseExponentialSweep (startFrequency stopFrequency phase : ℝ) (interval : Idx × Idx) (rate : ℝ)
    (length : Nat) (numexpr : Bool) : Option (Py Instance) := do
  let p ← exponentialParameters startFrequency stopFrequency interval rate length
  return do
    let p ← p
    let s ← div (2 * startFrequency) p.l
    let s ← div s (stopFrequency - startFrequency)
    let s ← div s rate
    let channels : Mat ℝ := ⟨1, length, fun _ i =>
      if length ≤ 8192 ∨ !numexpr then
        let exponent := (p.duration - p.t i) / p.l
        let envelope := Real.exp exponent * s
        let sweep := Real.sin (expm1 exponent * p.a + phase)
        envelope * sweep
      else s * Real.exp ((p.duration - p.t i) / p.l) * Real.sin (p.a * expm1 ((p.duration - p.t i) / p.l) + phase)⟩
    Instance.new channels rate (-p.stop - p.start)
      (fun tau => do
        let exponent ← div (-tau + p.offset) p.l
        .ok (stopFrequency * Real.exp exponent)) p.l

end Sweep
end Verif
