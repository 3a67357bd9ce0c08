import Verif.Sweep
import Verif.Spectrum
import Verif.Spectrogram

/-
Model of the sine and the square wave (`/repo/sumpf/_data/_signals/_waves.py`) with real numbers instead of floats, and of
the constant signals, spectrums and spectrograms.
-/

namespace Verif
namespace Waves

open Sweep (div linspace)

/-- an instance of the class `Wave` -/
structure Wave where
  signal : Signal ℝ ℝ
  periods : ℝ

/-- `Wave.__init__` (`_waves.py:30-39`) -/
noncomputable def Wave.new (frequency : ℝ) (channels : Mat ℝ) (rate : ℝ) (offset : Int) (labels : List String) : Py Wave := do
  let signal := Signal.new channels rate offset (some labels)
  let duration ← div signal.channels.cols rate
  .ok ⟨signal, duration * frequency⟩

/-- the phase of the waves (`_waves.py:61-62`, `_waves.py:84-85`) -/
noncomputable def omegaT (frequency phase rate : ℝ) (length : Nat) : Py (Mat ℝ) := do
  let duration ← div ((length : ℝ) - 1) rate
  .ok ⟨1, length, fun _ i => linspace phase (2 * Real.pi * frequency * duration + phase) length i⟩

/-- `SineWave.__init__` (`_waves.py:52-69`); the only channel is written by `numpy.sin` -/
noncomputable def sineWave (mem : Nat → Nat → ℝ) (frequency phase rate : ℝ) (length : Nat) : Py Wave := do
  let channels := alloc mem 1 length
  let omegaT ← omegaT frequency phase rate length
  let channels ← channels.assign .all .all (omegaT.map Real.sin)
  Wave.new frequency channels rate 0 ["Sine"]

/-- `numpy.sign` -/
noncomputable def sign (x : ℝ) : ℝ := if x < 0 then -1 else if x = 0 then 0 else 1

/-- `SquareWave.__init__` (`_waves.py:75-93`) -/
noncomputable def squareWave (mem : Nat → Nat → ℝ) (frequency phase rate : ℝ) (length : Nat) : Py Wave := do
  let channels := alloc mem 1 length
  let omegaT ← omegaT frequency phase rate length
  let channels ← channels.assign .all .all (omegaT.map Real.sin)
  let channels := channels.map sign
  Wave.new frequency channels rate 0 ["Square wave"]

/-! ### Constants -/

/-- `ConstantSignal.__init__` (`_data/_signals/_constant.py:29-42`) -/
def constantSignal (mem : Nat → Nat → α) (value : α) (rate : R) (length : Nat) : Py (Signal α R) := do
  let channels ← (alloc mem 1 length).assign .all .all (.scalar value)
  return Signal.new channels rate 0 (some ["Constant"])

/-- `ConstantSpectrum.__init__` (`_data/_spectrums/_constant.py:29-40`) -/
def constantSpectrum (mem : Nat → Nat → α) (value : α) (resolution : R) (length : Nat) : Py (Spectrum α R) := do
  let channels ← (alloc mem 1 length).assign .all .all (.scalar value)
  return Spectrum.new channels resolution (some ["Constant"])

/-- `ConstantSpectrogram.__init__` (`_data/_spectrograms/_constant.py:29-51`) -/
def constantSpectrogram (mem : Nat → Nat → Nat → α) (value : α) (resolution rate : R) (freqs length : Nat) :
    Py (Spectrogram α R) := do
  let channels ← (allocCube mem 1 freqs length).assign .all .all .all (.scalar value)
  return Spectrogram.new channels resolution rate 0 (some ["Constant"])

end Waves
end Verif
