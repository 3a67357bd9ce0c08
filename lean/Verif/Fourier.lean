import Verif.Signal
import Verif.Spectrum
import Verif.Fft
import Mathlib.Analysis.SpecialFunctions.Complex.Circle

/-
Model of the Fourier transform of whole signals and of its inverse: `Signal.fourier_transform` without a window
(`sumpf/_data/_signals/_signal.py:382-439`) and `Spectrum.inverse_fourier_transform`
(`sumpf/_data/_spectrums/_spectrum.py:350-367`), in exact arithmetic.
-/

namespace Verif
namespace Fourier

/-- `numpy.linspace(0.0, stop, n, dtype=numpy.complex128)[i]` -/
noncomputable def clinspace (stop : ℂ) (n i : Nat) : ℂ := if n ≤ 1 then 0 else i * (stop / (n - 1))

/-- `numpy.exp(numpy.linspace(0.0, stop, length))` as an array with one row (`_signal.py:435-437`) -/
noncomputable def compensation (stop : ℂ) (length : Nat) : Mat ℂ :=
  ⟨1, length, fun _ k => Complex.exp (clinspace stop length k)⟩

/-- `Signal.__full_fourier_transform` (`_signal.py:418-439`): the channels and the resolution -/
noncomputable def full (mem : Nat → Nat → ℂ) (s : Signal ℝ ℝ) : Py (Mat ℂ × ℝ) :=
  let length := s.length / 2 + 1
  if s.count = 0 then .ok (alloc mem 0 length, s.rate / (max s.length 1 : Nat))
  else if s.length = 0 then do
    let channels ← (alloc mem s.count 1).assign .all .all (.scalar 0)
    .ok (channels, s.rate)
  else do
    let resolution := s.rate / s.length
    let channels := alloc mem s.count length
    let spectrum ← s.channels.rfft
    if s.offset = 0 then do
      let channels ← channels.assign .all .all spectrum
      .ok (channels, resolution)
    else if s.rate = 0 then .error .zeroDivisionError
    else do
      let maxCompensation : ℂ :=
        ((length : ℂ) - 1) * (resolution : ℂ) * (-2 * Complex.I) * (Real.pi : ℂ) * (s.offset : ℂ) / (s.rate : ℂ)
      let channels ← Mat.ufunc2 (· * ·) spectrum (compensation maxCompensation length) channels .all .all
      .ok (channels, resolution)

/-- `Signal.fourier_transform` with `window=None` (`_signal.py:382-416`) -/
noncomputable def fourierTransform (mem : Nat → Nat → ℂ) (s : Signal ℝ ℝ) : Py (Spectrum ℂ ℝ) := do
  let (channels, resolution) ← full mem s
  .ok (Spectrum.new channels resolution (some s.labels))

/-- `numpy.fft.irfft(A, n)` for `n = max(1, 2 * (A.cols - 1))` and `A.cols ≥ 1` -/
noncomputable def irfftN (A : Mat ℂ) : Py (Mat ℝ) :=
  if A.cols = 1 then .ok ⟨A.rows, 1, fun i _ => (A.get i 0).re⟩ else A.irfft

/-- `Spectrum.inverse_fourier_transform` (`_spectrum.py:350-367`) -/
noncomputable def inverseFourierTransform (mem : Nat → Nat → ℝ) (s : Spectrum ℂ ℝ) : Py (Signal ℝ ℝ) :=
  if s.length = 0 then .ok (Signal.new ⟨s.count, 0, mem⟩ 0 0 (some s.labels))
  else do
    let length := max 1 ((s.length - 1) * 2)
    let rate := s.resolution * length
    let samples ← irfftN s.channels
    let channels ← (alloc mem s.count length).assign .all .all samples
    .ok (Signal.new channels rate 0 (some s.labels))

end Fourier
end Verif
