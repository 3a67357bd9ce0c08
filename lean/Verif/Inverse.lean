import Verif.Signal
import Verif.Fft

/-
Model of `Signal.__invert__` (`sumpf/_data/_signals/_signal.py:231-254`), in exact arithmetic.
-/

namespace Verif
namespace Inverse

open Classical in
/-- `numpy.fft.irfft(1.0 / spectrum)` (`_signal.py:241, 248`).  Dividing by a bin, that is zero, does not raise an
exception; the inverse transform of the channel consists of `nan` then (`none`). -/
noncomputable def irfftReciprocal (spectrum : Mat ℂ) : Py (Mat (Option ℝ)) := do
  let samples ← (spectrum.map fun z => 1 / z).irfft
  return ⟨samples.rows, samples.cols, fun i n =>
    if ∃ k < spectrum.cols, spectrum.get i k = 0 then none else some (samples.get i n)⟩

/-- the sum of two floats, where `none` is `nan` -/
noncomputable def add (x y : Option ℝ) : Option ℝ := match x, y with
  | some x, some y => some (x + y)
  | _, _ => none

/-- `~signal` (`_signal.py:231-254`); `memPadded` is the content of the memory for the padded signal. -/
noncomputable def invert {R : Type} (mem : Nat → Nat → Option ℝ) (memPadded : Nat → Nat → ℝ) (s : Signal ℝ R) :
    Py (Signal (Option ℝ) R) := do
  let channels := alloc mem s.count s.length
  let channels ←
    if s.length % 2 = 0 then do
      let spectrum ← s.channels.rfft
      let inverse ← irfftReciprocal spectrum
      channels.assign .all .all inverse
    else do
      let padded := alloc memPadded s.count (2 * s.length)
      let padded ← padded.assign .all (.range 0 s.length) s.channels
      let padded ← padded.assign .all (.drop s.length) (.scalar 0)
      let spectrum ← padded.rfft
      let padded ← irfftReciprocal spectrum
      let channels ← channels.assign .all .all (padded.slice .all (.range 0 s.length))
      Mat.ufunc2 add channels (padded.slice .all (.drop s.length)) channels .all .all
  return Signal.new channels s.rate (-s.offset) (some s.labels)

end Inverse
end Verif
