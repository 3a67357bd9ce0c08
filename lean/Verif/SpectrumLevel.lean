import Verif.Fourier
import Verif.Level

/-
Model of `Spectrum.level` (`sumpf/_data/_spectrums/_spectrum.py`).  Real numbers instead of floats.
-/

namespace Verif
namespace Level

open Finset

/-- `math.fsum((math.fsum(c[1:-1]) * 2, c[0], c[-1]))` for the squared magnitudes `c` of a channel
(`_spectrum.py:381-387`); an empty channel raises an `IndexError`. -/
noncomputable def spectrumPower (A : Mat ℂ) (c : Nat) : Py ℝ :=
  if A.cols = 0 then .error .indexError
  else .ok ((∑ k ∈ Ico 1 (A.cols - 1), ‖A.get c k‖ ^ 2) * 2 + ‖A.get c 0‖ ^ 2 + ‖A.get c (A.cols - 1)‖ ^ 2)

/-- `spectrum.level()` (`_spectrum.py:369-387`, `single_value=False`) -/
noncomputable def spectrumLevel (s : Spectrum ℂ ℝ) : Py (List ℝ) :=
  let signalLength : Nat := max 1 ((s.length - 1) * 2)
  (List.range s.count).mapM fun c => do
    let power ← spectrumPower s.channels c
    return Real.sqrt power / signalLength

/-- `spectrum.level(single_value=True)` (`_spectrum.py:382-384`) -/
noncomputable def spectrumTotalLevel (s : Spectrum ℂ ℝ) : Py ℝ := do
  let signalLength : Nat := max 1 ((s.length - 1) * 2)
  let powers ← (List.range s.count).mapM fun c => spectrumPower s.channels c
  let mean ← Sweep.div powers.sum s.count
  return Real.sqrt mean / signalLength

end Level
end Verif
