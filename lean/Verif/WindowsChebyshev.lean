import Verif.Windows
import Mathlib.Analysis.SpecialFunctions.Arcosh
import Mathlib.Analysis.SpecialFunctions.Pow.Real
import Mathlib.Analysis.SpecialFunctions.Trigonometric.Inverse

/-
`sumpf.DolphChebyshevWindow` (`/repo/sumpf/_data/_signals/_windows_scipy.py:69-118`) and the function `chebwin` of scipy,
which is modelled statement by statement. The samples are exact real numbers.
-/

namespace Verif
namespace Windows

open Finset

/-- the array `p` in `scipy.signal.windows.chebwin(M, at=attenuation)`: the spectrum of the window -/
noncomputable def chebwinSpectrum (attenuation : ℝ) (M k : Nat) : ℝ :=
  let order : ℝ := M - 1
  let beta := Real.cosh (1 / order * Real.arcosh ((10 : ℝ) ^ (|attenuation| / 20)))
  let x := beta * Real.cos (Real.pi * k / M)
  if x > 1 then Real.cosh (order * Real.arcosh x)
  else if x < -1 then (2 * ((M % 2 : Nat) : ℝ) - 1) * Real.cosh (order * Real.arcosh (-x))
  else Real.cos (order * Real.arccos x)

/-- the array `w = numpy.real(fft(p))` in `chebwin`. For even lengths, the spectrum is multiplied with a linear phase. -/
noncomputable def chebwinTransform (attenuation : ℝ) (M n : Nat) : ℝ :=
  if M % 2 = 1 then
    (∑ k ∈ range M, (chebwinSpectrum attenuation M k : ℂ) *
      Complex.exp (-2 * Real.pi * Complex.I * k * n / M)).re
  else
    (∑ k ∈ range M, (chebwinSpectrum attenuation M k : ℂ) * Complex.exp (Complex.I * Real.pi / M * k) *
      Complex.exp (-2 * Real.pi * Complex.I * k * n / M)).re

/-- the concatenated halves of the window in `chebwin` -/
noncomputable def chebwinSamples (attenuation : ℝ) (M : Nat) : List ℝ :=
  let w := (List.range M).map (chebwinTransform attenuation M)
  if M % 2 = 1 then
    let w := w.take ((M + 1) / 2)
    (w.drop 1).reverse ++ w
  else
    let w := (w.take (M / 2 + 1)).drop 1
    w.reverse ++ w

/-- python's `max` of a list -/
noncomputable def listMax : List ℝ → ℝ
  | [] => 0
  | x :: l => l.foldl max x

/-- `scipy.signal.windows.chebwin(M, at=attenuation)[i]` -/
noncomputable def chebwin (attenuation : ℝ) (M i : Nat) : ℝ :=
  if M ≤ 1 then 1
  else
    let w := chebwinSamples attenuation M
    w.getD i 0 / listMax w

/-- `DolphChebyshevWindow._function` (`_windows_scipy.py:108-115`) -/
noncomputable def dolphChebyshev (attenuation : ℝ) (length i : Nat) : ℝ :=
  if length ≤ 2 then 1
  else chebwin attenuation length i / chebwin attenuation length (length / 2)

/-- `DolphChebyshevWindow.__init__` (`_windows_scipy.py:89-106`) with the label from `_label` (`_windows_scipy.py:117-118`) -/
noncomputable def dolphChebyshevWindow {R : Type} (mem : Nat → Nat → ℝ) (attenuation : ℝ) (plateau : Indexing.Idx) (rate : R)
    (length : Nat) (symmetric : Bool) : Option (Py (Signal ℝ R × Int)) :=
  new mem (dolphChebyshev attenuation) "Dolph-Chebyshev window" plateau rate length symmetric

end Windows
end Verif
