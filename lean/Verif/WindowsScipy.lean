import Verif.Windows
import Mathlib.Analysis.SpecialFunctions.Log.Basic

/-
`sumpf.KaiserWindow` (`/repo/sumpf/_data/_signals/_windows.py:369-400`) and the windows, that are implemented with scipy
(`/repo/sumpf/_data/_signals/_windows_scipy.py`). The functions of scipy are modelled by what they compute. The samples are
exact real numbers. The functions `chebwin` and `dpss` of scipy are modelled in
`WindowsChebyshev.lean` and `WindowsSlepian.lean`.
-/

namespace Verif
namespace Windows

open Indexing

variable {R : Type}

/-! ### The functions of numpy and scipy -/

/-- `numpy.linspace(start, stop, M)[i]` for `M > 1` -/
noncomputable def linspace (start stop : ℝ) (M i : Nat) : ℝ := start + i * ((stop - start) / (M - 1))

/-- `numpy.kaiser(M, beta)[i]`, where `i0` is the modified Bessel function of the first kind -/
noncomputable def kaiser (i0 : ℝ → ℝ) (beta : ℝ) (M i : Nat) : ℝ :=
  if M = 1 then 1
  else
    let alpha : ℝ := (M - 1) / 2
    i0 (beta * Real.sqrt (1 - ((i - alpha) / alpha) ^ 2)) / i0 beta

/-- `scipy.signal.windows.general_cosine(M, a)[i]` -/
noncomputable def generalCosine (a : List ℚ) (M i : Nat) : ℝ :=
  if M ≤ 1 then 1
  else (List.range a.length).foldl (fun w (k : Nat) =>
    w + ((a.getD k 0 : ℚ) : ℝ) * Real.cos (k * linspace (-Real.pi) Real.pi M i)) 0

/-- `scipy.signal.windows.barthann(M)[i]` -/
noncomputable def barthann (M i : Nat) : ℝ :=
  if M ≤ 1 then 1
  else
    let fac := |(i : ℝ) / (M - 1) - 1 / 2|
    62 / 100 - 48 / 100 * fac + 38 / 100 * Real.cos (2 * Real.pi * fac)

/-- `scipy.signal.windows.bohman(M)[i]` -/
noncomputable def bohman (M i : Nat) : ℝ :=
  if M ≤ 1 then 1
  else if i = 0 ∨ i = M - 1 then 0
  else
    let fac := |linspace (-1) 1 M i|
    (1 - fac) * Real.cos (Real.pi * fac) + 1 / Real.pi * Real.sin (Real.pi * fac)

/-- `scipy.signal.windows.exponential(M, tau=tau)[i]` -/
noncomputable def scipyExponential (tau : ℝ) (M i : Nat) : ℝ :=
  if M ≤ 1 then 1 else Real.exp (-|(i : ℝ) - (M - 1) / 2| / tau)

/-- `scipy.signal.windows.gaussian(M, std=std)[i]` -/
noncomputable def scipyGaussian (std : ℝ) (M i : Nat) : ℝ :=
  if M ≤ 1 then 1 else Real.exp (-((i : ℝ) - (M - 1) / 2) ^ 2 / (2 * std * std))

/-- `scipy.signal.windows.parzen(M)[i]`. The concatenated arrays are selected by the position `n` of the sample. -/
def parzen {K : Type} [Field K] [LinearOrder K] (M i : Nat) : K :=
  if M ≤ 1 then 1
  else
    let n : K := i - (M - 1) / 2
    if |n| ≤ (M - 1) / 4 then 1 - 6 * (|n| / (M / 2)) ^ 2 + 6 * (|n| / (M / 2)) ^ 3
    else 2 * (1 - |n| / (M / 2)) ^ 3

/-! ### The methods `_function` -/

/-- `BlackmanHarrisWindow._function` (`_windows_scipy.py:49-50`), `scipy.signal.windows.blackmanharris` -/
noncomputable def blackmanHarris : Nat → Nat → ℝ := generalCosine [0.35875, 0.48829, 0.14128, 0.01168]

/-- `ExponentialWindow._function` (`_windows_scipy.py:150-155`) -/
noncomputable def exponential (decay : ℝ) (length i : Nat) : ℝ :=
  if length = 1 ∨ decay = 0 then 1
  else
    let tau := -10 * ((length : ℝ) - 1) / (Real.log 10 * -decay)
    scipyExponential tau length i

/-- `GaussianWindow._function` (`_windows_scipy.py:286-288`) -/
noncomputable def gaussian (standardDeviation : ℝ) (length i : Nat) : ℝ :=
  let std := standardDeviation * ((length : ℝ) - 1) / 2
  scipyGaussian std length i

/-- the enumeration `FlatTopWindows` (`sumpf/_internal/_enums.py:128-198`) -/
inductive FlatTop where
  | default | sft3f | sft4f | sft5f | sft3m | sft4m | sft5m | ftni | fthp | ftsrs | hft70 | hft90d | hft95 | hft116d
  | hft144d | hft169d | hft196d | hft223d | hft248d
  deriving DecidableEq

/-- the coefficients in `FlatTopWindow._function` (`_windows_scipy.py:209-246`) and those of
`scipy.signal.windows.flattop` -/
def FlatTop.coefficients : FlatTop → List ℚ
  | .default => [0.21557895, 0.41663158, 0.277263158, 0.083578947, 0.006947368]
  | .sft3f => [0.26526, 0.5, 0.23474]
  | .sft4f => [0.21706, 0.42103, 0.28294, 0.07897]
  | .sft5f => [0.1881, 0.36923, 0.28702, 0.13077, 0.02488]
  | .sft3m => [0.28235, 0.52105, 0.19659]
  | .sft4m => [0.241906, 0.460841, 0.255381, 0.041872]
  | .sft5m => [0.209671, 0.407331, 0.281225, 0.092669, 0.0091036]
  | .ftni => [0.2810639, 0.5208972, 0.1980399]
  | .fthp => [1.0, 1.912510941, 1.079173272, 0.1832630879]
  | .ftsrs => [1.0, 1.93, 1.29, 0.388, 0.028]
  | .hft70 => [1.0, 1.90796, 1.07349, 0.18199]
  | .hft90d => [1.0, 1.942604, 1.340318, 0.440811, 0.043097]
  | .hft95 => [1.0, 1.9383379, 1.3045202, 0.4028270, 0.0350665]
  | .hft116d => [1.0, 1.9575375, 1.4780705, 0.6367431, 0.1228389, 0.0066288]
  | .hft144d => [1.0, 1.96760033, 1.57983607, 0.81123644, 0.22583558, 0.02773848, 0.00090360]
  | .hft169d => [1.0, 1.97441842, 1.65409888, 0.95788186, 0.33673420, 0.06364621, 0.00521942, 0.00010599]
  | .hft196d => [1.0, 1.979280420, 1.710288951, 1.081629853, 0.448734314, 0.112376628, 0.015122992, 0.000871252,
      0.000011896]
  | .hft223d => [1.0, 1.98298997309, 1.75556083063, 1.19037717712, 0.56155440797, 0.17296769663, 0.03233247087,
      0.00324954578, 0.00013801040, 0.00000132725]
  | .hft248d => [1.0, 1.985844164102, 1.791176438506, 1.282075284005, 0.667777530266, 0.240160796576, 0.056656381764,
      0.008134974479, 0.000624544650, 0.000019808998, 0.000000132974]

/-- the number, by which the window function is divided (`_windows_scipy.py:225-246`) -/
def FlatTop.divisor : FlatTop → ℚ
  | .fthp => 4.1749473009
  | .ftsrs => 4.635999999999999
  | .hft70 => 4.1634400000000005
  | .hft90d => 4.766830000000001
  | .hft95 => 4.680751600000001
  | .hft116d => 5.2018188
  | .hft144d => 5.6131505
  | .hft169d => 5.99210498
  | .hft196d => 6.348316306
  | .hft223d => 6.69917143974
  | .hft248d => 7.032470056319999
  | _ => 1

/-- `FlatTopWindow._function` (`_windows_scipy.py:206-248`) for an element of the enumeration -/
noncomputable def FlatTop.function (f : FlatTop) (length i : Nat) : ℝ :=
  generalCosine f.coefficients length i / ((f.divisor : ℚ) : ℝ)

/-- the enumeration `NuttallWindows` (`sumpf/_internal/_enums.py:88-125`) -/
inductive Nuttall where
  | nuttall3 | nuttall3a | nuttall3b | nuttall4 | nuttall4a | nuttall4b | nuttall4c
  deriving DecidableEq

/-- the coefficients in `NuttallWindow._function` (`_windows_scipy.py:336-351`) -/
def Nuttall.coefficients : Nuttall → List ℚ
  | .nuttall3 => [0.375, 0.5, 0.125]
  | .nuttall3a => [0.40897, 0.5, 0.09103]
  | .nuttall3b => [0.4243801, 0.4973406, 0.0782793]
  | .nuttall4 => [0.3125, 0.46875, 0.1875, 0.03125]
  | .nuttall4a => [0.338946, 0.481973, 0.161054, 0.018027]
  | .nuttall4b => [0.355768, 0.487396, 0.144232, 0.012604]
  | .nuttall4c => [0.3635819, 0.4891775, 0.1365995, 0.0106411]

/-- `NuttallWindow._function` (`_windows_scipy.py:335-351`) for an element of the enumeration -/
noncomputable def Nuttall.function (f : Nuttall) : Nat → Nat → ℝ := generalCosine f.coefficients

/-! ### The classes -/

/-- `Window.__init__` for a method `_function`, that raises a `ValueError`, if the enumeration does not have the given
element (`none`) -/
noncomputable def newOf {E : Type} (mem : Nat → Nat → ℝ) (function : E → Nat → Nat → ℝ) (label : String) (e : Option E)
    (plateau : Idx) (rate : R) (length : Nat) (symmetric : Bool) : Option (Py (Signal ℝ R × Int)) :=
  match e with
  | some e => new mem (function e) label plateau rate length symmetric
  | none => do
    let _ ← index length plateau
    return .error .valueError

/-- `FlatTopWindow.__init__` (`_windows_scipy.py:181-204`) -/
noncomputable def flatTopWindow (mem : Nat → Nat → ℝ) (function : Option FlatTop) (plateau : Idx) (rate : R)
    (length : Nat) (symmetric : Bool) : Option (Py (Signal ℝ R × Int)) :=
  newOf mem FlatTop.function "Flat top window" function plateau rate length symmetric

/-- `NuttallWindow.__init__` (`_windows_scipy.py:310-333`) -/
noncomputable def nuttallWindow (mem : Nat → Nat → ℝ) (function : Option Nuttall) (plateau : Idx) (rate : R)
    (length : Nat) (symmetric : Bool) : Option (Py (Signal ℝ R × Int)) :=
  newOf mem Nuttall.function "Nuttall window" function plateau rate length symmetric

/-- `ExponentialWindow.__init__` (`_windows_scipy.py:130-148`) -/
noncomputable def exponentialWindow (mem : Nat → Nat → ℝ) (decay : ℝ) (plateau : Idx) (rate : R) (length : Nat)
    (symmetric : Bool) : Option (Py (Signal ℝ R × Int)) :=
  new mem (exponential decay) "Exponential window" plateau rate length symmetric

/-- `GaussianWindow.__init__` (`_windows_scipy.py:263-284`) -/
noncomputable def gaussianWindow (mem : Nat → Nat → ℝ) (standardDeviation : ℝ) (plateau : Idx) (rate : R) (length : Nat)
    (symmetric : Bool) : Option (Py (Signal ℝ R × Int)) :=
  new mem (gaussian standardDeviation) "Gaussian window" plateau rate length symmetric

/-- `ParzenWindow.__init__` (`_windows_scipy.py:357-367`) -/
noncomputable def parzenWindow (mem : Nat → Nat → ℝ) (plateau : Idx) (rate : R) (length : Nat) (symmetric : Bool) :
    Option (Py (Signal ℝ R × Int)) :=
  new mem parzen "Parzen window" plateau rate length symmetric

end Windows
end Verif
