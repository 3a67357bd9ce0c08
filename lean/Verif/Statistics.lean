import Verif.Signal
import Mathlib.Analysis.SpecialFunctions.Pow.Real

/-
Model of the methods for the statistical parameters of signals (`/repo/sumpf/_data/_signals/_signal.py:728-801`) with real
numbers instead of floats. `none` is `nan`, which numpy and scipy compute with a warning.
-/

namespace Verif
namespace Statistics

open Finset

/-! ### the functions of numpy and scipy for an array with the values `x 0`, ..., `x (n - 1)` -/

/-- `numpy.mean` -/
noncomputable def npMean (n : Nat) (x : Nat → ℝ) : Option ℝ := if n = 0 then none else some ((∑ i ∈ range n, x i) / n)

/-- the central moments, which are computed by `scipy.stats` -/
noncomputable def npMoment (k n : Nat) (x : Nat → ℝ) : Option ℝ :=
  (npMean n x).bind fun m => npMean n fun i => (x i - m) ^ k

/-- `numpy.var` -/
noncomputable def npVar (n : Nat) (x : Nat → ℝ) : Option ℝ := npMoment 2 n x

/-- `numpy.std` -/
noncomputable def npStd (n : Nat) (x : Nat → ℝ) : Option ℝ := (npVar n x).map Real.sqrt

/-- `scipy.stats.skew` with the default parameter `bias=True`. The result is `nan`, if all values are the same (this is how
it is since version 1.9 of scipy; the tolerance for rounding errors is not needed for real numbers). -/
noncomputable def scipySkew (n : Nat) (x : Nat → ℝ) : Option ℝ :=
  (npMoment 2 n x).bind fun m2 => (npMoment 3 n x).bind fun m3 => if m2 = 0 then none else some (m3 / m2 ^ (1.5 : ℝ))

/-- `scipy.stats.kurtosis` with the default parameters `fisher=True` and `bias=True`, `nan` is as above -/
noncomputable def scipyKurtosis (n : Nat) (x : Nat → ℝ) : Option ℝ :=
  (npMoment 2 n x).bind fun m2 => (npMoment 4 n x).bind fun m4 => if m2 = 0 then none else some (m4 / m2 ^ 2 - 3)

/-- a function with the parameter `axis=1`: the results for the rows -/
def alongRows (f : Nat → (Nat → ℝ) → Option ℝ) (A : Mat ℝ) : List (Option ℝ) :=
  (List.range A.rows).map fun c => f A.cols (A.get c)

/-- a function with the parameter `axis=None`: the result for the flattened array -/
def flattened (f : Nat → (Nat → ℝ) → Option ℝ) (A : Mat ℝ) : Option ℝ :=
  f (A.rows * A.cols) fun j => A.get (j / A.cols) (j % A.cols)

/-! ### the methods of the signals -/

/-- the results of the methods: an array or a single value -/
inductive Result where
  | array (l : List (Option ℝ))
  | value (x : Option ℝ)

variable {R : Type}

/-- `Signal.mean` (`_signal.py:732-743`) -/
noncomputable def mean (s : Signal ℝ R) (singleValue : Bool) : Result :=
  if singleValue then .value (flattened npMean s.channels) else .array (alongRows npMean s.channels)

/-- `Signal.standard_deviation` (`_signal.py:745-756`) -/
noncomputable def standardDeviation (s : Signal ℝ R) (singleValue : Bool) : Result :=
  if singleValue then .value (flattened npStd s.channels) else .array (alongRows npStd s.channels)

/-- `Signal.variance` (`_signal.py:758-769`) -/
noncomputable def variance (s : Signal ℝ R) (singleValue : Bool) : Result :=
  if singleValue then .value (flattened npVar s.channels) else .array (alongRows npVar s.channels)

/-- `Signal.skewness` (`_signal.py:771-785`) -/
noncomputable def skewness (s : Signal ℝ R) (singleValue : Bool) : Result :=
  if singleValue then .value (flattened scipySkew s.channels) else .array (alongRows scipySkew s.channels)

/-- `Signal.kurtosis` (`_signal.py:787-801`) -/
noncomputable def kurtosis (s : Signal ℝ R) (singleValue : Bool) : Result :=
  if singleValue then .value (flattened scipyKurtosis s.channels) else .array (alongRows scipyKurtosis s.channels)

end Statistics
end Verif
