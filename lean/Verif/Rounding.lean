import Verif.Indexing
import Mathlib.Data.Int.Log
import Mathlib.Data.Rat.Floor

/-
Computations of indices with floating point numbers. In the other files, the frequencies, times and sampling rates are
exact. Here, the result of each operation is rounded to a floating point number with double precision:

* `index` and the float keys of `key_to_slices` (`/repo/sumpf/_internal/_indexing.py:24-64`)
* the sampling rate, the resolution and the offset of tables (`/repo/sumpf/_internal/_persistence/_signal_readers.py:58-69`,
  `/repo/sumpf/_internal/_persistence/_spectrum_readers.py:50-62`) and the times and frequencies, that are written to them
  (`/repo/sumpf/_data/_signals/_signal.py:292-299`, `/repo/sumpf/_data/_spectrums/_spectrum.py:309-314`)
* the frequency limits of a Rudin-Shapiro noise spectrum (`/repo/sumpf/_data/_spectrums/_rudinshapiro.py:49-53`)
* the offset of a short time Fourier transform (`/repo/sumpf/_data/_signals/_signal.py:556`)
* the window of the level versus time (`/repo/sumpf/_data/_signals/_signal.py:603-607`)
-/

namespace Verif
namespace Double

open Indexing

/-- the distance between the floating point numbers with double precision (IEEE 754 binary64 with a significand of 53 bits)
in the range of the exponent of `x` -/
def ulp (x : ℚ) : ℚ := 2 ^ (Int.log 2 |x| - 52)

/-- the rounding of an exact result to the nearest floating point number, ties to even. The exponent is not limited, so
overflows and denormalised numbers are not modelled. -/
def fl (x : ℚ) : ℚ := pyRound (x / ulp x) * ulp x

/-- the start value of the loop in `index` (`_indexing.py:38-39`) -/
def start (length : Int) : Idx → Int
  | .int i => i
  | .float q => pyRound (fl (q * length))

/-- `index(i, length)` (`_indexing.py:24-44`), see `Indexing.index` -/
def index (length : Int) (i : Idx) : Option Int :=
  let s := start length i
  if 0 ≤ s then some s
  else if 0 < length then some (s % length)
  else none

/-- `key_to_slices` with a float (`_indexing.py:58-60`), see `Indexing.keyToSlice` -/
def floatKey (n : Nat) (q : ℚ) : Option PySlice :=
  (index ((n : Int) - 1) (.float q)).map fun i => ⟨some i, some (i + 1)⟩

/-- the first and the last element of `time_samples` (`_signal.py:297-299`); `numpy.linspace` returns its limits exactly -/
def firstTime (offset : Int) (rate : ℚ) : ℚ := fl (offset / rate)
@[inherit_doc firstTime] def lastTime (length : Nat) (offset : Int) (rate : ℚ) : ℚ :=
  fl (((length : Int) + offset - 1 : Int) / rate)

/-- the sampling rate of a table with at least two rows (`_signal_readers.py:68`) -/
def tableRate (n : Nat) (minimum maximum : ℚ) : ℚ := fl (((n : ℚ) - 1) / fl (maximum - minimum))

/-- the offset of a table (`_signal_readers.py:69`) -/
def tableOffset (minimum rate : ℚ) : Int := pyRound (fl (minimum * rate))

/-- the last element of `frequency_samples` (`_spectrum.py:309-314`); the first is zero -/
def lastFrequency (length : Nat) (resolution : ℚ) : ℚ := fl (((length : ℚ) - 1) * resolution)

/-- the resolution of a table with at least two rows (`_spectrum_readers.py:57`) -/
def tableResolution (n : Nat) (minimum maximum : ℚ) : ℚ := fl (fl (maximum - minimum) / ((n : ℚ) - 1))

/-- `int(round(frequency / resolution))` (`_spectrum_readers.py:62`, `_rudinshapiro.py:49,53`) -/
def bin (frequency resolution : ℚ) : Int := pyRound (fl (frequency / resolution))

/-- `int(round(self.__offset / step))` (`_signal.py:556`) -/
def stftOffset (offset step : Int) : Int := pyRound (fl (offset / step))

/-- the length of the window in samples (`_signal.py:603`) -/
def windowLength (integrationTime rate : ℚ) : ℚ := fl (integrationTime * rate)

/-- the half of the window (`_signal.py:606-607`) -/
def halfWindow (integrationTime rate : ℚ) : Int := ⌈fl (fl (windowLength integrationTime rate - 1) / 2)⌉

end Double
end Verif
