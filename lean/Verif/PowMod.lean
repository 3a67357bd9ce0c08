import Verif.SignalAlgebra
import Verif.Spectrum
import Mathlib.Analysis.SpecialFunctions.Pow.Real

/-
Model of the operators `**` and `%` of signals and spectrums (`_sampled_data.py:131-137`,
`_signal.py:209-225`), and of the operators with the signal on the right hand side
(`_sampled_data.py:103-105, 111-113, 119-121, 127-129`).  The floating point numbers are modelled by the real
and complex numbers; the results `nan` and `inf` of numpy's functions are arbitrary parameters.
-/

namespace Verif

/-- `numpy.mod` for floating point numbers: the remainder has the sign of the divisor, and is `nan`, if the
divisor is zero. -/
noncomputable def npMod (nan x y : ℝ) : ℝ :=
  if y = 0 then nan else x - y * ⌊x / y⌋

/-- `numpy.power` for floating point numbers: a negative base needs an integer exponent, and a negative
power of zero is infinite. -/
noncomputable def npPower (nan inf x y : ℝ) : ℝ :=
  if 0 < x then x ^ y
  else if x = 0 then
    if y = 0 then 1 else if 0 < y then 0 else inf
  else if y = ⌊y⌋ then x ^ ⌊y⌋ else nan

/-- `numpy.power` for complex numbers: the zeroth power is one, zero has only positive real powers, and
otherwise the principal value. -/
noncomputable def npPowerC (nan x y : ℂ) : ℂ :=
  if y = 0 then 1
  else if x = 0 then
    if 0 < y.re ∧ y.im = 0 then 0 else nan
  else x ^ y

namespace Signal

variable {R : Type}

/-- `signal ** other` for two signals (`_sampled_data.py:131-133`) -/
noncomputable def pow (nan inf : ℝ) (mem : Nat → Nat → ℝ) (s o : Signal ℝ R) : Py (Signal ℝ R) :=
  algebra mem (npPower nan inf) none "Power" s o

/-- `signal ** other` for a number or an array (`_sampled_data.py:131-133`) -/
noncomputable def powArray (nan inf : ℝ) (mem : Nat → Nat → ℝ) (s : Signal ℝ R) (other : Mat ℝ) :
    Py (Signal ℝ R) :=
  algebraArray mem (npPower nan inf) s other

/-- `other ** signal` for a number or an array (`_sampled_data.py:135-137`) -/
noncomputable def rpowArray (nan inf : ℝ) (mem : Nat → Nat → ℝ) (other : Mat ℝ) (s : Signal ℝ R) :
    Py (Signal ℝ R) :=
  algebraArrayRight mem (npPower nan inf) s other

/-- `signal % other` for two signals (`_signal.py:209-216`) -/
noncomputable def mod (nan : ℝ) (mem : Nat → Nat → ℝ) (s o : Signal ℝ R) : Py (Signal ℝ R) :=
  algebra mem (npMod nan) none "Modulo" s o

/-- `signal % other` for a number or an array (`_signal.py:209-216`) -/
noncomputable def modArray (nan : ℝ) (mem : Nat → Nat → ℝ) (s : Signal ℝ R) (other : Mat ℝ) : Py (Signal ℝ R) :=
  algebraArray mem (npMod nan) s other

/-- `other % signal` for a number or an array (`_signal.py:218-225`) -/
noncomputable def rmodArray (nan : ℝ) (mem : Nat → Nat → ℝ) (other : Mat ℝ) (s : Signal ℝ R) : Py (Signal ℝ R) :=
  algebraArrayRight mem (npMod nan) s other

/-- `signal + other` for a number or an array (`_sampled_data.py:99-101`) -/
def addArray {α : Type} [Add α] (mem : Nat → Nat → α) (s : Signal α R) (other : Mat α) : Py (Signal α R) :=
  algebraArray mem (· + ·) s other

/-- `other + signal` (`_sampled_data.py:103-105`) -/
def raddArray {α : Type} [Add α] (mem : Nat → Nat → α) (other : Mat α) (s : Signal α R) : Py (Signal α R) :=
  algebraArrayRight mem (· + ·) s other

/-- `signal - other` for a number or an array (`_sampled_data.py:107-109`) -/
def subArray {α : Type} [Sub α] (mem : Nat → Nat → α) (s : Signal α R) (other : Mat α) : Py (Signal α R) :=
  algebraArray mem (· - ·) s other

/-- `other - signal` (`_sampled_data.py:111-113`) -/
def rsubArray {α : Type} [Sub α] (mem : Nat → Nat → α) (other : Mat α) (s : Signal α R) : Py (Signal α R) :=
  algebraArrayRight mem (· - ·) s other

/-- `signal * other` for a number or an array (`_sampled_data.py:115-117`) -/
def mulArray {α : Type} [Mul α] (mem : Nat → Nat → α) (s : Signal α R) (other : Mat α) : Py (Signal α R) :=
  algebraArray mem (· * ·) s other

/-- `other * signal` (`_sampled_data.py:119-121`) -/
def rmulArray {α : Type} [Mul α] (mem : Nat → Nat → α) (other : Mat α) (s : Signal α R) : Py (Signal α R) :=
  algebraArrayRight mem (· * ·) s other

/-- `signal / other` for a number or an array (`_sampled_data.py:123-125`); the division by zero, which
results in `inf` or `nan` in numpy, is excluded in the properties. -/
def divArray {α : Type} [Div α] (mem : Nat → Nat → α) (s : Signal α R) (other : Mat α) : Py (Signal α R) :=
  algebraArray mem (· / ·) s other

/-- `other / signal` (`_sampled_data.py:127-129`) -/
def rdivArray {α : Type} [Div α] (mem : Nat → Nat → α) (other : Mat α) (s : Signal α R) : Py (Signal α R) :=
  algebraArrayRight mem (· / ·) s other

end Signal

namespace Spectrum

variable {R : Type}

/-- `spectrum ** other` for two spectrums (`_sampled_data.py:131-133`) -/
noncomputable def pow (nan : ℂ) (mem : Nat → Nat → ℂ) (s o : Spectrum ℂ R) : Py (Spectrum ℂ R) :=
  algebra mem (npPowerC nan) none "Power" s o

/-- `spectrum ** other` for a number or an array (`_sampled_data.py:131-133`) -/
noncomputable def powArray (nan : ℂ) (mem : Nat → Nat → ℂ) (s : Spectrum ℂ R) (other : Mat ℂ) :
    Py (Spectrum ℂ R) :=
  algebraArray mem (npPowerC nan) s other

/-- `other ** spectrum` for a number or an array (`_sampled_data.py:135-137`) -/
noncomputable def rpowArray (nan : ℂ) (mem : Nat → Nat → ℂ) (other : Mat ℂ) (s : Spectrum ℂ R) :
    Py (Spectrum ℂ R) :=
  algebraArrayRight mem (npPowerC nan) s other

/-- `spectrum * spectrum` (`_sampled_data.py:115-117`) -/
def mul {α : Type} [Mul α] (mem : Nat → Nat → α) (s o : Spectrum α R) : Py (Spectrum α R) :=
  algebra mem (· * ·) none "Product" s o

end Spectrum
end Verif
