import Verif.Filter
import Verif.PyRange
import Mathlib.Analysis.SpecialFunctions.Trigonometric.Basic
import Mathlib.Analysis.SpecialFunctions.Arsinh
import Mathlib.Analysis.SpecialFunctions.Pow.Real
import Mathlib.Data.Nat.Factorial.Basic

/-
The transfer functions of the filters, that are defined by formulas: `/repo/sumpf/_data/_filters/_delay.py`,
`_derivative.py`, `_butterworth.py`, `_bessel.py` and `_chebyshev.py`. The numbers are exact real and complex numbers.
-/

namespace Verif
namespace Filter

/-- `DelayFilter.__init__` (`_delay.py:27-33`) -/
noncomputable def delayFilter (delay : ℝ) : Channels ℝ ℂ :=
  Channels.new [expFactory ((-delay : ℝ) : ℂ) false] ["Delay"]

/-- `DerivativeFilter.__init__` (`_derivative.py:30-33`) -/
noncomputable def derivativeFilter : Channels ℝ ℂ := Channels.new [polynomialFactory [1, 0] false] ["Derivative"]

/-- `frequency_scaling` (`_base/_functions.py:24-34`); a python number divided by zero raises an exception -/
noncomputable def frequencyScaling (cutoff : ℝ) (highpass : Bool) : Py ℝ :=
  if highpass then .ok (2 * Real.pi * cutoff)
  else if 2 * Real.pi * cutoff = 0 then .error .zeroDivisionError
  else .ok (1 / (2 * Real.pi * cutoff))

/-- `Polynomial(coefficients)` for real coefficients -/
noncomputable def realPolynomial (cs : List ℝ) : Term ℝ ℂ := polynomialFactory (cs.map fun (c : ℝ) => (c : ℂ)) false

/-- `butterworth` (`_butterworth.py:25-44`). The loops are list comprehensions here. -/
noncomputable def butterworth (E : Env ℝ ℂ) (n : Nat) (cutoff : ℝ) (order : Nat) (highpass : Bool) : Py (Term ℝ ℂ) :=
  frequencyScaling cutoff highpass >>= fun k =>
    let k2 := k ^ 2
    let factors :=
      if order % 2 = 0 then
        (pyRange 1 (order / 2 + 1) 1).map fun (i : Int) =>
          let b1 := 2 * Real.cos ((2 * i - 1) * Real.pi / (2 * order))
          realPolynomial [k2, b1 * k, 1]
      else
        realPolynomial [k, 1] :: (pyRange 2 ((order + 1) / 2 + 1) 1).map fun (i : Int) =>
          let b1 := 2 * Real.cos ((i - 1) * Real.pi / order)
          realPolynomial [k2, b1 * k, 1]
    productFactory E n factors highpass >>= fun p => p.invert

/-- `bessel` (`_bessel.py:25-40`). The operator `//` divides integer numbers here. -/
noncomputable def bessel (cutoff : ℝ) (order : Nat) (highpass : Bool) : Py (Term ℝ ℂ) :=
  frequencyScaling cutoff highpass >>= fun k =>
    let c0 := Nat.factorial (2 * order) / (2 ^ order * Nat.factorial order)
    let coefficients := (pyRange order 0 (-1)).map fun (i : Int) =>
      let oi := order - i.toNat
      let c := Nat.factorial (order + oi) / (2 ^ oi * Nat.factorial i.toNat * Nat.factorial oi)
      (c : ℝ) / c0 * k ^ i.toNat
    div (.constant 1) (polynomialFactory ((coefficients ++ [1]).map fun (c : ℝ) => (c : ℂ)) highpass)

/-- `chebyshev1` (`_chebyshev.py:27-57`). A ripple of zero raises a `ZeroDivisionError`. The other divisions are not by
zero then, unless the order is zero. -/
noncomputable def chebyshev1 (E : Env ℝ ℂ) (n : Nat) (cutoff ripple : ℝ) (order : Nat) (highpass : Bool) :
    Py (Term ℝ ℂ) :=
  frequencyScaling cutoff highpass >>= fun k =>
    let k2 := k ^ 2
    if Real.sqrt ((10 : ℝ) ^ (|ripple| / 10) - 1) = 0 ∨ order = 0 then .error .zeroDivisionError
    else
      let g := Real.arsinh (1 / Real.sqrt ((10 : ℝ) ^ (|ripple| / 10) - 1)) / order
      let sinhg := Real.sinh g
      let cosh2g := Real.cosh g ^ 2
      let factors :=
        if order % 2 = 0 then
          let pb2o := Real.pi / (2 * order)
          (pyRange 1 (order / 2 + 1) 1).map fun (i : Int) =>
            let a2 := 1 / (cosh2g - Real.cos ((2 * i - 1) * pb2o) ^ 2)
            let a1 := 2 * a2 * sinhg * Real.cos ((2 * i - 1) * pb2o)
            realPolynomial [a2 * k2, a1 * k, 1]
        else
          let pbo := Real.pi / order
          let a1 := 1 / sinhg
          realPolynomial [a1 * k, 1] :: (pyRange 2 ((order + 1) / 2 + 1) 1).map fun (i : Int) =>
            let a2 := 1 / (cosh2g - Real.cos ((i - 1) * pbo) ^ 2)
            let a1 := 2 * a2 * sinhg * Real.cos ((i - 1) * pbo)
            realPolynomial [a2 * k2, a1 * k, 1]
      productFactory E n factors highpass >>= fun p => p.invert

/-- one iteration of the loop in `chebyshev2` (`_chebyshev.py:83-95`). The divisions of the numbers are not by zero, when
`k` and the ripple are not zero (the sine is positive for `0 < i < order`). -/
noncomputable def chebyshev2Factor (k sinhg coshg pb2o : ℝ) (i : Int) : Py (Term ℝ ℂ) :=
  let w := -Complex.exp (Complex.I * i * pb2o)
  let p := 1 / ((sinhg : ℂ) * w.re + Complex.I * coshg * w.im) / k
  let a0 := ‖p‖ ^ 2
  let a1 := -2 * p.re / a0
  let a2 := 1 / a0
  let z := Complex.I / (Real.sin (i * pb2o) : ℝ) / k
  let b0 := ‖z‖ ^ 2
  let b1 := 2 * z.re / b0
  let b2 := 1 / b0
  div (realPolynomial [b2, b1, 1]) (realPolynomial [a2, a1, 1])

/-- `chebyshev2` (`_chebyshev.py:60-96`) -/
noncomputable def chebyshev2 (E : Env ℝ ℂ) (n : Nat) (cutoff ripple : ℝ) (order : Nat) (highpass : Bool) :
    Py (Term ℝ ℂ) :=
  frequencyScaling cutoff highpass >>= fun k =>
    if order = 0 then .error .zeroDivisionError
    else
      let l := (10 : ℝ) ^ (|ripple| / 20)
      let g := Real.arsinh (Real.sqrt (l ^ 2 - 1)) / order
      let sinhg := Real.sinh g
      let coshg := Real.cosh g
      let pb2o := Real.pi / (2 * order)
      (if order % 2 = 0 then
          (pyRange 1 order 2).mapM (chebyshev2Factor k sinhg coshg pb2o)
        else
          div (.constant 1) (realPolynomial [sinhg * k, 1]) >>= fun first =>
            (pyRange 2 order 2).mapM (chebyshev2Factor k sinhg coshg pb2o) >>= fun l => .ok (first :: l)) >>= fun factors =>
        productFactory E n factors highpass

/-- the filters with one transfer function (`_butterworth.py:59-66`, `_base/_iir.py:25-34,46-56`, `_base/_filter.py`) -/
noncomputable def rolloff (t : Py (Term ℝ ℂ)) (label : String) : Py (Channels ℝ ℂ) :=
  t >>= fun t => .ok (Channels.new [t] [label])

/-- `ButterworthFilter.__init__` (`_butterworth.py:53-66`) -/
noncomputable def butterworthFilter (E : Env ℝ ℂ) (n : Nat) (cutoff : ℝ) (order : Nat) (highpass : Bool) :
    Py (Channels ℝ ℂ) :=
  rolloff (butterworth E n cutoff order highpass) "Butterworth"

/-- `BesselFilter.__init__` (`_bessel.py:61-74`) -/
noncomputable def besselFilter (cutoff : ℝ) (order : Nat) (highpass : Bool) : Py (Channels ℝ ℂ) :=
  rolloff (bessel cutoff order highpass) "Bessel"

/-- `Chebyshev1Filter.__init__` (`_chebyshev.py:120-142`) -/
noncomputable def chebyshev1Filter (E : Env ℝ ℂ) (n : Nat) (cutoff ripple : ℝ) (order : Nat) (highpass : Bool) :
    Py (Channels ℝ ℂ) :=
  rolloff (if ripple ≠ 0 then chebyshev1 E n cutoff ripple order highpass else butterworth E n cutoff order highpass)
    "Chebyshev 1"

/-- `Chebyshev2Filter.__init__` (`_chebyshev.py:168-184`) -/
noncomputable def chebyshev2Filter (E : Env ℝ ℂ) (n : Nat) (cutoff ripple : ℝ) (order : Nat) (highpass : Bool) :
    Py (Channels ℝ ℂ) :=
  rolloff (chebyshev2 E n cutoff ripple order highpass) "Chebyshev 2"

end Filter
end Verif
