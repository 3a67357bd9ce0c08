import Verif.Rolloff
import Mathlib.Analysis.SpecialFunctions.Pow.Complex

/-
The weighting filters `/repo/sumpf/_data/_filters/_weighting.py`. The numbers are exact real and complex numbers.
-/

namespace Verif
namespace Filter

open Complex (I)

/-- `Polynomial((1.0, 0.0)) / Polynomial((1.0, s))`, where `Polynomial` is the constructor of the class -/
noncomputable def highpassFactor (s : ℂ) : Py (Term ℝ ℂ) := div (.polynomial [1, 0] false) (.polynomial [1, s] false)

/-- `~Polynomial((1.0, s))` -/
noncomputable def lowpassFactor (s : ℂ) : Py (Term ℝ ℂ) := (Term.polynomial [1, s] false).invert

/-- `x ** 0.5` for a number, that is negative or complex in general -/
noncomputable def root (x : ℂ) : ℂ := x ^ (0.5 : ℂ)

/-- `_c_factors` (`_weighting.py:55-77`). In python, roots of negative numbers are complex numbers, so complex numbers are
used from the first root on. -/
noncomputable def cFactors (fr : ℝ) : Py (List (Term ℝ ℂ)) :=
  let fl := (10 : ℝ) ^ (1.5 : ℝ)
  let fh := (10 : ℝ) ^ (3.9 : ℝ)
  let d := (0.5 : ℝ) ^ (0.5 : ℝ)
  let fr2 := fr ^ 2
  let fl2 := fl ^ 2
  let fh2 := fh ^ 2
  let c := fl2 * fh2
  let b := (fr2 + c / fr2 - d * (fl2 + fh2)) / (1 - d)
  let r := root ((b ^ 2 - 4 * c : ℝ) : ℂ)
  let f1 := root ((-b - r) / 2)
  let f4 := root ((-b + r) / 2)
  let s1 := 2 * Real.pi * f1
  let s4 := 2 * Real.pi * f4
  [highpassFactor s1, lowpassFactor s1, highpassFactor s4, lowpassFactor s4].mapM id

/-- `_a_factors` (`_weighting.py:26-40`) -/
noncomputable def aFactors (fr : ℝ) : Py (List (Term ℝ ℂ)) :=
  let fa := (10 : ℝ) ^ (2.45 : ℝ)
  let root5 := (5 : ℝ) ^ (0.5 : ℝ) / 2
  let f2 := (1.5 - root5) * fa
  let f3 := (1.5 + root5) * fa
  let s2 := 2 * Real.pi * f2
  let s3 := 2 * Real.pi * f3
  highpassFactor (s2 : ℝ) >>= fun a => highpassFactor (s3 : ℝ) >>= fun b => cFactors fr >>= fun l => .ok (a :: b :: l)

/-- `_b_factors` (`_weighting.py:43-52`) -/
noncomputable def bFactors (fr : ℝ) : Py (List (Term ℝ ℂ)) :=
  let f5 : ℝ := 158.5
  let s5 := 2 * Real.pi * f5
  highpassFactor (s5 : ℝ) >>= fun a => cFactors fr >>= fun l => .ok (a :: l)

/-- `_d_factors` (`_weighting.py:80-96`) -/
noncomputable def dFactors (_fr : ℝ) : Py (List (Term ℝ ℂ)) :=
  let a : ℝ := 1037918.48
  let b : ℝ := 1080768.16
  let c : ℝ := 9837328.0
  let d : ℝ := 11723776.0
  let e : ℝ := 79919.29
  let f : ℝ := 1345600.0
  let u := 2 * Real.pi * Real.sqrt e
  let v := 2 * Real.pi * Real.sqrt f
  let w := 2 * Real.pi * Real.sqrt b
  let x := 2 * Real.pi * Real.sqrt a
  let y := 2 * Real.pi * Real.sqrt d
  let z := 2 * Real.pi * Real.sqrt c
  [highpassFactor (u : ℝ), lowpassFactor (v : ℝ),
    div (.polynomial [1, (w : ℝ), (x ^ 2 : ℝ)] false) (.polynomial [1, (y : ℝ), (z ^ 2 : ℝ)] false)].mapM id

/-- `_u_factors` (`_weighting.py:99-117`) -/
noncomputable def uFactors (_fr : ℝ) : Py (List (Term ℝ ℂ)) :=
  let f1 : ℂ := 12200
  let f3 : ℂ := 7850 - 8800 * I
  let f4 : ℂ := 7850 + 8800 * I
  let f5 : ℂ := 2900 - 12150 * I
  let f6 : ℂ := 2900 + 12150 * I
  let s := fun f : ℂ => 2 * Real.pi * f
  [lowpassFactor (s f1), lowpassFactor (s f1), lowpassFactor (s f3), lowpassFactor (s f4), lowpassFactor (s f5),
    lowpassFactor (s f6)].mapM id

/-- `_transfer_function` (`_weighting.py:120-133`). `Product` is the constructor of the class. When the gain is zero or
not finite, the implementation computes numbers, that are not finite, with a warning. There are no such numbers here, so
this is modelled as an exception. -/
noncomputable def weightingFunction (generator : ℝ → Py (List (Term ℝ ℂ))) (E : Env ℝ ℂ) : Py (Term ℝ ℂ) :=
  let fr : ℝ := 1000
  generator fr >>= fun transferFunctions =>
    match transferFunctions.mapM fun tf => eval E fr false tf with
    | none => .error .zeroDivisionError
    | some values =>
      let gain := values.prod
      if gain = 0 then .error .zeroDivisionError
      else .ok (.product (.constant (1 / gain) :: transferFunctions) false)

/-- the weighting filters (`_weighting.py:136-181`) -/
inductive Weighting where
  | a | b | c | d | u

/-- the generators of the weighting filters -/
noncomputable def Weighting.generator : Weighting → ℝ → Py (List (Term ℝ ℂ))
  | .a => aFactors
  | .b => bFactors
  | .c => cFactors
  | .d => dFactors
  | .u => uFactors

/-- the labels of the weighting filters -/
def Weighting.label : Weighting → String
  | .a => "A-weighting"
  | .b => "B-weighting"
  | .c => "C-weighting"
  | .d => "D-weighting"
  | .u => "U-weighting"

/-- the constructors `AWeighting()` to `UWeighting()` -/
noncomputable def Weighting.filter (w : Weighting) (E : Env ℝ ℂ) : Py (Channels ℝ ℂ) :=
  weightingFunction w.generator E >>= fun t => .ok (Channels.new [t] [w.label])

end Filter
end Verif
