import Verif.Signal
import Verif.Rounding

/-
The comparison of signals with different types of numbers (`/repo/sumpf/_data/_sampled_data.py:46-64`,
`/repo/sumpf/_data/_signals/_signal.py:150-162`).

An array contains integers with 64 bits or floating point numbers with 64 bits. What is assumed about numpy and python is their
documented behaviour: when an array of integers is compared with an array of floating point numbers, the integers are converted
to floating point numbers, where they are rounded; NaN is different from all numbers and from itself. The hashes of numbers in
python, including the scalars of numpy, only depend on their value; the hash of NaN is computed from the identity of the object
(since python 3.10).

Simplification: both zeros are the same number; they are equal and have the same hash.
-/

namespace Verif
namespace Numbers

/-- an element of an array -/
inductive Num where
  | int (n : Int)
  | float (x : ℚ)
  | inf (negative : Bool)
  | nan
  deriving DecidableEq

/-- the conversion of an element to a floating point number -/
def toDouble : Num → Num
  | .int n => .float (Double.fl n)
  | x => x

/-- the comparison of floating point numbers -/
def sameDouble : Num → Num → Bool
  | .float x, .float y => x == y
  | .inf a, .inf b => a == b
  | _, _ => false

/-- `a == b` for elements of arrays (`_sampled_data.py:50`) -/
def same : Num → Num → Bool
  | .int m, .int n => m == n
  | a, b => sameDouble (toDouble a) (toDouble b)

/-- `hash(x)` for an element, that has been retrieved with `flat` (`_sampled_data.py:63`). The elements are new objects each time,
so that `identity`, from which the hash of NaN is computed, is different for each call of `hash`. Simplification: it is the same
for all samples. -/
def hashNum (hashValue : ℚ → Int) (hashInf : Bool → Int) (identity : Int) : Num → Int
  | .int n => hashValue n
  | .float x => hashValue x
  | .inf a => hashInf a
  | .nan => identity

/-- `s == o` (`_signal.py:150-158`) -/
def signalEq (s o : Signal Num ℚ) : Bool := s.eq same o

/-- `hash(s)` (`_signal.py:160-162`) -/
def signalHash (hashValue : ℚ → Int) (hashInf : Bool → Int) (hashTuple : (Nat × Nat) × List Int × List String → Int)
    (hashOuter : Int × ℚ × Int → Int) (identity : Int) (s : Signal Num ℚ) : Int :=
  s.hash (hashNum hashValue hashInf identity) hashTuple hashOuter

end Numbers
end Verif
