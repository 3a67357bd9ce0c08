import Verif.Convolution

/-
The convolution and the correlation of a signal with something, that is not a signal: `Signal.convolve`,
`Signal.correlate` and `__convolve_with_array` in `sumpf/_data/_signals/_signal.py`.
-/

namespace Verif

/-- What a signal can be convolved with, apart from signals: a number (`numpy.shape(other)` is empty), an array with
one dimension or an array with two dimensions. -/
inductive Operand (α : Type) where
  | scalar (x : α)
  | vector (length : Nat) (get : Nat → α)
  | matrix (M : Mat α)

namespace Signal
variable {α R : Type}

/-- `signal.__convolve_with_scalar(other)` (`_signal.py:1002-1005`); `mem` is the uninitialised memory. -/
def convolveWithScalar [Mul α] (mem : Nat → Nat → α) (s : Signal α R) (x : α) : Py (Mat α × Int) := do
  let channels := alloc mem s.count s.length
  let channels ← channels.assign .all .all
    { rows := s.channels.rows, cols := s.channels.cols, get := fun i j => s.channels.get i j * x }
  return (channels, s.offset)

/-- `signal.__convolve_with_array(other, 0, function, mode)` for `other`, that is not a signal
(`_signal.py:981-1000`); `f` is `function[mode]`. -/
def convolveWithOther [Mul α] (mem : Nat → Nat → α) (f : Convolver α) (s : Signal α R) :
    Operand α → Py (Mat α × Int)
  | .scalar x => convolveWithScalar mem s x
  | .vector n v => f.withVector s.channels { rows := 1, cols := n, get := fun _ j => v j } s.offset 0
  | .matrix M => convolveWithArray f s M 0

/-- `signal.convolve(other, mode)` for `other`, that is not a signal (`_signal.py:679-688`), and
`signal.correlate(other, mode)` (`_signal.py:717-726`); `f` is `convolution[mode]` or `correlation[mode]`. -/
def convolveOther [Mul α] (mem : Nat → Nat → α) (f : Convolver α) (s : Signal α R) (other : Operand α) :
    Py (Signal α R) := do
  let (channels, offset) ← convolveWithOther mem f s other
  return new channels s.rate offset (some s.labels)

end Signal
end Verif
