import Verif.Rounding
import Verif.Convolution
import Verif.EnergyDecay
import Verif.SignalAlgebra
import Verif.Spectrum

/-
Computations of samples with floating point numbers. In the other files, the samples are elements of an arbitrary type, for
which exact arithmetic is required by most theorems. Here, the samples are rational numbers and the result of each operation
is rounded to a floating point number with double precision:

* the operators for signals (`/repo/sumpf/_data/_sampled_data.py:99-125`) and the energy decay curve
  (`/repo/sumpf/_data/_signals/_energy_decay.py:46-58`) are those of the other files, for samples of the type `Num`
* the sample times of signals and the frequencies of spectrums (`/repo/sumpf/_data/_signals/_signal.py:292-299`,
  `/repo/sumpf/_data/_spectrums/_spectrum.py:309-314`)
* the mean and the variance (`/repo/sumpf/_data/_signals/_signal.py:732-743, 758-769`)
* the convolution in the mode FULL (`/repo/sumpf/_internal/_convolution.py:50-80`)

Overflows and denormalised numbers are not modelled, see `Double.fl`.
-/

namespace Verif
namespace Double

/-- a floating point number. The operators round their exact result. -/
structure Num where
  val : ℚ
deriving DecidableEq, Inhabited

namespace Num

instance : Zero Num := ⟨⟨0⟩⟩
instance : Add Num := ⟨fun a b => ⟨fl (a.val + b.val)⟩⟩
instance : Sub Num := ⟨fun a b => ⟨fl (a.val - b.val)⟩⟩
instance : Mul Num := ⟨fun a b => ⟨fl (a.val * b.val)⟩⟩

end Num

/-! ### The axes -/

/-- element `k` of `numpy.linspace(start, stop, n)`, statement by statement as in numpy's `function_base.py` -/
def linspace (start stop : ℚ) (n k : Nat) : ℚ :=
  let div := (n : ℚ) - 1
  let delta := fl (stop - start)
  let y :=
    if 0 < div then
      let step := fl (delta / div)
      if step = 0 then fl (fl (k / div) * delta) else fl (k * step)
    else fl (k * delta)
  let y := fl (y + start)
  if 1 < n ∧ k = n - 1 then stop else y

/-- `signal.time_samples()` (`_signal.py:292-299`): the number of values and the values -/
def timeSamples {α : Type} (s : Signal α ℚ) : Py (Nat × (Nat → ℚ)) :=
  if s.rate = 0 then .error .zeroDivisionError
  else .ok (s.length, linspace (firstTime s.offset s.rate) (lastTime s.length s.offset s.rate) s.length)

/-- `spectrum.frequency_samples()` (`_spectrum.py:309-314`) -/
def frequencySamples {α : Type} (s : Spectrum α ℚ) : Nat × (Nat → ℚ) :=
  (s.length, linspace 0 (lastFrequency s.length s.resolution) s.length)

/-! ### Sums

Neither numpy nor the libraries, which it uses, specify the order of the additions (`numpy.sum` adds blocks of numbers
pairwise, and vector instructions add multiple partial sums), so the order is a parameter. -/

/-- an order, in which numbers with the given indices are added -/
inductive Order where
  | leaf (i : Nat)
  | node (l r : Order)

namespace Order

/-- the indices of the numbers -/
def leaves : Order → List Nat
  | leaf i => [i]
  | node l r => l.leaves ++ r.leaves

/-- the sum in this order -/
def sum (x : Nat → ℚ) : Order → ℚ
  | leaf i => x i
  | node l r => fl (l.sum x + r.sum x)

end Order

/-- `numpy.sum` of an array with the values `x 0`, ..., `x (n - 1)`; the order of the additions depends on the number of the
elements -/
def npSum (order : Nat → Order) (n : Nat) (x : Nat → ℚ) : ℚ := if n = 0 then 0 else (order n).sum x

/-- `numpy.mean`. `none` is `nan`. -/
def npMean (order : Nat → Order) (n : Nat) (x : Nat → ℚ) : Option ℚ :=
  if n = 0 then none else some (fl (npSum order n x / n))

/-- `numpy.var`: the mean of the squared differences to the mean -/
def npVar (order : Nat → Order) (n : Nat) (x : Nat → ℚ) : Option ℚ :=
  (npMean order n x).bind fun mean => npMean order n fun i => fl (fl (x i - mean) * fl (x i - mean))

/-- a function with the parameter `axis=1`: the results for the rows -/
def alongRows (f : Nat → (Nat → ℚ) → Option ℚ) (A : Mat Num) : List (Option ℚ) :=
  (List.range A.rows).map fun c => f A.cols fun i => (A.get c i).val

/-- a function with the parameter `axis=None`: the result for the flattened array -/
def flattened (f : Nat → (Nat → ℚ) → Option ℚ) (A : Mat Num) : Option ℚ :=
  f (A.rows * A.cols) fun j => (A.get (j / A.cols) (j % A.cols)).val

/-- `signal.mean()` (`_signal.py:732-743`) with the parameter `single_value=False` -/
def mean {R : Type} (order : Nat → Order) (s : Signal Num R) : List (Option ℚ) := alongRows (npMean order) s.channels

/-- `signal.mean()` (`_signal.py:732-743`) with the parameter `single_value=True` -/
def meanSingle {R : Type} (order : Nat → Order) (s : Signal Num R) : Option ℚ := flattened (npMean order) s.channels

/-- `signal.variance()` (`_signal.py:758-769`) with the parameter `single_value=False` -/
def variance {R : Type} (order : Nat → Order) (s : Signal Num R) : List (Option ℚ) := alongRows (npVar order) s.channels

/-! ### The convolution -/

/-- a product, that is rounded, unless it is computed together with the following addition by one instruction -/
def product (fused : Nat → Bool) (i : Nat) (a b : ℚ) : ℚ := if fused i then a * b else fl (a * b)

/-- element `k` of `numpy.convolve(a, b, mode="full")` for two arrays with `la` and `lb` elements: the sum of the products
`a i * b (k - i)`, for which both indices exist. `i` begins with `k + 1 - lb` and ends before `min la (k + 1)`. -/
def npFull (order : Nat → Order) (fused : Nat → Bool) (la lb : Nat) (a b : Nat → ℚ) (k : Nat) : ℚ :=
  let start := k + 1 - lb
  let number := min la (k + 1) - start
  npSum order number fun j => product fused j (a (start + j)) (b (k - (start + j)))

/-- `numpy.convolve(a, b, mode="full")`. The elements are stored as floating point numbers, so that the result is rounded,
also if it is one product, that has not been rounded yet. -/
def npConvolve (order : Nat → Order) (fused : Nat → Bool) (a b : Mat Num) : Py (Mat Num) :=
  if a.cols = 0 ∨ b.cols = 0 then .error .valueError
  else .ok
    { rows := 1
      cols := npLength .full a.cols b.cols
      get := fun _ k => ⟨fl (npFull order fused a.cols b.cols (fun i => (a.get 0 i).val) (fun i => (b.get 0 i).val) k)⟩ }

/-- `FullConvolution` (`_convolution.py:50-80`), see `Verif.fullConvolution` -/
def fullConvolution (mem : Nat → Nat → Num) (order : Nat → Order) (fused : Nat → Bool) : Convolver Num where
  withVector matrix vector o0 o1 := do
    let channels ← fillRows mem matrix.rows ((matrix.cols : Int) + vector.cols - 1) fun c =>
      npConvolve order fused (matrix.row c) vector
    return (channels, o0 + o1)
  withVector2 vector matrix o0 o1 := do
    let channels ← fillRows mem matrix.rows ((matrix.cols : Int) + vector.cols - 1) fun c =>
      npConvolve order fused (matrix.row c) vector
    return (channels, o0 + o1)
  withMatrix a b o0 o1 := do
    let channels ← fillRows mem (min a.rows b.rows) ((a.cols : Int) + b.cols - 1) fun c =>
      npConvolve order fused (a.row c) (b.row c)
    return (channels, o0 + o1)

end Double
end Verif
