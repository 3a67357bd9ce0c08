import Verif.Fft
import Verif.Signal
import Mathlib.Algebra.BigOperators.Fin

/-
Model of `sumpf/_internal/_convolution.py` and of the methods `convolve` and `correlate` of
`sumpf/_data/_signals/_signal.py`.

One-dimensional arrays are modelled as matrices with one row, so that the helper functions for vectors
(`pad_vector`, `shift_vector`, …, `_convolution.py:590-653`) coincide with those for matrices
(`_convolution.py:656-720`), which are the same code with `[:, …]` instead of `[…]`.

The modes `FULL`, `SAME` and `VALID` are modelled for samples in an arbitrary semiring, `SPECTRUM` and
`SPECTRUM_PADDED` for real numbers.
-/

namespace Verif

open Finset

/-! ### numpy's functions -/

/-- the modes of `numpy.convolve` and `numpy.correlate` -/
inductive NpMode where
  | full | same | valid

section
variable {α : Type} [AddCommMonoid α] [Mul α]

/-- Element `k` of the linear convolution of two arrays with `la` and `lb` elements. -/
def npFull (la lb : Nat) (a b : Nat → α) (k : Nat) : α :=
  ∑ i ∈ range la, if i ≤ k ∧ k - i < lb then a i * b (k - i) else 0

/-- Element `k` of `numpy.correlate(a, b, mode="full")`, for real numbers. -/
def npCorr (la lb : Nat) (a b : Nat → α) (k : Nat) : α :=
  ∑ l ∈ range la, if k ≤ l + (lb - 1) ∧ l + (lb - 1) - k < lb then a l * b (l + (lb - 1) - k) else 0

/-- The number of elements of the result of `numpy.convolve` and `numpy.correlate`. -/
def npLength (mode : NpMode) (la lb : Nat) : Nat := match mode with
  | .full => la + lb - 1
  | .same => max la lb
  | .valid => max la lb - min la lb + 1

/-- The index in the result for `mode="full"`, at which the result for `mode` begins. -/
def npStart (mode : NpMode) (la lb : Nat) : Nat := match mode with
  | .full => 0
  | .same => (min la lb - 1) / 2
  | .valid => min la lb - 1

/-- `numpy.convolve(a, b, mode)` -/
def npConvolve (mode : NpMode) (a b : Mat α) : Py (Mat α) :=
  if a.cols = 0 ∨ b.cols = 0 then .error .valueError
  else .ok
    { rows := 1
      cols := npLength mode a.cols b.cols
      get := fun _ k => npFull a.cols b.cols (a.get 0) (b.get 0) (npStart mode a.cols b.cols + k) }

/-- `numpy.correlate(a, b, mode)`; SuMPF uses it with the modes `full` and `valid` only. -/
def npCorrelate (mode : NpMode) (a b : Mat α) : Py (Mat α) :=
  if a.cols = 0 ∨ b.cols = 0 then .error .valueError
  else .ok
    { rows := 1
      cols := npLength mode a.cols b.cols
      get := fun _ k => npCorr a.cols b.cols (a.get 0) (b.get 0) (npStart mode a.cols b.cols + k) }

end

/-- `A[:, ::-1]` -/
def Mat.reverse {α : Type} (A : Mat α) : Mat α where
  rows := A.rows
  cols := A.cols
  get i j := A.get i (A.cols - 1 - j)

/-! ### helper functions -/

section
variable {α : Type}

/-- `channels = allocate_array(shape=(rows, length))` followed by
`for c, channel in zip(…, channels): channel[:] = g(c)` -/
def fillRows (mem : Nat → Nat → α) (rows : Nat) (length : Int) (g : Nat → Py (Mat α)) : Py (Mat α) :=
  if length < 0 then .error .valueError
  else (List.range rows).foldlM (fun channels (c : Nat) => do
    let row ← g c
    channels.assign (.range c (c + 1)) .all row) (alloc mem rows length.toNat)

variable [Zero α]

/-- `pad_matrix` (`_convolution.py:656-661, 590-595`) -/
def padMatrix (mem : Nat → Nat → α) (matrix : Mat α) (length rows padded : Nat) : Py (Mat α) := do
  let result := alloc mem rows padded
  let result ← result.assign .all (.range 0 length) (matrix.slice (.range 0 rows) .all)
  result.assign .all (.drop length) (.scalar 0)

/-- `shift_matrix` (`_convolution.py:664-669, 598-603`) -/
def shiftMatrix (mem : Nat → Nat → α) (matrix : Mat α) (length rows padded : Nat) : Py (Mat α) := do
  let result := alloc mem rows padded
  let result ← result.assign .all (.range 0 (-(length : Int))) (.scalar 0)
  result.assign .all (.drop (-(length : Int))) (matrix.slice (.range 0 rows) .all)

/-- `pad_and_shift_matrix` (`_convolution.py:672-679, 606-613`) -/
def padAndShiftMatrix (mem : Nat → Nat → α) (matrix : Mat α) (length rows padded shift : Nat) : Py (Mat α) := do
  let length1 := length + shift
  let result := alloc mem rows padded
  let result ← result.assign .all (.range 0 shift) (.scalar 0)
  let result ← result.assign .all (.range shift length1) (matrix.slice (.range 0 rows) .all)
  result.assign .all (.drop length1) (.scalar 0)

omit [Zero α] in
/-- `cycle_matrix` (`_convolution.py:682-687, 616-621`) -/
def cycleMatrix (mem : Nat → Nat → α) (matrix : Mat α) (length rows : Nat) (shift : Int) : Py (Mat α) := do
  let result := alloc mem rows length
  let result ← result.assign .all (.range 0 shift) (matrix.slice (.range 0 rows) (.drop (-shift)))
  result.assign .all (.drop shift) (matrix.slice (.range 0 rows) (.range 0 (-shift)))

/-- `pad_and_cycle_matrix` (`_convolution.py:690-703, 624-637`) -/
def padAndCycleMatrix (mem : Nat → Nat → α) (matrix : Mat α) (length rows padded : Nat) (shift : Int) :
    Py (Mat α) := do
  let result := alloc mem rows padded
  let result ←
    if (length : Int) > shift then do
      let length1 : Int := length + shift
      let result ← result.assign .all (.range 0 length1) (matrix.slice (.range 0 rows) (.drop (-shift)))
      result.assign .all (.range length1 shift) (.scalar 0)
    else
      result.assign .all (.range 0 shift) (.scalar 0)
  result.assign .all (.drop shift) (matrix.slice (.range 0 rows) (.range 0 (-shift)))

/-- `shift_and_cycle_matrix` (`_convolution.py:706-720, 640-653`) -/
def shiftAndCycleMatrix (mem : Nat → Nat → α) (matrix : Mat α) (length rows padded : Nat) (shift : Int) :
    Py (Mat α) := do
  let result := alloc mem rows padded
  let result ← result.assign .all (.range 0 shift) (matrix.slice (.range 0 rows) (.drop (-shift)))
  if (length : Int) > shift then
    let length1 : Int := length - shift
    let result ← result.assign .all (.range shift (-length1)) (.scalar 0)
    result.assign .all (.drop (-length1)) (matrix.slice (.range 0 rows) (.range 0 (-shift)))
  else
    result.assign .all (.drop shift) (.scalar 0)

end

/-! ### The classes for the modes -/

/-- The methods of a class which computes convolutions or correlations: they get two arrays and the two
offsets and return an array and an offset. -/
structure Convolver (α : Type) where
  withVector : Mat α → Mat α → Int → Int → Py (Mat α × Int)
  withVector2 : Mat α → Mat α → Int → Int → Py (Mat α × Int)
  withMatrix : Mat α → Mat α → Int → Int → Py (Mat α × Int)

section
variable {α : Type} [AddCommMonoid α] [Mul α] (mem : Nat → Nat → α)

/-- `FullConvolution` (`_convolution.py:50-80`); `with_vector2` is inherited from `Convolution`
(`_convolution.py:40-47`) -/
def fullConvolution : Convolver α where
  withVector matrix vector o0 o1 := do
    let channels ← fillRows mem matrix.rows ((matrix.cols : Int) + vector.cols - 1) fun c =>
      npConvolve .full (matrix.row c) vector
    return (channels, o0 + o1)
  withVector2 vector matrix o0 o1 := do
    let channels ← fillRows mem matrix.rows ((matrix.cols : Int) + vector.cols - 1) fun c =>
      npConvolve .full (matrix.row c) vector
    return (channels, o0 + o1)
  withMatrix a b o0 o1 := do
    let channels ← fillRows mem (min a.rows b.rows) ((a.cols : Int) + b.cols - 1) fun c =>
      npConvolve .full (a.row c) (b.row c)
    return (channels, o0 + o1)

/-- `SameConvolution` (`_convolution.py:83-114`) -/
def sameConvolution : Convolver α where
  withVector matrix vector o0 o1 := do
    let channels ← fillRows mem matrix.rows (max matrix.cols vector.cols) fun c =>
      npConvolve .same (matrix.row c) vector
    return (channels, o0 + o1 + ((min matrix.cols vector.cols : Nat) - 1 : Int) / 2)
  withVector2 vector matrix o0 o1 := do
    let channels ← fillRows mem matrix.rows (max matrix.cols vector.cols) fun c =>
      npConvolve .same (matrix.row c) vector
    return (channels, o0 + o1 + ((min matrix.cols vector.cols : Nat) - 1 : Int) / 2)
  withMatrix a b o0 o1 := do
    let channels ← fillRows mem (min a.rows b.rows) (max a.cols b.cols) fun c =>
      npConvolve .same (a.row c) (b.row c)
    return (channels, o0 + o1 + ((min a.cols b.cols : Nat) - 1 : Int) / 2)

/-- `ValidConvolution` (`_convolution.py:117-148`) -/
def validConvolution : Convolver α where
  withVector matrix vector o0 o1 := do
    let channels ← fillRows mem matrix.rows (((matrix.cols : Int) - vector.cols).natAbs + 1) fun c =>
      npConvolve .valid (matrix.row c) vector
    return (channels, o0 + o1 + ((min matrix.cols vector.cols : Nat) - 1 : Int))
  withVector2 vector matrix o0 o1 := do
    let channels ← fillRows mem matrix.rows (((matrix.cols : Int) - vector.cols).natAbs + 1) fun c =>
      npConvolve .valid (matrix.row c) vector
    return (channels, o0 + o1 + ((min matrix.cols vector.cols : Nat) - 1 : Int))
  withMatrix a b o0 o1 := do
    let channels ← fillRows mem (min a.rows b.rows) (((a.cols : Int) - b.cols).natAbs + 1) fun c =>
      npConvolve .valid (a.row c) (b.row c)
    return (channels, o0 + o1 + ((min a.cols b.cols : Nat) - 1 : Int))

/-- `numpy.correlate(a, b, mode)[::-1]` -/
def npCorrelateReversed (mode : NpMode) (a b : Mat α) : Py (Mat α) := do
  let r ← npCorrelate mode a b
  return r.reverse

/-- `FullCorrelation` (`_convolution.py:254-298`) -/
def fullCorrelation : Convolver α where
  withVector matrix vector o0 o1 := do
    let channels ← fillRows mem matrix.rows ((matrix.cols : Int) + vector.cols - 1) fun c =>
      npCorrelateReversed .full (matrix.row c) vector
    return (channels, o1 - o0 - matrix.cols + 1)
  withVector2 vector matrix o0 o1 := do
    let channels ← fillRows mem matrix.rows ((matrix.cols : Int) + vector.cols - 1) fun c =>
      npCorrelateReversed .full vector (matrix.row c)
    return (channels, o1 - o0 - vector.cols + 1)
  withMatrix a b o0 o1 := do
    let channels ← fillRows mem (min a.rows b.rows) ((a.cols : Int) + b.cols - 1) fun c =>
      npCorrelateReversed .full (a.row c) (b.row c)
    return (channels, o1 - o0 - a.cols + 1)

/-- `SameCorrelation` (`_convolution.py:301-350`) -/
def sameCorrelation : Convolver α where
  withVector matrix vector o0 o1 := do
    let rl := max matrix.cols vector.cols
    let channels ← fillRows mem matrix.rows rl fun c =>
      npConvolve .same (matrix.row c).reverse vector
    return (channels, o1 - o0 + vector.cols - rl - ((min matrix.cols vector.cols : Nat) : Int) / 2)
  withVector2 vector matrix o0 o1 := do
    let rl := max matrix.cols vector.cols
    let vector := vector.reverse
    let channels ← fillRows mem matrix.rows rl fun c =>
      npConvolve .same vector (matrix.row c)
    return (channels, o1 - o0 + matrix.cols - rl - ((min vector.cols matrix.cols : Nat) : Int) / 2)
  withMatrix a b o0 o1 := do
    let rl := max a.cols b.cols
    let channels ← fillRows mem (min a.rows b.rows) rl fun c =>
      npConvolve .same (a.row c).reverse (b.row c)
    return (channels, o1 - o0 + b.cols - rl - ((min a.cols b.cols : Nat) : Int) / 2)

/-- `ValidCorrelation` (`_convolution.py:353-401`) -/
def validCorrelation : Convolver α where
  withVector matrix vector o0 o1 := do
    let rl : Int := ((matrix.cols : Int) - vector.cols).natAbs + 1
    let channels ← fillRows mem matrix.rows rl fun c =>
      npCorrelateReversed .valid (matrix.row c) vector
    return (channels, o1 - o0 - ((matrix.cols : Int) - vector.cols + rl) / 2)
  withVector2 vector matrix o0 o1 := do
    let rl : Int := ((vector.cols : Int) - matrix.cols).natAbs + 1
    let channels ← fillRows mem matrix.rows rl fun c =>
      npCorrelateReversed .valid vector (matrix.row c)
    return (channels, o1 - o0 - ((vector.cols : Int) - matrix.cols + rl) / 2)
  withMatrix a b o0 o1 := do
    let rl : Int := ((a.cols : Int) - b.cols).natAbs + 1
    let channels ← fillRows mem (min a.rows b.rows) rl fun c =>
      npCorrelateReversed .valid (a.row c) (b.row c)
    return (channels, o1 - o0 - ((a.cols : Int) - b.cols + rl) / 2)

end

section
variable (mem : Nat → Nat → ℝ)

/-- The common end of the methods which compute in the frequency domain:
`channels[:] = numpy.fft.irfft(rfft(a) * rfft(b))[:, part]`, where the first spectrum is conjugated for
correlations.  (`_convolution.py:173-176, 197-200, 225-228, 247-250, 432-435, 460-463, 488-491, 521-524, 546-549, 571-574`) -/
noncomputable def viaSpectrum (conj : Bool) (a b : Mat ℝ) (rows rl : Nat) (part : PySlice) : Py (Mat ℝ) := do
  let as ← a.rfft
  let bs ← b.rfft
  let product ← Mat.zipBroadcast (fun x y => (if conj then (starRingEnd ℂ) x else x) * y) as bs
  let result ← product.irfft
  (alloc mem rows rl).assign .all .all (result.slice .all part)

/-- `if ml < pl: matrix = pad_matrix(matrix, ml, mc, pl)` (`_convolution.py:168-171, 192-195`) -/
def padIfShorter (matrix : Mat ℝ) (length rows padded : Nat) : Py (Mat ℝ) :=
  if length < padded then padMatrix mem matrix length rows padded else .ok matrix

/-- `SpectrumConvolution.with_vector` (`_convolution.py:156-177`) -/
noncomputable def spectrumConvolutionVector (matrix vector : Mat ℝ) (o0 o1 : Int) : Py (Mat ℝ × Int) := do
  let mc := matrix.rows
  let ml := matrix.cols
  let vl := vector.cols
  let rl := max ml vl
  let pl := if rl % 2 = 0 then rl else rl + 1
  let matrix ← padIfShorter mem matrix ml mc pl
  let vector ← padIfShorter mem vector vl 1 pl
  let channels ← viaSpectrum mem false matrix vector mc rl (.range 0 rl)
  return (channels, o0 + o1)

/-- `SpectrumConvolution.with_matrix` (`_convolution.py:179-201`) -/
noncomputable def spectrumConvolutionMatrix (a b : Mat ℝ) (o0 o1 : Int) : Py (Mat ℝ × Int) := do
  let al := a.cols
  let bl := b.cols
  let c := min a.rows b.rows
  let rl := max al bl
  let pl := if rl % 2 = 0 then rl else rl + 1
  let a ← padIfShorter mem a al c pl
  let b ← padIfShorter mem b bl c pl
  let channels ← viaSpectrum mem false (a.slice (.range 0 c) .all) (b.slice (.range 0 c) .all) c rl (.range 0 rl)
  return (channels, o0 + o1)

/-- `SpectrumConvolution` (`_convolution.py:151-201`) -/
noncomputable def spectrumConvolution : Convolver ℝ where
  withVector := spectrumConvolutionVector mem
  withVector2 vector matrix o0 o1 := spectrumConvolutionVector mem matrix vector o0 o1
  withMatrix := spectrumConvolutionMatrix mem

/-- `SpectrumPaddedConvolution.with_vector` (`_convolution.py:210-229`) -/
noncomputable def spectrumPaddedConvolutionVector (matrix vector : Mat ℝ) (o0 o1 : Int) : Py (Mat ℝ × Int) := do
  let mc := matrix.rows
  let ml := matrix.cols
  let vl := vector.cols
  if ml + vl = 0 then throw .valueError
  let rl := ml + vl - 1
  let pl := if rl % 2 = 1 then rl + 1 else rl + 2
  let matrix ← padMatrix mem matrix ml mc pl
  let vector ← padMatrix mem vector vl 1 pl
  let channels ← viaSpectrum mem false matrix vector mc rl (.range 0 rl)
  return (channels, o0 + o1)

/-- `SpectrumPaddedConvolution` (`_convolution.py:204-251`).  (If both arrays are empty, the padded length
is zero, for which `rfft` raises the error; this is a separate case here, because the lengths are natural
numbers.) -/
noncomputable def spectrumPaddedConvolution : Convolver ℝ where
  withVector := spectrumPaddedConvolutionVector mem
  withVector2 vector matrix o0 o1 := spectrumPaddedConvolutionVector mem matrix vector o0 o1
  withMatrix a b o0 o1 := do
    let al := a.cols
    let bl := b.cols
    let c := min a.rows b.rows
    if al + bl = 0 then throw .valueError
    let rl := al + bl - 1
    let pl := if rl % 2 = 1 then rl + 1 else rl + 2
    let a ← padMatrix mem a al c pl
    let b ← padMatrix mem b bl c pl
    let channels ← viaSpectrum mem false (a.slice (.range 0 c) .all) (b.slice (.range 0 c) .all) c rl (.range 0 rl)
    return (channels, o0 + o1)

/-- The preparation of the arrays for `SpectrumCorrelation` (`_convolution.py:421-431, 449-459, 477-487`), which
is the same for its three methods: `a` is the array of the first signal and `b` that of the second.  (`cycle_vector` and
`cycle_matrix` get the length of either array, which are the same in that branch.) -/
def prepareCorrelation (a b : Mat ℝ) (ar br : Nat) : Py (Mat ℝ × Mat ℝ) :=
  let al := a.cols
  let bl := b.cols
  let rl := max al bl
  if rl % 2 = 1 then do
    let pl := rl + 1
    let a ← shiftMatrix mem a al ar pl
    let b ← padMatrix mem b bl br pl
    return (a, b)
  else if al < rl then do
    let a ← shiftAndCycleMatrix mem a al ar rl 1
    return (a, b)
  else if bl < rl then do
    let b ← padAndCycleMatrix mem b bl br rl (-1)
    return (a, b)
  else do
    let b ← cycleMatrix mem b al br (-1)
    return (a, b)

/-- `SpectrumCorrelation` (`_convolution.py:404-492`) -/
noncomputable def spectrumCorrelation : Convolver ℝ where
  withVector matrix vector o0 o1 := do
    let mc := matrix.rows
    let ml := matrix.cols
    let rl := max ml vector.cols
    let (matrix, vector) ← prepareCorrelation mem matrix vector mc 1
    let channels ← viaSpectrum mem true matrix vector mc rl (.drop (-(rl : Int)))
    return (channels, o1 - o0 - ml + 1)
  withVector2 vector matrix o0 o1 := do
    let mc := matrix.rows
    let vl := vector.cols
    let rl := max matrix.cols vl
    let (vector, matrix) ← prepareCorrelation mem vector matrix 1 mc
    let channels ← viaSpectrum mem true vector matrix mc rl (.drop (-(rl : Int)))
    return (channels, o1 - o0 - vl + 1)
  withMatrix a b o0 o1 := do
    let al := a.cols
    let c := min a.rows b.rows
    let rl := max al b.cols
    let (a, b) ← prepareCorrelation mem a b c c
    let channels ← viaSpectrum mem true (a.slice (.range 0 c) .all) (b.slice (.range 0 c) .all) c rl
      (.drop (-(rl : Int)))
    return (channels, o1 - o0 - al + 1)

/-- The preparation of the arrays for `SpectrumPaddedCorrelation` (`_convolution.py:512-520, 537-545, 562-570`). -/
def preparePaddedCorrelation (a b : Mat ℝ) (ar br : Nat) : Py (Mat ℝ × Mat ℝ) :=
  let al := a.cols
  let bl := b.cols
  let rl := al + bl - 1
  if al + bl = 0 then .error .valueError
  else if rl % 2 = 1 then do
    let pl := rl + 1
    let a ← padAndShiftMatrix mem a al ar pl 1
    let b ← shiftMatrix mem b bl br pl
    return (a, b)
  else do
    let pl := rl + 2
    let a ← padAndShiftMatrix mem a al ar pl 2
    let b ← shiftMatrix mem b bl br pl
    return (a, b)

/-- `SpectrumPaddedCorrelation` (`_convolution.py:495-575`) -/
noncomputable def spectrumPaddedCorrelation : Convolver ℝ where
  withVector matrix vector o0 o1 := do
    let mc := matrix.rows
    let ml := matrix.cols
    let rl := ml + vector.cols - 1
    let (matrix, vector) ← preparePaddedCorrelation mem matrix vector mc 1
    let channels ← viaSpectrum mem true matrix vector mc rl (.range 0 rl)
    return (channels, o1 - o0 - ml + 1)
  withVector2 vector matrix o0 o1 := do
    let mc := matrix.rows
    let vl := vector.cols
    let rl := matrix.cols + vl - 1
    let (vector, matrix) ← preparePaddedCorrelation mem vector matrix 1 mc
    let channels ← viaSpectrum mem true vector matrix mc rl (.range 0 rl)
    return (channels, o1 - o0 - vl + 1)
  withMatrix a b o0 o1 := do
    let al := a.cols
    let c := min a.rows b.rows
    let rl := al + b.cols - 1
    let (a, b) ← preparePaddedCorrelation mem a b c c
    let channels ← viaSpectrum mem true (a.slice (.range 0 c) .all) (b.slice (.range 0 c) .all) c rl (.range 0 rl)
    return (channels, o1 - o0 - al + 1)

end

namespace Signal
variable {α R : Type}

/-- `__convolve_with_array` for a two-dimensional array (`_signal.py:981-1000`); a one-dimensional array is
treated like a matrix with one row. -/
def convolveWithArray (f : Convolver α) (s : Signal α R) (other : Mat α) (otherOffset : Int) : Py (Mat α × Int) :=
  if other.rows = 1 then f.withVector s.channels (other.row 0) s.offset otherOffset
  else if s.count = 1 then f.withVector2 (s.channels.row 0) other s.offset otherOffset
  else f.withMatrix s.channels other s.offset otherOffset

/-- `signal.convolve(other, mode)` for another signal (`_signal.py:673-688`) and, with the label
`"Correlation"`, `signal.correlate(other, mode)` (`_signal.py:711-726`). -/
def convolve (f : Convolver α) (label : String) (s o : Signal α R) : Py (Signal α R) := do
  let (channels, offset) ← convolveWithArray f s o.channels o.offset
  return new channels s.rate offset (some (List.replicate s.count label))

/-- `signal.convolve(other, mode)` and `signal.correlate(other, mode)` for an array. -/
def convolveArray (f : Convolver α) (s : Signal α R) (other : Mat α) : Py (Signal α R) := do
  let (channels, offset) ← convolveWithArray f s other 0
  return new channels s.rate offset (some s.labels)

end Signal
end Verif
