import Mathlib.Algebra.Order.Floor.Ring
import Mathlib.Algebra.Group.Prod
import Mathlib.Data.Rat.Floor
import Verif.Concatenate
import Verif.SignalAlgebra

/-
Model of the data types (`dtype`) of the arrays.  The other files of this model do not treat data types.  The code
depends on them in three places: `allocate_array` (`sumpf/_internal/_functions.py:29-43`) allocates memory in units
of 8 bytes, `Concatenate` (`sumpf/_blocks/_concatenate.py:80-131`) stores its result in an array with the data type
of one of the data sets, and the operators of the signals (`sumpf/_data/_signals/_signal.py:168-203, 843-979`) have
numpy compute with the data types of the operands, before the result is stored in an array of doubles.

The numbers are exact: the rounding of floating point numbers, infinities and NaN are not modelled.  The arithmetic
of integers with a limited number of bits is.
-/

namespace Verif
namespace DataTypes

variable {R : Type}

/-- the kinds of numpy's numerical data types -/
inductive Kind
  | bool
  | uint
  | int
  | float
  | complex
  deriving DecidableEq, Repr

/-- the position of a kind in numpy's casting rule `"same_kind"`, which is the rule for the outputs of functions
like `numpy.add` and for operators like `+=` -/
def Kind.level : Kind → Nat
  | .bool => 0
  | .uint => 1
  | .int => 2
  | .float => 3
  | .complex => 4

/-- a data type: its kind and its `itemsize` in bytes -/
structure DType where
  kind : Kind
  size : Nat
  deriving DecidableEq, Repr

/-- `numpy.float64`, the default data type of `allocate_array` (`_functions.py:29`) -/
def float64 : DType := ⟨.float, 8⟩

/-- `numpy.can_cast(a, b, casting="same_kind")` -/
def sameKind (a b : DType) : Bool := decide (a.kind.level ≤ b.kind.level)

/-- the size of the floating point type, that numpy combines with an integer of `n` bytes -/
def floatSize (n : Nat) : Nat := if n ≤ 1 then 2 else if n ≤ 2 then 4 else 8

/-- the common type of a signed integer with `a` bytes and an unsigned one with `b` bytes -/
def mixedInt (a b : Nat) : DType := if b < a then ⟨.int, a⟩ else if b < 8 then ⟨.int, 2 * b⟩ else float64

/-- `numpy.result_type(a, b)`: the data type, in which numpy combines two arrays -/
def promote (a b : DType) : DType :=
  match a.kind, b.kind with
  | .bool, _ => b
  | _, .bool => a
  | .uint, .uint => ⟨.uint, max a.size b.size⟩
  | .int, .int => ⟨.int, max a.size b.size⟩
  | .int, .uint => mixedInt a.size b.size
  | .uint, .int => mixedInt b.size a.size
  | .float, .float => ⟨.float, max a.size b.size⟩
  | .complex, .complex => ⟨.complex, max a.size b.size⟩
  | .float, .complex => ⟨.complex, max (2 * a.size) b.size⟩
  | .complex, .float => ⟨.complex, max a.size (2 * b.size)⟩
  | .float, _ => ⟨.float, max a.size (floatSize b.size)⟩
  | _, .float => ⟨.float, max (floatSize a.size) b.size⟩
  | .complex, _ => ⟨.complex, max a.size (2 * floatSize b.size)⟩
  | _, .complex => ⟨.complex, max (2 * floatSize a.size) b.size⟩

/-- the conversion of a floating point number to an integer: the digits after the point are dropped -/
def trunc (x : ℚ) : Int := if 0 ≤ x then ⌊x⌋ else ⌈x⌉

/-- What is read from an array of the data type `d`, after the real number `x` has been stored in it.  Integers
wrap around.  (The conversion of floating point numbers outside of the range of an integer type is undefined in C;
here, it wraps around, too.  The real numbers are contained in the complex ones.) -/
def store (d : DType) (x : ℚ) : ℚ :=
  match d.kind with
  | .bool => if x = 0 then 0 else 1
  | .uint => ((trunc x % 2 ^ (8 * d.size) : Int) : ℚ)
  | .int => ((trunc x).bmod (2 ^ (8 * d.size)) : Int)
  | .float => x
  | .complex => x

/-- Storing a complex number; numpy only warns, when it drops the imaginary part. -/
def storeComplex (d : DType) (x : ℚ × ℚ) : ℚ × ℚ :=
  match d.kind with
  | .complex => x
  | _ => (store d x.1, 0)

/-! ### The allocation of memory -/

/-- `allocate_array` (`_functions.py:29-43`) for an array of `number` elements of `size` bytes: the number of elements
of the allocated array.  `RawArray(ctypes.c_double, n)` has `8 * n` bytes; `numpy.frombuffer` fails, if this is not a
multiple of the size of the elements, and `reshape` fails, if the number of elements is wrong. -/
def allocateArray (size number : Nat) : Py Nat :=
  let factor := size / 8
  let bytes := 8 * (factor * number)
  if bytes % size ≠ 0 then .error .valueError
  else if bytes / size ≠ number then .error .valueError
  else .ok (bytes / size)

/-- something with a data type: an array or a data set -/
structure Typed (A : Type) where
  type : DType
  value : A

/-! ### The operators of signals -/

/-- the functions of numpy, by which the operators `+`, `-` and `*` are implemented (`_sampled_data.py:99-117`) -/
inductive BinOp
  | add
  | sub
  | mul
  deriving DecidableEq, Repr

/-- the exact result -/
def BinOp.exact : BinOp → ℚ → ℚ → ℚ
  | .add, x, y => x + y
  | .sub, x, y => x - y
  | .mul, x, y => x * y

/-- `other_pivot` (`_sampled_data.py:99-117`) -/
def BinOp.pivot : BinOp → Option ℚ
  | .add => none
  | .sub => some 0
  | .mul => none

/-- the label of the results (`_sampled_data.py:99-117`) -/
def BinOp.label : BinOp → String
  | .add => "Sum"
  | .sub => "Difference"
  | .mul => "Product"

/-- The data type, in which numpy computes; boolean arrays cannot be subtracted.  (The addition of boolean arrays is
the logical or, their multiplication is the logical and: this is what `store` makes of the exact results.) -/
def BinOp.loop (op : BinOp) (a b : DType) : Py DType :=
  if op = .sub ∧ a.kind = .bool ∧ b.kind = .bool then .error .typeError else .ok (promote a b)

/-- The check and the element-wise function of `function(a, b, out=out)`, where `a`, `b` and `out` have the given data
types: the computation is done in the common type of `a` and `b`, and the result is stored in `out`. -/
def BinOp.function (op : BinOp) (a b out : DType) : Py (ℚ → ℚ → ℚ) := do
  let loop ← op.loop a b
  if sameKind loop out then return fun x y => store out (store loop (op.exact x y))
  else .error .typeError

/-- the copy of the samples in an array of doubles -/
def toDouble (s : Signal ℚ R) : Signal ℚ R := { s with channels := s.channels.map (store float64) }

/-- Copying of the second signal (`_signal.py:933-943`).  The pivot is a python float. -/
def copyOther (op : BinOp) (s o : Typed (Signal ℚ R)) (channels : Mat ℚ) : Py (Mat ℚ) :=
  match op.pivot with
  | none => Signal.copyOther op.exact none s.value (toDouble o.value) channels
  | some p => do
    let f ← op.function float64 o.type float64
    Signal.copyOther f (some p) s.value o.value channels

/-- The computation for the overlapping part (`_signal.py:944-962`).  The function is only called for signals, which
overlap. -/
def computeOverlap (op : BinOp) (s o : Typed (Signal ℚ R)) (channels : Mat ℚ) : Py (Mat ℚ) :=
  if max s.value.offset o.value.offset
      < min (s.value.offset + s.value.length) (o.value.offset + o.value.length) then do
    let f ← op.function s.type o.type float64
    Signal.computeOverlap f s.value o.value channels
  else .ok channels

/-- `__algebra_function_different_shapes` (`_signal.py:919-967`) -/
def algebraDifferentShapes (mem : Nat → Nat → ℚ) (op : BinOp) (s o : Typed (Signal ℚ R)) : Py (Signal ℚ R) := do
  let channels ← Signal.copySelf mem (toDouble s.value) o.value
  let channels ← copyOther op s o channels
  let channels ← computeOverlap op s o channels
  return Signal.new channels s.value.rate (min s.value.offset o.value.offset)
    (Signal.labelTuple op.label (max s.value.count o.value.count))

/-- the samples of the result of `_algebra_function` for two signals (`_signal.py:843-871`) -/
def algebraSignal (mem : Nat → Nat → ℚ) (op : BinOp) (s o : Typed (Signal ℚ R)) : Py (Signal ℚ R) :=
  if s.value.count = o.value.count ∧ s.value.length = o.value.length ∧ s.value.offset = o.value.offset then do
    let f ← op.function s.type o.type float64
    Signal.algebraOverlap mem f op.label s.value o.value
  else if s.value.count = 1 ∧ s.value.length = o.value.length ∧ s.value.offset = o.value.offset then do
    let f ← op.function s.type o.type float64
    Signal.algebraSelfOne mem f op.label s.value o.value
  else if o.value.count = 1 ∧ s.value.length = o.value.length ∧ s.value.offset = o.value.offset then do
    let f ← op.function s.type o.type float64
    Signal.algebraOtherOne mem f op.label s.value o.value
  else algebraDifferentShapes mem op s o

/-- `_algebra_function` for two signals (`_signal.py:843-871`); the result is an array of doubles. -/
def algebra (mem : Nat → Nat → ℚ) (op : BinOp) (s o : Typed (Signal ℚ R)) : Py (Typed (Signal ℚ R)) := do
  let r ← algebraSignal mem op s o
  return ⟨float64, r⟩

/-- `-signal` (`_signal.py:194-203`); `numpy.negative` computes in the type of the samples and does not accept boolean
arrays. -/
def neg (s : Typed (Signal ℚ R)) : Py (Typed (Signal ℚ R)) :=
  if s.type.kind = .bool then .error .typeError
  else .ok ⟨float64, Signal.mapSamples (fun x => store float64 (store s.type (-x))) s.value⟩

/-- `abs(signal)` (`_signal.py:168-177`); `numpy.fabs` computes with floating point numbers. -/
def abs (s : Typed (Signal ℚ R)) : Py (Typed (Signal ℚ R)) :=
  if s.type.kind = .complex then .error .typeError
  else .ok ⟨float64, Signal.mapSamples (fun x => store float64 |x|) s.value⟩

/-! ### The concatenation of signals -/

open Concatenate (Entry sortEntries minStart maxStop labels)

/-- the loop that finds the start and stop samples (`_concatenate.py:65-72`) -/
def signalEntries (index : Int) : List (Typed (Signal ℚ R)) → List (Entry (Typed (Mat ℚ)))
  | [] => []
  | s :: rest =>
    let start := index + s.value.offset
    let index := start + s.value.length
    ⟨start, index, ⟨s.type, s.value.channels⟩⟩ :: signalEntries index rest

/-- copying of one data set to a range of the array of the type `d`, which does not contain data, yet
(`_concatenate.py:82-84, 121-124`) -/
def writeSignal (d : DType) (number : Nat) (channels : Mat ℚ) (start stop : Int) (data : Mat ℚ) : Py (Mat ℚ) :=
  Concatenate.writeSignal number channels start stop (data.map (store d))

/-- `channels[0:l, start:stop] += data`, where `channels` has the type `d` and `data` has the type `e` -/
def addTo (d e : DType) (channels : Mat ℚ) (r c : PySlice) (data : Mat ℚ) : Py (Mat ℚ) := do
  let f ← BinOp.function .add d e d
  Mat.ufunc2 f (channels.slice r c) data channels r c

/-- one iteration of the loop over the other data sets (`_concatenate.py:97-131`, the branches with `signal = True`) -/
def copySignal (d : DType) (offset : Int) (number : Nat) (channels : Mat ℚ) (lastIndex : Int)
    (previous e : Entry (Typed (Mat ℚ))) : Py (Mat ℚ × Int) :=
  let start := e.start - offset
  let stop := e.stop - offset
  let l := e.data.value.rows
  let last := max lastIndex (previous.stop - offset)
  if start < last then
    if last ≥ stop then do
      let stop := start + e.data.value.cols
      let channels ← addTo d e.data.type channels (.range 0 l) (.range start stop) e.data.value
      return (channels, last)
    else do
      let channels ← addTo d e.data.type channels (.range 0 l) (.range start last)
        (e.data.value.slice .all (.range 0 (last - start)))
      let channels ← writeSignal d number channels last stop (e.data.value.slice .all (.drop (last - start)))
      return (channels, last)
  else if start > last then do
    let channels ← channels.assign .all (.range last start) (.scalar 0)
    let channels ← writeSignal d number channels start stop e.data.value
    return (channels, last)
  else do
    let channels ← writeSignal d number channels start stop e.data.value
    return (channels, last)

/-- the loop over the other data sets (`_concatenate.py:96-131`) -/
def copySignals (d : DType) (offset : Int) (number : Nat) :
    Mat ℚ → Int → Entry (Typed (Mat ℚ)) → List (Entry (Typed (Mat ℚ))) → Py (Mat ℚ)
  | channels, _, _, [] => .ok channels
  | channels, lastIndex, previous, e :: rest => do
    let (channels, lastIndex) ← copySignal d offset number channels lastIndex previous e
    copySignals d offset number channels lastIndex e rest

/-- The case of more than one signal (`_concatenate.py:60-144`); the array is allocated with the data type of the first
data set after the sorting (lines 77, 82-83). -/
def signalsMany (mem : Nat → Nat → ℚ) (first : Typed (Signal ℚ R)) (data : List (Typed (Signal ℚ R))) :
    Py (Typed (Signal ℚ R)) :=
  let number := data.foldl (fun m s => max m s.value.count) 0
  match sortEntries (signalEntries 0 data) with
  | [] => .error .indexError
  | h :: t => do
    let offset := minStart h t
    let length := maxStop h t - offset
    let d := h.data.type
    let _ ← allocateArray d.size (number * length.toNat)
    let channels ← writeSignal d number (alloc mem number length.toNat) (h.start - offset) (h.stop - offset) h.data.value
    let channels ← copySignals d offset number channels 0 h t
    return ⟨d, Signal.new channels first.value.rate offset (some (labels number))⟩

/-- `Concatenate.output` for signals (`_concatenate.py:52-144`) -/
def signals (mem : Nat → Nat → ℚ) : List (Typed (Signal ℚ R)) → Py (Typed (Signal ℚ R))
  | [] => .error .runtimeError
  | [s] => .ok s
  | first :: second :: rest => signalsMany mem first (first :: second :: rest)

/-! ### The concatenation of spectrograms -/

/-- the loop that finds the start and stop samples (`_concatenate.py:65-72`) -/
def spectrogramEntries (index : Int) : List (Typed (Spectrogram (ℚ × ℚ) R)) → List (Entry (Typed (Cube (ℚ × ℚ))))
  | [] => []
  | s :: rest =>
    let start := index + s.value.offset
    let index := start + s.value.length
    ⟨start, index, ⟨s.type, s.value.channels⟩⟩ :: spectrogramEntries index rest

/-- element-wise function of one argument -/
def mapCube {α β : Type} (f : α → β) (A : Cube α) : Cube β := ⟨A.d0, A.d1, A.d2, fun i j k => f (A.get i j k)⟩

/-- copying of one data set to a range of the array of the type `d`, which does not contain data, yet
(`_concatenate.py:90-95, 126-131`) -/
def writeSpectrogram (d : DType) (number freqs : Nat) (channels : Cube (ℚ × ℚ)) (start stop : Int)
    (data : Cube (ℚ × ℚ)) : Py (Cube (ℚ × ℚ)) :=
  Concatenate.writeSpectrogram number freqs channels start stop (mapCube (storeComplex d) data)

/-- `channels[0:l, 0:f, start:stop] += data`, where `channels` has the type `d` and `data` has the type `e` -/
def addToCube (d e : DType) (channels : Cube (ℚ × ℚ)) (r s t : PySlice) (data : Cube (ℚ × ℚ)) :
    Py (Cube (ℚ × ℚ)) :=
  if sameKind (promote d e) d then
    Cube.ufunc2 (fun x y => storeComplex d (storeComplex (promote d e) (x + y))) (channels.slice r s t) data
      channels r s t
  else .error .typeError

/-- one iteration of the loop over the other data sets (`_concatenate.py:97-131`, the branches with
`signal = False`) -/
def copySpectrogram (d : DType) (offset : Int) (number freqs : Nat) (channels : Cube (ℚ × ℚ)) (lastIndex : Int)
    (previous e : Entry (Typed (Cube (ℚ × ℚ)))) : Py (Cube (ℚ × ℚ) × Int) :=
  let start := e.start - offset
  let stop := e.stop - offset
  let l := e.data.value.d0
  let f := e.data.value.d1
  let last := max lastIndex (previous.stop - offset)
  if start < last then
    if last ≥ stop then do
      let stop := start + e.data.value.d2
      let channels ← addToCube d e.data.type channels (.range 0 l) (.range 0 f) (.range start stop) e.data.value
      return (channels, last)
    else do
      let channels ← addToCube d e.data.type channels (.range 0 l) (.range 0 f) (.range start last)
        (e.data.value.slice .all .all (.range 0 (last - start)))
      let channels ← writeSpectrogram d number freqs channels last stop
        (e.data.value.slice .all .all (.drop (last - start)))
      return (channels, last)
  else if start > last then do
    let channels ← channels.assign .all .all (.range last start) (.scalar 0)
    let channels ← writeSpectrogram d number freqs channels start stop e.data.value
    return (channels, last)
  else do
    let channels ← writeSpectrogram d number freqs channels start stop e.data.value
    return (channels, last)

/-- the loop over the other data sets (`_concatenate.py:96-131`) -/
def copySpectrograms (d : DType) (offset : Int) (number freqs : Nat) :
    Cube (ℚ × ℚ) → Int → Entry (Typed (Cube (ℚ × ℚ))) → List (Entry (Typed (Cube (ℚ × ℚ)))) → Py (Cube (ℚ × ℚ))
  | channels, _, _, [] => .ok channels
  | channels, lastIndex, previous, e :: rest => do
    let (channels, lastIndex) ← copySpectrogram d offset number freqs channels lastIndex previous e
    copySpectrograms d offset number freqs channels lastIndex e rest

/-- The case of more than one spectrogram (`_concatenate.py:60-144`); the array is allocated with the data type of the
first data set after the sorting (lines 77, 88-89), so that the uninitialised memory contains numbers of this type. -/
def spectrogramsMany (mem : Nat → Nat → Nat → ℚ × ℚ) (first : Typed (Spectrogram (ℚ × ℚ) R))
    (data : List (Typed (Spectrogram (ℚ × ℚ) R))) : Py (Typed (Spectrogram (ℚ × ℚ) R)) :=
  let number := data.foldl (fun m s => max m s.value.count) 0
  match sortEntries (spectrogramEntries 0 data) with
  | [] => .error .indexError
  | h :: t => do
    let offset := minStart h t
    let length := maxStop h t - offset
    let freqs := (h :: t).foldl (fun m e => max m e.data.value.d1) 0
    let d := h.data.type
    let _ ← allocateArray d.size (number * freqs * length.toNat)
    let channels ← writeSpectrogram d number freqs
      (allocCube (fun i j k => storeComplex d (mem i j k)) number freqs length.toNat)
      (h.start - offset) (h.stop - offset) h.data.value
    let channels ← copySpectrograms d offset number freqs channels 0 h t
    return ⟨d, Spectrogram.new channels first.value.resolution first.value.rate offset (some (labels number))⟩

/-- `Concatenate.output` for spectrograms (`_concatenate.py:52-144`) -/
def spectrograms (mem : Nat → Nat → Nat → ℚ × ℚ) :
    List (Typed (Spectrogram (ℚ × ℚ) R)) → Py (Typed (Spectrogram (ℚ × ℚ) R))
  | [] => .error .runtimeError
  | [s] => .ok s
  | first :: second :: rest => spectrogramsMany mem first (first :: second :: rest)

end DataTypes
end Verif
