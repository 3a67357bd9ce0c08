import Verif.SpectrogramMore
import Verif.Filter

/-
Model of the general case of the operator `[]` (`sumpf/_internal/_indexing.py:47-64` and the methods `__getitem__` of the data
sets): slices, that have a step, and tuples with an arbitrary number of keys. The models of `__getitem__` in `Signal.lean`,
`SpectrogramMore.lean` and `Filter.lean` are the special cases without a step and with as many keys as the data has axes (see
`StepSliceProps.lean`).
-/

namespace Verif

/-- `slice(start, stop, step)` -/
structure StepSlice where
  start : Option Int := none
  stop : Option Int := none
  step : Option Int := none
  deriving DecidableEq, Repr

namespace StepSlice

/-- the distance between the selected elements -/
def stride (s : StepSlice) : Int := s.step.getD 1

/-- Python's resolution of one bound of a slice with the given step (`PySlice_Unpack`, `PySlice_AdjustIndices`). -/
def bound (n : Nat) (step missing : Int) : Option Int → Int
  | none => missing
  | some i =>
    let j := if i < 0 then i + n else i
    if j < 0 then (if step < 0 then -1 else 0)
    else if n ≤ j then (if step < 0 then n - 1 else n)
    else j

/-- the first bound for a sequence with `n` elements -/
def first (s : StepSlice) (n : Nat) : Int := bound n s.stride (if s.stride < 0 then n - 1 else 0) s.start

/-- the second bound for a sequence with `n` elements -/
def last (s : StepSlice) (n : Nat) : Int := bound n s.stride (if s.stride < 0 then -1 else n) s.stop

/-- the number of selected elements (`PySlice_AdjustIndices`) -/
def count (s : StepSlice) (n : Nat) : Nat :=
  if s.stride < 0 then
    if s.last n < s.first n then ((s.first n - s.last n - 1) / (-s.stride) + 1).toNat else 0
  else
    if s.first n < s.last n then ((s.last n - s.first n - 1) / s.stride + 1).toNat else 0

/-- the index of a selected element -/
def index (s : StepSlice) (n i : Nat) : Nat := (s.first n + i * s.stride).toNat

/-- `[:]` -/
def all : StepSlice := {}

/-- `tuple[slice]` -/
def list {β : Type} (s : StepSlice) (l : List β) : Py (List β) :=
  if s.step = some 0 then .error .valueError
  else .ok ((List.range (s.count l.length)).filterMap fun i => l[s.index l.length i]?)

/-- `A[r, c]` for a two-dimensional numpy array -/
def mat {α : Type} (A : Mat α) (r c : StepSlice) : Py (Mat α) :=
  if r.step = some 0 ∨ c.step = some 0 then .error .valueError
  else .ok
    { rows := r.count A.rows
      cols := c.count A.cols
      get := fun i j => A.get (r.index A.rows i) (c.index A.cols j) }

/-- `A[r, s, t]` for a three-dimensional numpy array -/
def cube {α : Type} (A : Cube α) (r s t : StepSlice) : Py (Cube α) :=
  if r.step = some 0 ∨ s.step = some 0 ∨ t.step = some 0 then .error .valueError
  else .ok
    { d0 := r.count A.d0
      d1 := s.count A.d1
      d2 := t.count A.d2
      get := fun i j k => A.get (r.index A.d0 i) (s.index A.d1 j) (t.index A.d2 k) }

end StepSlice

namespace Indexing

/-- a key for one axis: an index or a slice, whose bounds and step are optional -/
inductive AxisKey where
  | idx (i : Idx)
  | slice (start stop step : Option Idx)
  deriving DecidableEq, Repr

/-- The parameter of the operator `[]`: a key for the channels or a tuple of keys. Simplification: the elements of a tuple are no
tuples. -/
inductive AnyKey where
  | single (k : AxisKey)
  | tuple (l : List AxisKey)

/-- `key_to_slices(key, (n,))` for one axis of length `n` (`_indexing.py:56-62`); `none` if it does not terminate -/
def axisSlice (n : Nat) : AxisKey → Option StepSlice
  | .idx (.int k) => some { start := some k, stop := some (k + 1) }
  | .idx (.float q) => (Indexing.index ((n : Int) - 1) (.float q)).map fun k => { start := some k, stop := some (k + 1) }
  | .slice a b c => match boundOf n a, boundOf n b, boundOf n c with
    | some a', some b', some c' => some { start := a', stop := b', step := c' }
    | _, _, _ => none

/-- `tuple(key_to_slices(k, (length,)) for k, length in zip(key, shape))` (`_indexing.py:63-64`) -/
def tupleSlices : List AxisKey → List Nat → Option (List StepSlice)
  | k :: l, n :: shape => match axisSlice n k, tupleSlices l shape with
    | some s, some r => some (s :: r)
    | _, _ => none
  | _, _ => some []

end Indexing

open Indexing

/-- The change of the offset for the slice of the time axis (`_signal.py:107-113`, `_spectrogram.py:113-118`) of a data set
with the given offset and length. -/
def stepOffset (offset : Int) (length : Nat) (t : StepSlice) : Int :=
  match t.start with
  | none => offset
  | some a =>
    if a = 0 then offset
    else if a < 0 then offset + (length + a)
    else offset + a

/-- `signal[key]` (`_signal.py:99-124`). The element of index 1 of a tuple is accessed without checking its length. The outer
`none`: the conversion of the key does not terminate. -/
def Signal.getAny {α R : Type} (s : Signal α R) : AnyKey → Option (Py (Signal α R))
  | .single k => (axisSlice s.count k).map fun c => do
    let channels ← StepSlice.mat s.channels c .all
    let labels ← c.list s.labels
    return Signal.new channels s.rate s.offset (some labels)
  | .tuple l => (tupleSlices l [s.count, s.length]).map fun
    | c :: t :: _ => do
      let channels ← StepSlice.mat s.channels c t
      let labels ← c.list s.labels
      return Signal.new channels s.rate (stepOffset s.offset s.length t) (some labels)
    | _ => .error .indexError

/-- `spectrum[key]` (`_spectrum.py:92-106`) -/
def Spectrum.getAny {α R : Type} (s : Spectrum α R) : AnyKey → Option (Py (Spectrum α R))
  | .single k => (axisSlice s.count k).map fun c => do
    let channels ← StepSlice.mat s.channels c .all
    let labels ← c.list s.labels
    return Spectrum.new channels s.resolution (some labels)
  | .tuple l => (tupleSlices l [s.count, s.length]).map fun
    | [] => .error .indexError
    | c :: l => do
      let channels ← StepSlice.mat s.channels c (l.headD .all)
      let labels ← c.list s.labels
      return Spectrum.new channels s.resolution (some labels)

/-- `spectrogram[key]` (`_spectrogram.py:103-126`): the offset is only changed for tuples with three elements. -/
def Spectrogram.getAny {α R : Type} (s : Spectrogram α R) : AnyKey → Option (Py (Spectrogram α R))
  | .single k => (axisSlice s.count k).map fun c => do
    let channels ← StepSlice.cube s.channels c .all .all
    let labels ← c.list s.labels
    return Spectrogram.new channels s.resolution s.rate s.offset (some labels)
  | .tuple l => (tupleSlices l [s.count, s.freqs, s.length]).map fun
    | [] => .error .indexError
    | [c] => do
      let channels ← StepSlice.cube s.channels c .all .all
      let labels ← c.list s.labels
      return Spectrogram.new channels s.resolution s.rate s.offset (some labels)
    | [c, f] => do
      let channels ← StepSlice.cube s.channels c f .all
      let labels ← c.list s.labels
      return Spectrogram.new channels s.resolution s.rate s.offset (some labels)
    | c :: f :: t :: _ => do
      let channels ← StepSlice.cube s.channels c f t
      let labels ← c.list s.labels
      return Spectrogram.new channels s.resolution s.rate (stepOffset s.offset s.length t) (some labels)

/-- `filter[key]` (`_filter.py:134-143`): the indices of the tuples with the transfer functions and the labels must not be
tuples. -/
def Filter.Channels.getAny {α K : Type} (a : Filter.Channels α K) : AnyKey → Option (Py (Filter.Channels α K))
  | .single k => (axisSlice a.transferFunctions.length k).map fun c => do
    let transferFunctions ← c.list a.transferFunctions
    let labels ← c.list a.labels
    return Filter.Channels.new transferFunctions labels
  | .tuple l => (tupleSlices l [a.transferFunctions.length]).map fun _ => .error .typeError

end Verif
