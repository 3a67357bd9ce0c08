import Mathlib.Algebra.Group.Defs
import Mathlib.Data.List.Sort
import Verif.Spectrogram

/-
Model of `sumpf/_blocks/_concatenate.py`.  The two kinds of data sets, for which the python code has one method
with `if signal:` switches, are modelled by two functions.  All data sets of one concatenation are of the same
kind.  Samples are added exactly (`[AddCommMonoid α]`), and all data sets have the same `dtype`
(see `DataTypes.lean` for data sets with different ones).
-/

namespace Verif

/-- `A[r, c] += S` -/
def Mat.addTo {α : Type} [Add α] (A : Mat α) (r c : PySlice) (S : Mat α) : Py (Mat α) :=
  Mat.ufunc2 (· + ·) (A.slice r c) S A r c

/-- `A[r, s, t] += S` -/
def Cube.addTo {α : Type} [Add α] (A : Cube α) (r s t : PySlice) (S : Cube α) : Py (Cube α) :=
  Cube.ufunc2 (· + ·) (A.slice r s t) S A r s t

namespace Concatenate

variable {α R : Type}

/-- The tuples `(start, stop, channels)` in the list `indices` (`_concatenate.py:63-72`); `A` is the type of the
channels array. -/
structure Entry (A : Type) where
  start : Int
  stop : Int
  data : A

/-- the key for sorting the entries (`_concatenate.py:73`): lexicographic comparison of `(start, stop)` -/
def Entry.le {A : Type} (a b : Entry A) : Prop := a.start < b.start ∨ (a.start = b.start ∧ a.stop ≤ b.stop)

instance {A : Type} : DecidableRel (Entry.le (A := A)) := fun a b => by unfold Entry.le; infer_instance

/-- `indices.sort(key=lambda t: (t[0], t[1]))` (`_concatenate.py:73`).  Insertion sort is a stable sorting
algorithm like that of python. -/
def sortEntries {A : Type} (l : List (Entry A)) : List (Entry A) := l.insertionSort Entry.le

/-- `min(i[0] for i in indices)` for the non-empty list `h :: t` (`_concatenate.py:75`) -/
def minStart {A : Type} (h : Entry A) (t : List (Entry A)) : Int := t.foldl (fun m e => min m e.start) h.start

/-- `max(i[1] for i in indices)` for the non-empty list `h :: t` (`_concatenate.py:76`) -/
def maxStop {A : Type} (h : Entry A) (t : List (Entry A)) : Int := t.foldl (fun m e => max m e.stop) h.stop

/-- the labels of the result (`_concatenate.py:138, 144`) -/
def labels (number : Nat) : List String := (List.range number).map fun i => s!"Concatenation {i + 1}"

/-! ### Signals -/

/-- the loop that finds the start and stop samples (`_concatenate.py:65-72`) -/
def signalEntries (index : Int) : List (Signal α R) → List (Entry (Mat α))
  | [] => []
  | s :: rest =>
    let start := index + s.offset
    let index := start + s.length
    ⟨start, index, s.channels⟩ :: signalEntries index rest

/-- copying of one data set to a range, which does not contain data, yet (`_concatenate.py:82-84, 121-124`) -/
def writeSignal [Zero α] (number : Nat) (channels : Mat α) (start stop : Int) (data : Mat α) : Py (Mat α) := do
  let channels ← channels.assign (.range 0 data.rows) (.range start stop) data
  if data.rows < number then
    channels.assign (.drop data.rows) (.range start stop) (.scalar 0)
  else
    return channels

/-- One iteration of the loop over the other data sets (`_concatenate.py:97-131`, the branches with
`signal = True`).  The state consists of the channels and of `last_index`. -/
def copySignal [Zero α] [Add α] (offset : Int) (number : Nat) (channels : Mat α) (lastIndex : Int)
    (previous e : Entry (Mat α)) : Py (Mat α × Int) :=
  let start := e.start - offset
  let stop := e.stop - offset
  let l := e.data.rows
  let last := max lastIndex (previous.stop - offset)
  if start < last then
    if last ≥ stop then do
      let stop := start + e.data.cols
      let channels ← channels.addTo (.range 0 l) (.range start stop) e.data
      return (channels, last)
    else do
      let channels ← channels.addTo (.range 0 l) (.range start last) (e.data.slice .all (.range 0 (last - start)))
      let channels ← writeSignal number channels last stop (e.data.slice .all (.drop (last - start)))
      return (channels, last)
  else if start > last then do
    let channels ← channels.assign .all (.range last start) (.scalar 0)
    let channels ← writeSignal number channels start stop e.data
    return (channels, last)
  else do
    let channels ← writeSignal number channels start stop e.data
    return (channels, last)

/-- the loop over the other data sets (`_concatenate.py:96-131`) -/
def copySignals [Zero α] [Add α] (offset : Int) (number : Nat) :
    Mat α → Int → Entry (Mat α) → List (Entry (Mat α)) → Py (Mat α)
  | channels, _, _, [] => .ok channels
  | channels, lastIndex, previous, e :: rest => do
    let (channels, lastIndex) ← copySignal offset number channels lastIndex previous e
    copySignals offset number channels lastIndex e rest

/-- The case of more than one signal (`_concatenate.py:60-144`); `first` is the first element of `data`, and `mem`
is the contents of the allocated memory. -/
def signalsMany [Zero α] [Add α] (mem : Nat → Nat → α) (first : Signal α R)
    (data : List (Signal α R)) : Py (Signal α R) :=
  let number := data.foldl (fun m s => max m s.count) 0
  match sortEntries (signalEntries 0 data) with
  | [] => .error .indexError
  | h :: t => do
    let offset := minStart h t
    let length := maxStop h t - offset
    let channels ← writeSignal number (alloc mem number length.toNat) (h.start - offset) (h.stop - offset) h.data
    let channels ← copySignals offset number channels 0 h t
    return Signal.new channels first.rate offset (some (labels number))

/-- `Concatenate.output` for signals (`_concatenate.py:52-144`). -/
def signals [Zero α] [Add α] (mem : Nat → Nat → α) : List (Signal α R) → Py (Signal α R)
  | [] => .error .runtimeError
  | [s] => .ok s
  | first :: second :: rest => signalsMany mem first (first :: second :: rest)

/-! ### Spectrograms -/

/-- the loop that finds the start and stop samples (`_concatenate.py:65-72`) -/
def spectrogramEntries (index : Int) : List (Spectrogram α R) → List (Entry (Cube α))
  | [] => []
  | s :: rest =>
    let start := index + s.offset
    let index := start + s.length
    ⟨start, index, s.channels⟩ :: spectrogramEntries index rest

/-- zeroing the missing frequencies (`_concatenate.py:92-93, 127-128`) -/
def zeroFreqs [Zero α] (freqs : Nat) (channels : Cube α) (start stop : Int) (data : Cube α) : Py (Cube α) :=
  if data.d1 < freqs then
    channels.assign (.range 0 data.d0) (.drop data.d1) (.range start stop) (.scalar 0)
  else .ok channels

/-- copying of one data set to a range, which does not contain data, yet (`_concatenate.py:90-95, 126-131`) -/
def writeSpectrogram [Zero α] (number freqs : Nat) (channels : Cube α) (start stop : Int) (data : Cube α) :
    Py (Cube α) := do
  let channels ← channels.assign (.range 0 data.d0) (.range 0 data.d1) (.range start stop) data
  let channels ← zeroFreqs freqs channels start stop data
  if data.d0 < number then
    channels.assign (.drop data.d0) .all (.range start stop) (.scalar 0)
  else
    return channels

/-- One iteration of the loop over the other data sets (`_concatenate.py:97-131`, the branches with
`signal = False`). -/
def copySpectrogram [Zero α] [Add α] (offset : Int) (number freqs : Nat) (channels : Cube α) (lastIndex : Int)
    (previous e : Entry (Cube α)) : Py (Cube α × Int) :=
  let start := e.start - offset
  let stop := e.stop - offset
  let l := e.data.d0
  let f := e.data.d1
  let last := max lastIndex (previous.stop - offset)
  if start < last then
    if last ≥ stop then do
      let stop := start + e.data.d2
      let channels ← channels.addTo (.range 0 l) (.range 0 f) (.range start stop) e.data
      return (channels, last)
    else do
      let channels ← channels.addTo (.range 0 l) (.range 0 f) (.range start last)
        (e.data.slice .all .all (.range 0 (last - start)))
      let channels ← writeSpectrogram number freqs channels last stop (e.data.slice .all .all (.drop (last - start)))
      return (channels, last)
  else if start > last then do
    let channels ← channels.assign .all .all (.range last start) (.scalar 0)
    let channels ← writeSpectrogram number freqs channels start stop e.data
    return (channels, last)
  else do
    let channels ← writeSpectrogram number freqs channels start stop e.data
    return (channels, last)

/-- the loop over the other data sets (`_concatenate.py:96-131`) -/
def copySpectrograms [Zero α] [Add α] (offset : Int) (number freqs : Nat) :
    Cube α → Int → Entry (Cube α) → List (Entry (Cube α)) → Py (Cube α)
  | channels, _, _, [] => .ok channels
  | channels, lastIndex, previous, e :: rest => do
    let (channels, lastIndex) ← copySpectrogram offset number freqs channels lastIndex previous e
    copySpectrograms offset number freqs channels lastIndex e rest

/-- The case of more than one spectrogram (`_concatenate.py:60-144`); `first` is the first element of `data`, and `mem`
is the contents of the allocated memory. -/
def spectrogramsMany [Zero α] [Add α] (mem : Nat → Nat → Nat → α) (first : Spectrogram α R)
    (data : List (Spectrogram α R)) : Py (Spectrogram α R) :=
  let number := data.foldl (fun m s => max m s.count) 0
  match sortEntries (spectrogramEntries 0 data) with
  | [] => .error .indexError
  | h :: t => do
    let offset := minStart h t
    let length := maxStop h t - offset
    let freqs := (h :: t).foldl (fun m e => max m e.data.d1) 0
    let channels ← writeSpectrogram number freqs (allocCube mem number freqs length.toNat)
      (h.start - offset) (h.stop - offset) h.data
    let channels ← copySpectrograms offset number freqs channels 0 h t
    return Spectrogram.new channels first.resolution first.rate offset (some (labels number))

/-- `Concatenate.output` for spectrograms (`_concatenate.py:52-144`) -/
def spectrograms [Zero α] [Add α] (mem : Nat → Nat → Nat → α) : List (Spectrogram α R) → Py (Spectrogram α R)
  | [] => .error .runtimeError
  | [s] => .ok s
  | first :: second :: rest => spectrogramsMany mem first (first :: second :: rest)

end Concatenate
end Verif
