import Verif.Spectrum
import Verif.Spectrogram

/-
Model of `sumpf/_blocks/_merge.py`.  The kinds of data sets, between which the python code switches with
`isinstance(first, …)`, are modelled by one function each; all data sets of one merge are of the same kind.
-/

namespace Verif

/-- `sumpf.MergeMode` (`sumpf/_internal/_enums.py:49-60`); `other` stands for every other object, that is passed
as mode -/
inductive MergeMode where
  | firstDatasetFirst
  | firstChannelsFirst
  | other
  deriving DecidableEq, Repr

/-- The transfer functions and labels of a `sumpf.Filter` (`sumpf/_data/_filters/_base/_filter.py:120-126`); the
type `T` of the transfer functions is arbitrary here. -/
structure FilterData (T : Type) where
  transferFunctions : List T
  labels : List String

/-- the constructor of `Filter` (`_filter.py:120-126`) -/
def FilterData.new {T : Type} (transferFunctions : List T) (labels : List String) : FilterData T :=
  { transferFunctions, labels := sanitizeLabels (some labels) transferFunctions.length }

/-- `A[k, c] = S` with an integer `k`, that is not negative -/
def Mat.assignRow {α : Type} (A : Mat α) (k : Nat) (c : PySlice) (S : Mat α) : Py (Mat α) :=
  if k < A.rows then A.assign (.range k (k + 1)) c S else .error .indexError

/-- `A[k, s, t] = S` with an integer `k`, that is not negative -/
def Cube.assignRow {α : Type} (A : Cube α) (k : Nat) (s t : PySlice) (S : Cube α) : Py (Cube α) :=
  if k < A.d0 then A.assign (.range k (k + 1)) s t S else .error .indexError

/-- `l[k] = x` for a list and an integer `k`, that is not negative -/
def setItem {β : Type} (l : List β) (k : Nat) (x : β) : Py (List β) :=
  if k < l.length then .ok (l.set k x) else .error .indexError

namespace Merge

variable {α R T : Type}

/-- the inner loop of the mode `FIRST_CHANNELS_FIRST` (`_merge.py:196-200`), with the number of remaining
iterations, `i` and `p` -/
def channelLoop (lengths : List Nat) (o : Nat) : Nat → Nat → Nat → List Nat
  | 0, _, _ => []
  | n + 1, i, p =>
    let after := lengths.drop o
    let before := lengths.take o
    p :: channelLoop lengths o n (i + 1)
      (p + ((after.filter fun x => decide (x > i)).length + (before.filter fun x => decide (x > i + 1)).length))

/-- the loops of the mode `FIRST_DATASET_FIRST` (`_merge.py:187-191`) with the counter `i` -/
def datasetLoop : Nat → List Nat → List Nat
  | _, [] => []
  | i, l :: rest => (List.range l).map (i + ·) ++ datasetLoop (i + l) rest

/-- `__indices` (`_merge.py:179-202`); `lengths` are the numbers of channels of the data sets. -/
def indices (mode : MergeMode) (lengths : List Nat) : Py (List Nat) :=
  match mode with
  | .firstDatasetFirst => .ok (datasetLoop 0 lengths)
  | .firstChannelsFirst => .ok (lengths.zipIdx.flatMap fun lo => channelLoop lengths lo.2 lo.1 0 lo.2)
  | .other => .error .valueError

/-! ### Signals -/

/-- the body of the loop over the signals' channels (`_merge.py:79-84`) -/
def placeSignal [Zero α] (mergedOffset : Int) (state : Mat α × List String)
    (item : Nat × Mat α × Int × String) : Py (Mat α × List String) := do
  let (channels, labels) := state
  let (index, channel, offset, label) := item
  let start := offset - mergedOffset
  let stop := start + channel.cols
  let channels ← channels.assignRow index (.range 0 start) (.scalar 0)
  let channels ← channels.assignRow index (.range start stop) channel
  let channels ← channels.assignRow index (.drop stop) (.scalar 0)
  let labels ← setItem labels index label
  return (channels, labels)

/-- the iterable of the loop (`_merge.py:75-78`) -/
def signalItems (indices : List Nat) (data : List (Signal α R)) : List (Nat × Mat α × Int × String) :=
  indices.zip <|
    (data.flatMap fun d => (List.range d.count).map d.channels.row).zip <|
    (data.flatMap fun d => (List.range d.count).map fun _ => d.offset).zip <|
    data.flatMap fun d => d.labels

/-- The case of more than one signal (`_merge.py:69-88`). -/
def signalsMany [Zero α] (mem : Nat → Nat → α) (mode : MergeMode) (first : Signal α R)
    (data : List (Signal α R)) : Py (Signal α R) := do
  let number := (data.map fun s => s.count).sum
  let mergedOffset := data.foldl (fun m s => min m s.offset) first.offset
  let length := data.foldl (fun m s => max m (s.offset + (s.length : Int))) (first.offset + first.length) - mergedOffset
  let indices ← indices mode (data.map fun s => s.count)
  let (channels, labels) ← (signalItems indices data).foldlM (placeSignal mergedOffset)
    (alloc mem number length.toNat, List.replicate number "")
  return Signal.new channels first.rate mergedOffset (some labels)

/-- `Merge.output` for signals (`_merge.py:58-88`) -/
def signals [Zero α] (mem : Nat → Nat → α) (mode : MergeMode) : List (Signal α R) → Py (Signal α R)
  | [] => .error .runtimeError
  | [s] => .ok s
  | first :: second :: rest => signalsMany mem mode first (first :: second :: rest)

/-! ### Spectrums -/

/-- the body of the loop over the spectrums' channels (`_merge.py:95-97`) -/
def placeSpectrum [Zero α] (state : Mat α × List String)
    (item : Nat × Mat α × String) : Py (Mat α × List String) := do
  let (channels, labels) := state
  let (index, channel, label) := item
  let channels ← channels.assignRow index (.range 0 channel.cols) channel
  let channels ← channels.assignRow index (.drop channel.cols) (.scalar 0)
  let labels ← setItem labels index label
  return (channels, labels)

/-- the iterable of the loop (`_merge.py:92-94`) -/
def spectrumItems (indices : List Nat) (data : List (Spectrum α R)) : List (Nat × Mat α × String) :=
  indices.zip <|
    (data.flatMap fun d => (List.range d.count).map d.channels.row).zip <|
    data.flatMap fun d => d.labels

/-- The case of more than one spectrum (`_merge.py:89-100`). -/
def spectrumsMany [Zero α] (mem : Nat → Nat → α) (mode : MergeMode) (first : Spectrum α R)
    (data : List (Spectrum α R)) : Py (Spectrum α R) := do
  let number := (data.map fun s => s.count).sum
  let length := data.foldl (fun m s => max m s.length) first.length
  let indices ← indices mode (data.map fun s => s.count)
  let (channels, labels) ← (spectrumItems indices data).foldlM placeSpectrum
    (alloc mem number length, List.replicate number "")
  return Spectrum.new channels first.resolution (some labels)

/-- `Merge.output` for spectrums (`_merge.py:58-68, 89-100`) -/
def spectrums [Zero α] (mem : Nat → Nat → α) (mode : MergeMode) : List (Spectrum α R) → Py (Spectrum α R)
  | [] => .error .runtimeError
  | [s] => .ok s
  | first :: second :: rest => spectrumsMany mem mode first (first :: second :: rest)

/-! ### Spectrograms -/

/-- the body of the loop over the spectrograms' channels (`_merge.py:113-117`) -/
def placeSpectrogram (mergedOffset : Int) (state : Cube α × List String)
    (item : Nat × Cube α × Int × String) : Py (Cube α × List String) := do
  let (channels, labels) := state
  let (index, channel, offset, label) := item
  let start := offset - mergedOffset
  let stop := start + channel.d2
  let channels ← channels.assignRow index (.range 0 channel.d1) (.range start stop) channel
  let labels ← setItem labels index label
  return (channels, labels)

/-- the iterable of the loop (`_merge.py:109-112`) -/
def spectrogramItems (indices : List Nat) (data : List (Spectrogram α R)) : List (Nat × Cube α × Int × String) :=
  indices.zip <|
    (data.flatMap fun d => (List.range d.count).map d.channels.row).zip <|
    (data.flatMap fun d => (List.range d.count).map fun _ => d.offset).zip <|
    data.flatMap fun d => d.labels

/-- The case of more than one spectrogram (`_merge.py:101-122`). -/
def spectrogramsMany [Zero α] (mem : Nat → Nat → Nat → α) (mode : MergeMode) (first : Spectrogram α R)
    (data : List (Spectrogram α R)) : Py (Spectrogram α R) := do
  let number := (data.map fun s => s.count).sum
  let mergedOffset := data.foldl (fun m s => min m s.offset) first.offset
  let length := data.foldl (fun m s => max m (s.offset + (s.length : Int))) (first.offset + first.length) - mergedOffset
  let freqs := data.foldl (fun m s => max m s.freqs) first.freqs
  let channels ← (allocCube mem number freqs length.toNat).assign .all .all .all (.scalar 0)
  let indices ← indices mode (data.map fun s => s.count)
  let (channels, labels) ← (spectrogramItems indices data).foldlM (placeSpectrogram mergedOffset)
    (channels, List.replicate number "")
  return Spectrogram.new channels first.resolution first.rate mergedOffset (some labels)

/-- `Merge.output` for spectrograms (`_merge.py:58-68, 101-122`) -/
def spectrograms [Zero α] (mem : Nat → Nat → Nat → α) (mode : MergeMode) :
    List (Spectrogram α R) → Py (Spectrogram α R)
  | [] => .error .runtimeError
  | [s] => .ok s
  | first :: second :: rest => spectrogramsMany mem mode first (first :: second :: rest)

/-! ### Filters -/

/-- the body of the loop over the filters' channels (`_merge.py:128-129`); `None` is `none` -/
def placeFilter (state : List (Option T) × List String) (item : Nat × T × String) :
    Py (List (Option T) × List String) := do
  let (transferFunctions, labels) := state
  let (index, transferFunction, label) := item
  let transferFunctions ← setItem transferFunctions index (some transferFunction)
  let labels ← setItem labels index label
  return (transferFunctions, labels)

/-- the iterable of the loop (`_merge.py:125-127`) -/
def filterItems (indices : List Nat) (data : List (FilterData T)) : List (Nat × T × String) :=
  indices.zip <| (data.flatMap fun d => d.transferFunctions).zip <| data.flatMap fun d => d.labels

/-- The case of more than one filter (`_merge.py:123-130`).  The elements of the result are `none` where the python
code leaves a `None` in the list of the transfer functions. -/
def filtersMany (mode : MergeMode) (data : List (FilterData T)) : Py (FilterData (Option T)) := do
  let number := (data.map fun s => s.transferFunctions.length).sum
  let indices ← indices mode (data.map fun s => s.transferFunctions.length)
  let (transferFunctions, labels) ← (filterItems indices data).foldlM placeFilter
    (List.replicate number none, List.replicate number "")
  return FilterData.new transferFunctions labels

/-- `Merge.output` for filters (`_merge.py:58-68, 123-130`) -/
def filters (mode : MergeMode) : List (FilterData T) → Py (FilterData (Option T))
  | [] => .error .runtimeError
  | [s] => .ok ⟨s.transferFunctions.map some, s.labels⟩
  | first :: second :: rest => filtersMany mode (first :: second :: rest)

end Merge
end Verif
