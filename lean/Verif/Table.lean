import Verif.Signal
import Verif.Spectrum
import Mathlib.Data.Prod.Lex
import Mathlib.Data.List.Sort
import Mathlib.Algebra.Order.Field.Rat
import Mathlib.Algebra.Order.Group.Unbundled.Abs

/-
Model of saving signals and spectrums as tables (CSV and NPY files) and of loading them:
`sumpf/_internal/_persistence/_signal_readers.py`, `_signal_writers.py`, `_spectrum_readers.py` and
`_spectrum_writers.py`.

Simplifications: Times, frequencies, sampling rates and resolutions are exact rational numbers. The conversion between
numbers and text is not modelled, the cells of a CSV file contain the numbers themselves. The samples have an arbitrary
type with a linear order, which is needed for sorting pairs of times and samples (for complex numbers, it is NumPy's
lexicographic order).
-/

namespace Verif
namespace Table

variable {α : Type}

/-- `numpy.linspace(start, stop, n)` -/
def linspace (start stop : ℚ) (n : Nat) : List ℚ :=
  (List.range n).map fun (i : Nat) => if n ≤ 1 then start else start + i * ((stop - start) / (n - 1))

/-- `signal.time_samples()` (`sumpf/_data/_signals/_signal.py:292-299`) -/
def timeSamples (s : Signal α ℚ) : Py (List ℚ) :=
  if s.rate = 0 then .error .zeroDivisionError
  else .ok (linspace (s.offset / s.rate) ((s.length + s.offset - 1) / s.rate) s.length)

/-- `spectrum.frequency_samples()` (`sumpf/_data/_spectrums/_spectrum.py:309-314`), with the maximum frequency
(`_spectrum.py:267-272`) -/
def frequencySamples (s : Spectrum α ℚ) : List ℚ := linspace 0 ((s.length - 1) * s.resolution) s.length

/-! ### creating signals and spectrums from rows -/

/-- `[e for _, e in sorted(zip(axis, row))]`, which compares the samples, if the values on the axis are equal -/
def sortRow [LinearOrder α] (axis : List ℚ) (row : List α) : List α :=
  (((axis.zip row).map toLex).insertionSort (· ≤ ·)).map fun p => (ofLex p).2

/-- the row `c` of an array -/
def rowList (data : Mat α) (c : Nat) : List α := (List.range data.cols).map fun i => data.get c i

/-- the rows, sorted by the values on the axis (`_signal_readers.py:70-73`, `_spectrum_readers.py:64-67`) -/
def sortRows [LinearOrder α] [Inhabited α] (axis sorted : List ℚ) (data : Mat α) : Mat α :=
  if axis = sorted then data
  else Mat.ofRows (min axis.length data.cols) ((List.range data.rows).map fun c => sortRow axis (rowList data c))

/-- padding and cropping of the labels (`_signal_readers.py:76-79`, `_spectrum_readers.py:82-85`) -/
def fitLabels (labels : List String) (number : Nat) : List String :=
  if labels.length < number then labels ++ List.replicate (number - labels.length) ""
  else if labels.length > number then labels.take number
  else labels

/-- the sampling rate of a table (`_signal_readers.py:62-68`). If the times have been read from an NPY file, the division
by zero yields infinity, so that an `OverflowError` is raised by the conversion of the offset to an integer. -/
def tableRate (n : Nat) (minimum maximum : ℚ) : Py ℚ :=
  if n ≤ 1 then
    if minimum = 0 then .ok 48000 else .ok (1 / |minimum|)
  else if maximum - minimum = 0 then .error .zeroDivisionError
  else .ok ((n - 1) / (maximum - minimum))

/-- `from_rows` (`_signal_readers.py:48-82`) -/
def signalFromRows [LinearOrder α] [Inhabited α] (mem : Nat → Nat → α) (time : List ℚ) (data : Mat α)
    (labels : List String) : Py (Signal α ℚ) :=
  if data.rows ≠ 0 ∧ data.cols ≠ 0 then
    let sorted := time.insertionSort (· ≤ ·)
    match sorted.head?, sorted.getLast? with
    | some minimum, some maximum => do
      let rate ← tableRate sorted.length minimum maximum
      let offset := pyRound (minimum * rate)
      let rows := sortRows time sorted data
      let channels ← (alloc mem rows.rows rows.cols).assign .all .all rows
      .ok (Signal.new channels rate offset (some (fitLabels labels channels.rows)))
    | _, _ => .error .indexError
  else .ok (Signal.new ⟨1, 0, mem⟩ 48000 0 none)

/-- the creation of the channels (`_spectrum_readers.py:69-80`). The rows are a python list, if they have been sorted, so
indexing them with a tuple raises a `TypeError`. -/
def spectrumChannels [Zero α] (mem : Nat → Nat → α) (isList : Bool) (rows : Mat α) (offset : Int) : Py (Mat α) :=
  if offset = 0 then (alloc mem rows.rows rows.cols).assign .all .all rows
  else if offset < 0 then
    if isList then .error .typeError
    else (alloc mem rows.rows (rows.cols - offset).toNat).assign .all .all (rows.slice .all (.drop offset))
  else do
    let channels ← (alloc mem rows.rows (rows.cols + offset).toNat).assign .all (.range 0 offset) (.scalar 0)
    channels.assign .all (.drop offset) rows

/-- `from_rows` (`_spectrum_readers.py:39-89`) -/
def spectrumFromRows [LinearOrder α] [Inhabited α] [Zero α] (mem : Nat → Nat → α) (frequency : List ℚ) (data : Mat α)
    (labels : List String) : Py (Spectrum α ℚ) :=
  if data.rows ≠ 0 ∧ data.cols ≠ 0 then
    let sorted := frequency.insertionSort (· ≤ ·)
    match sorted.head?, sorted.getLast? with
    | some minimum, some maximum => do
      let resolution := if sorted.length ≤ 1 then 0 else (maximum - minimum) / (sorted.length - 1)
      let offset := if resolution = 0 then 0 else pyRound (minimum / resolution)
      let rows := sortRows frequency sorted data
      let channels ← spectrumChannels mem (decide (frequency ≠ sorted)) rows offset
      .ok (Spectrum.new channels resolution (some (fitLabels labels channels.rows)))
    | _, _ => .error .indexError
  else .ok (Spectrum.new ⟨1, 0, mem⟩ 1 none)

/-! ### CSV files -/

/-- a cell of a CSV file: text or a number in the column of the axis or in one of the other columns -/
inductive Cell (α : Type) where
  | text (s : String)
  | axis (x : ℚ)
  | sample (x : α)

/-- `float(row[0])` -/
def Cell.toAxis : Cell α → Py ℚ
  | .axis x => .ok x
  | _ => .error .valueError

/-- `float(c)` or `complex(c)` -/
def Cell.toSample : Cell α → Py α
  | .sample x => .ok x
  | _ => .error .valueError

/-- the text of a cell. Numbers in the row with the labels are not considered. -/
def Cell.toText : Cell α → String
  | .text s => s
  | _ => ""

/-- the loop over `zip(axis, channels.transpose())` (`_signal_writers.py:147-148`, `_spectrum_writers.py:111-112`) -/
def csvRows (axis : List ℚ) (channels : Mat α) : List (List (Cell α)) :=
  (axis.zip (List.range channels.cols)).map fun p =>
    .axis p.1 :: (List.range channels.rows).map fun c => .sample (channels.get c p.2)

/-- `CsvWriter.__call__` for signals (`_signal_writers.py:136-148`) -/
def signalCsvWrite (s : Signal α ℚ) : Py (List (List (Cell α))) := do
  let time ← timeSamples s
  .ok ((.text "time" :: s.labels.map .text) :: csvRows time s.channels)

/-- `CsvWriter.__call__` for spectrums (`_spectrum_writers.py:100-112`) -/
def spectrumCsvWrite (s : Spectrum α ℚ) : List (List (Cell α)) :=
  (.text "frequency" :: s.labels.map .text) :: csvRows (frequencySamples s) s.channels

/-- reading one row of numbers (`_signal_readers.py:119-120`, `_spectrum_readers.py:128-129`) -/
def csvRow : List (Cell α) → Py (ℚ × List α)
  | [] => .error .indexError
  | cell :: cells => do
    let x ← cell.toAxis
    let xs ← cells.mapM Cell.toSample
    .ok (x, xs)

/-- reading the first row (`_signal_readers.py:110-117`, `_spectrum_readers.py:118-126`): the axis, the rows and the
labels, if the row does not contain numbers. The value on the axis is appended, before the other cells are read. -/
def csvFirst : List (Cell α) → Py (List ℚ × List (List α) × Option (List String))
  | [] => .error .indexError
  | cell :: cells => match cell.toAxis with
    | .error .valueError => .ok ([], [], some (cells.map Cell.toText))
    | .error e => .error e
    | .ok x => match cells.mapM Cell.toSample with
      | .error .valueError => .ok ([x], [], some (cells.map Cell.toText))
      | .error e => .error e
      | .ok xs => .ok ([x], [xs], none)

/-- `numpy.transpose(rows)` for a list of lists. Lists with different lengths raise a `ValueError`. -/
def transpose [Inhabited α] : List (List α) → Py (Mat α)
  | [] => .ok ⟨0, 0, fun _ _ => default⟩
  | row :: rows =>
    if rows.all (fun r => r.length = row.length) then
      .ok ⟨row.length, rows.length + 1, fun c i => ((row :: rows).getD i []).getD c default⟩
    else .error .valueError

/-- the table in a CSV file: its axis, its transposed rows and the labels, if there are any. Reading an empty file raises
a `StopIteration` exception, which is modelled as a `RuntimeError`. -/
def csvTable [Inhabited α] : List (List (Cell α)) → Py (List ℚ × Mat α × Option (List String))
  | [] => .error .runtimeError
  | first :: others => do
    let (axis, rows, labels) ← csvFirst first
    let more ← others.mapM csvRow
    let data ← transpose (rows ++ more.map Prod.snd)
    .ok (axis ++ more.map Prod.fst, data, labels)

/-- `labels=[f"{filename} {i}" for i in range(1, n + 1)]` -/
def fileLabels (filename : String) (n : Nat) : List String :=
  (List.range n).map fun (i : Nat) => filename ++ " " ++ toString (i + 1)

/-- `CsvReader.__call__` for signals (`_signal_readers.py:100-123`) -/
def signalCsvRead [LinearOrder α] [Inhabited α] (mem : Nat → Nat → α) (file : List (List (Cell α))) :
    Py (Signal α ℚ) := do
  let (time, data, labels) ← csvTable file
  signalFromRows mem time data (labels.getD [])

/-- `CsvReader.__call__` for spectrums (`_spectrum_readers.py:108-132`) -/
def spectrumCsvRead [LinearOrder α] [Inhabited α] [Zero α] (mem : Nat → Nat → α) (filename : String)
    (file : List (List (Cell α))) : Py (Spectrum α ℚ) := do
  let (frequency, data, labels) ← csvTable file
  spectrumFromRows mem frequency data (labels.getD (fileLabels filename ((file.headD []).length - 1)))

/-! ### NPY files -/

/-- the array in an NPY file: its first row contains the axis (as real numbers), the other rows the channels -/
structure NpyArray (α : Type) where
  axis : List ℚ
  data : Mat α

/-- `NumpyNpyWriter.__call__` for signals (`_signal_writers.py:171-181`) -/
def signalNpyWrite (s : Signal α ℚ) : Py (NpyArray α) := do
  let time ← timeSamples s
  .ok ⟨time, s.channels⟩

/-- `NumpyNpyWriter.__call__` for spectrums (`_spectrum_writers.py:135-145`) -/
def spectrumNpyWrite (s : Spectrum α ℚ) : NpyArray α := ⟨frequencySamples s, s.channels⟩

/-- `NumpyReader.__call__` for signals in NPY files (`_signal_readers.py:153-158`). It is assumed, that opening an NPY file
with a context manager raises an `AttributeError`, which is not the case since Python 3.11. -/
def signalNpyRead [LinearOrder α] [Inhabited α] (mem : Nat → Nat → α) (filename : String) (file : NpyArray α) :
    Py (Signal α ℚ) :=
  signalFromRows mem file.axis file.data (fileLabels filename file.data.rows)

/-- `NumpyReader.__call__` for spectrums in NPY files (`_spectrum_readers.py:180-185`), with the same assumption -/
def spectrumNpyRead [LinearOrder α] [Inhabited α] [Zero α] (mem : Nat → Nat → α) (filename : String)
    (file : NpyArray α) : Py (Spectrum α ℚ) :=
  spectrumFromRows mem file.axis file.data (fileLabels filename file.data.rows)

end Table
end Verif
