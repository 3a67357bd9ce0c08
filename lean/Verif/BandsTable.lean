import Verif.BandsFilter

/-
Storing bands filters in tables: `/repo/sumpf/_internal/_persistence/_filter_writers.py` and `_filter_readers.py`. The
files are modelled as rows of cells. The conversions between numbers and text or bytes are not modelled: writing a number
and reading it leads to the same number.
-/

namespace Verif
namespace Filter

open Interpolation (Mode)

variable {α K : Type}

/-! ### the table -/

section Table

variable [LinearOrder α]

/-- the loop over `zip(frequencies, tf.ys)` (`_filter_writers.py:134-140`) for the channel with the index `i` -/
def appendValues (i : Nat) (bands : Dict α (List (Option K))) (points : List (α × K)) : Dict α (List (Option K)) :=
  points.foldl (fun d p => d.set p.1 ((d.get? p.1).getD (List.replicate i none) ++ [some p.2])) bands

/-- the loop over `bands.keys() - set(frequencies)` (`_filter_writers.py:141-142`) -/
def appendMissing (bands : Dict α (List (Option K))) (frequencies : List α) : Dict α (List (Option K)) :=
  bands.map fun q => if q.1 ∈ frequencies then q else (q.1, q.2 ++ [none])

/-- the loop over the transfer functions (`_filter_writers.py:130-142`) -/
def joinChannels (i : Nat) (bands : Dict α (List (Option K))) : List (Term α K) → Py (Dict α (List (Option K)))
  | [] => .ok bands
  | .bands xs ys _ _ :: tfs => joinChannels (i + 1) (appendMissing (appendValues i bands (xs.zip ys)) xs) tfs
  | _ :: _ => .error .valueError

/-- `sorted(bands.items())` of the dictionary in `TableWriter.__call__` (`_filter_writers.py:122-145`). The keys are
unique, so the values are not compared. The key `None` is only used alone. -/
def tableRows (tfs : List (Term α K)) : Py (List (Option α × List (Option K))) :=
  joinChannels 0 [] tfs >>= fun bands =>
    if bands.isEmpty ∧ tfs.length ≠ 0 then .ok [(none, List.replicate tfs.length none)]
    else .ok ((bands.insertionSort fun p q => p.1 ≤ q.1).map fun p => (some p.1, p.2))

end Table

/-- `labels=[f"{filename} {i}" for i in range(1, n + 1)]` -/
def fileLabels (filename : String) (n : Nat) : List String :=
  (List.range n).map fun (i : Nat) => filename ++ " " ++ toString (i + 1)

/-! ### CSV files -/

/-- a cell of a CSV file -/
inductive Cell (α K : Type) where
  | empty
  | text (s : String)
  | frequency (f : α)
  | value (y : K)

/-- `CsvWriter._write` (`_filter_writers.py:388-405`) -/
def csvWrite [LinearOrder α] (a : Channels α K) : Py (List (List (Cell α K))) :=
  tableRows a.transferFunctions >>= fun rows =>
    .ok ((Cell.text "frequency" :: a.labels.map Cell.text) :: rows.map fun r =>
      (match r.1 with | some f => Cell.frequency f | none => .empty) ::
        r.2.map fun y => match y with | some y => Cell.value y | none => .empty)

/-- `float(row[0])` -/
def Cell.toFloat : Cell α K → Py α
  | .frequency f => .ok f
  | _ => .error .valueError

/-- `complex(c) if c else None` -/
def Cell.toValue : Cell α K → Py (Option K)
  | .empty => .ok none
  | .value y => .ok (some y)
  | _ => .error .valueError

/-- the text of a cell. Numbers in the row with the labels are not considered. -/
def Cell.toText : Cell α K → String
  | .text s => s
  | _ => ""

/-- `while len(bands) < columns: bands.append({})` -/
def extend (bands : List (Dict α K)) (columns : Nat) : List (Dict α K) :=
  bands ++ List.replicate (columns - bands.length) []

/-- the loop over `zip(values, bands)` (`_filter_readers.py:279-281`) -/
def updateAll [DecidableEq α] (f : α) : List (Option K) → List (Dict α K) → List (Dict α K)
  | v :: vs, d :: ds => (match v with | some y => d.set f y | none => d) :: updateAll f vs ds
  | _, ds => ds

/-- `CsvReader.__process_row` (`_filter_readers.py:272-281`). The list of bands is modified in place, so it is changed,
when an exception is raised. -/
def processRow [DecidableEq α] (bands : List (Dict α K)) (row : List (Cell α K)) : List (Dict α K) × Option PyExc :=
  let bands := extend bands (row.length - 1)
  match row with
  | [] => (bands, some .indexError)
  | .empty :: _ => (bands, none)
  | first :: cells => match first.toFloat with
    | .error e => (bands, some e)
    | .ok f => match cells.mapM Cell.toValue with
      | .error e => (bands, some e)
      | .ok values => (updateAll f values bands, none)

/-- the loop over the rows (`_filter_readers.py:267-268`) -/
def processRows [DecidableEq α] (bands : List (Dict α K)) : List (List (Cell α K)) → Py (List (Dict α K))
  | [] => .ok bands
  | row :: rows => match processRow bands row with
    | (_, some e) => .error e
    | (b, none) => processRows b rows

/-- `CsvReader.__call__` (`_filter_readers.py:248-270`). Reading an empty file raises a `StopIteration` exception, which
is modelled as a `RuntimeError`. -/
def csvRead [LinearOrder α] (filename : String) : List (List (Cell α K)) → Py (BandsFilter α K)
  | [] => .error .runtimeError
  | first :: rows =>
    let result (bands : List (Dict α K)) (labels : List String) :=
      processRows bands rows >>= fun bands => BandsFilter.new bands (.single .logarithmic) (.single .stairsLin)
        (.sequence labels)
    match processRow [] first with
    | (bands, none) => result bands (fileLabels filename (first.length - 1))
    | (bands, some .valueError) => result bands (first.tail.map Cell.toText)
    | (_, some e) => .error e

/-! ### text tables -/

/-- a number in a line of a text table. The text of a sample is not distinguished from the one of a frequency in the
implementation, if the sample is a real number. -/
inductive Token (α K : Type) where
  | frequency (f : α)
  | value (y : K)
  | nan

/-- `TextTableWriter._write` (`_filter_writers.py:169-187`). The first line is a comment, which is modelled as an empty
line. -/
def textWrite [LinearOrder α] (a : Channels α K) : Py (List (List (Token α K))) :=
  tableRows a.transferFunctions >>= fun rows =>
    .ok ([] :: rows.map fun r =>
      (match r.1 with | some f => Token.frequency f | none => .nan) ::
        r.2.map fun y => match y with | some y => Token.value y | none => .nan)

/-- the loop over the numbers of a line without the frequency (`_filter_readers.py:214-236`):
`itertools.zip_longest(mask.finditer(line), all_bands)` -/
def updateLine [DecidableEq α] (frequency : Option α) : List (Token α K) → List (Dict α K) → Py (List (Dict α K))
  | [], [] => .ok []
  | [], _ :: _ => .error .attributeError
  | t :: ts, ds =>
    let d := ds.headD []
    let d := match frequency, t with
      | some f, .value y => d.set f y
      | _, _ => d
    updateLine frequency ts ds.tail >>= fun r => .ok (d :: r)

/-- the loop over the lines of `TableReader.__call__` (`_filter_readers.py:209-236`). The first number of a line must be a
frequency, whose text starts with a digit, or not a number. -/
def textLines [LinearOrder α] [Zero α] (bands : List (Dict α K)) : List (List (Token α K)) → Py (List (Dict α K))
  | [] => .ok bands
  | [] :: lines => textLines bands lines
  | (t :: ts) :: lines => match t with
    | .frequency f =>
      if f < 0 then .error .valueError else updateLine (some f) ts bands >>= fun b => textLines b lines
    | .nan => updateLine none ts bands >>= fun b => textLines b lines
    | .value _ => .error .valueError

/-- `TableReader.__call__` (`_filter_readers.py:191-239`) -/
def textRead [LinearOrder α] [Zero α] (filename : String) (lines : List (List (Token α K))) : Py (BandsFilter α K) :=
  textLines [] lines >>= fun bands =>
    BandsFilter.new bands (.single .logarithmic) (.single .stairsLin) (.sequence (fileLabels filename bands.length))

/-! ### files of numpy -/

/-- an array, in which the first column contains the frequencies. `none` is not a number. -/
structure NpyArray (α K : Type) where
  columns : Nat
  rows : List (Option α × List (Option K))

/-- `max(len(v) for v in bands.values())`, where all rows have the same length, or a number for an empty table -/
def tableColumns (rows : List (Option α × List (Option K))) (otherwise : Nat) : Nat :=
  match rows with
  | [] => otherwise
  | r :: _ => r.2.length

/-- `NumpyNpyWriter._write` (`_filter_writers.py:451-471`); the column with the frequencies is not counted here -/
def npyWrite [LinearOrder α] (a : Channels α K) : Py (NpyArray α K) :=
  tableRows a.transferFunctions >>= fun rows => .ok ⟨tableColumns rows 1, rows⟩

/-- `{f: s for f, s in zip(frequencies, c) if not numpy.isnan(s)}` (`_filter_readers.py:311`) for the channel `c`. If a
frequency is not a number, the samples of the row are none, too. -/
def columnDict [DecidableEq α] (rows : List (Option α × List (Option K))) (c : Nat) : Dict α K :=
  rows.foldl (fun d r => match r.1, r.2[c]? with | some f, some (some y) => d.set f y | _, _ => d) []

/-- `NumpyReader.__call__` (`_filter_readers.py:288-316`) for an array -/
def npyRead [LinearOrder α] (filename : String) (array : NpyArray α K) : Py (BandsFilter α K) :=
  BandsFilter.new ((List.range array.columns).map (columnDict array.rows)) (.single .linear) (.single .stairsLin)
    (.sequence (fileLabels filename array.columns))

/-- an archive with arrays -/
structure NpzArchive (α K : Type) where
  array : NpyArray α K
  interpolations : List Mode
  extrapolations : List Mode
  labels : List String

/-- the attribute `interpolation` of the transfer functions of a bands filter -/
def termInterpolation : Term α K → Mode
  | .bands _ _ i _ => i
  | _ => .zero

/-- the attribute `extrapolation` of the transfer functions of a bands filter -/
def termExtrapolation : Term α K → Mode
  | .bands _ _ _ e => e
  | _ => .zero

/-- `NumpyNpzWriter._write` (`_filter_writers.py:478-504`) -/
def npzWrite [LinearOrder α] (a : Channels α K) : Py (NpzArchive α K) :=
  tableRows a.transferFunctions >>= fun rows =>
    .ok ⟨⟨tableColumns rows 1, rows⟩, a.transferFunctions.map termInterpolation,
      a.transferFunctions.map termExtrapolation, a.labels⟩

/-- `NumpyReader.__call__` (`_filter_readers.py:288-316`) for an archive -/
def npzRead [LinearOrder α] (file : NpzArchive α K) : Py (BandsFilter α K) :=
  BandsFilter.new ((List.range file.array.columns).map (columnDict file.array.rows)) (.sequence file.interpolations)
    (.sequence file.extrapolations) (.sequence file.labels)

end Filter
end Verif
