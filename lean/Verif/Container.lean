import Verif.Table
import Verif.Spectrogram
import Mathlib.Data.Complex.Basic

/-
Model of saving signals, spectrums and spectrograms in JSON and NPZ files and of loading them: the functions `as_dict`,
`from_dict`, the JSON readers and writers and the NumPy readers and writers in `sumpf/_internal/_persistence/`.

Simplification: `json.dump` and `json.load` restore numbers, strings and lists, tuples are loaded as lists. NPZ files restore
arrays, but numbers are loaded as arrays without dimensions.
-/

namespace Verif
namespace Container

open Table (rowList)

variable {α : Type}

/-! ### JSON files -/

/-- the dictionary for a signal -/
structure SignalDict (α : Type) where
  channels : Option (List (List α)) := none
  rate : Option ℚ := none
  offset : Option Int := none
  labels : Option (List String) := none

/-- `as_dict` (`_signal_writers.py:122-127`) -/
def signalAsDict (s : Signal α ℚ) : SignalDict α where
  channels := some ((List.range s.channels.rows).map (rowList s.channels))
  rate := some s.rate
  offset := some s.offset
  labels := some s.labels

/-- allocating an array with the shape of a list of lists and copying the lists to it (`_signal_readers.py:38-39`). The
shape of an empty list has only one dimension, so indexing the array with two slices raises an `IndexError`. Lists with
different lengths raise a `ValueError`. -/
def listArray [Inhabited α] (mem : Nat → Nat → α) : List (List α) → Py (Mat α)
  | [] => .error .indexError
  | row :: rows =>
    if rows.all (fun r => r.length = row.length) then
      (alloc mem (rows.length + 1) row.length).assign .all .all (Mat.ofRows row.length (row :: rows))
    else .error .valueError

/-- `from_dict` (`_signal_readers.py:35-45`) -/
def signalFromDict [Inhabited α] (mem : Nat → Nat → α) (d : SignalDict α) : Py (Signal α ℚ) := do
  let channels ← match d.channels with
    | some rows => listArray mem rows
    | none => .ok ⟨1, 0, mem⟩
  .ok (Signal.new channels (d.rate.getD 48000) (d.offset.getD 0) (some (d.labels.getD [])))

/-- the real and the imaginary parts of a channel (`_spectrum_writers.py:87-89`) -/
structure JsonChannel where
  real : List ℝ
  imaginary : List ℝ

/-- the dictionary for a spectrum -/
structure SpectrumDict where
  channels : Option (List JsonChannel) := none
  resolution : Option ℚ := none
  labels : Option (List String) := none

/-- `as_dict` (`_spectrum_writers.py:85-91`) -/
noncomputable def spectrumAsDict (s : Spectrum ℂ ℚ) : SpectrumDict where
  channels := some ((List.range s.channels.rows).map fun c =>
    ⟨(rowList s.channels c).map Complex.re, (rowList s.channels c).map Complex.im⟩)
  resolution := some s.resolution
  labels := some s.labels

/-- the broadcasting of a list of numbers to an array with `n` elements -/
def broadcastList (l : List ℝ) (n : Nat) : Py (Nat → ℝ) :=
  if l.length = n then .ok fun i => l.getD i 0
  else if l.length = 1 then .ok fun _ => l.getD 0 0
  else .error .valueError

/-- the samples of a channel (`_spectrum_readers.py:154-155`) -/
noncomputable def jsonRow (n : Nat) (c : JsonChannel) : Py (Nat → ℂ) := do
  let im ← broadcastList c.imaginary n
  let re ← broadcastList c.real n
  .ok fun i => Complex.I * (im i : ℂ) + (re i : ℂ)

/-- the channels of a spectrum (`_spectrum_readers.py:147-161`). The loop over the channels overwrites each row of the
array once. -/
noncomputable def spectrumJsonChannels (mem : Nat → Nat → ℂ) : Option (List JsonChannel) → Py (Mat ℂ)
  | none => .ok ⟨1, 0, mem⟩
  | some [] => .ok ⟨1, 0, mem⟩
  | some (c :: cs) =>
    if c.real.length ≠ 0 then do
      let rows ← (c :: cs).mapM (jsonRow c.real.length)
      .ok ⟨cs.length + 1, c.real.length, fun i => rows.getD i (mem i)⟩
    else .ok ⟨1, 0, mem⟩

/-- `JsonReader.__call__` (`_spectrum_readers.py:139-162`) and `from_dict` (`_spectrum_readers.py:32-36`) -/
noncomputable def spectrumFromJson (mem : Nat → Nat → ℂ) (d : SpectrumDict) : Py (Spectrum ℂ ℚ) := do
  let channels ← spectrumJsonChannels mem d.channels
  .ok (Spectrum.new channels (d.resolution.getD 1) (some (d.labels.getD [])))

/-- the real and the imaginary parts of a channel of a spectrogram (`_spectrogram_writers.py:83-86`): a list for each
frequency bin -/
structure JsonMatrix where
  real : List (List ℝ)
  imaginary : List (List ℝ)

/-- the dictionary for a spectrogram -/
structure SpectrogramDict where
  channels : Option (List JsonMatrix) := none
  resolution : Option ℚ := none
  rate : Option ℚ := none
  offset : Option Int := none
  labels : Option (List String) := none

/-- `as_dict` (`_spectrogram_writers.py:80-91`) -/
noncomputable def spectrogramAsDict (s : Spectrogram ℂ ℚ) : SpectrogramDict where
  channels := some ((List.range s.channels.d0).map fun c =>
    ⟨(List.range s.channels.d1).map fun f => (List.range s.channels.d2).map fun t => (s.channels.get c f t).re,
     (List.range s.channels.d1).map fun f => (List.range s.channels.d2).map fun t => (s.channels.get c f t).im⟩)
  resolution := some s.resolution
  rate := some s.rate
  offset := some s.offset
  labels := some s.labels

/-- conversion of a list of lists to an array and its broadcasting to the shape `(m, n)`. A list of lists, which does not
have this shape, raises a `ValueError`. (The broadcasting of lists with the length one is not considered.) -/
def matrixList (l : List (List ℝ)) (m n : Nat) : Py (Nat → Nat → ℝ) :=
  if l.length = m ∧ ∀ r ∈ l, r.length = n then .ok fun i j => (l.getD i []).getD j 0
  else .error .valueError

/-- the samples of a channel (`_spectrogram_readers.py:73-74`) -/
noncomputable def jsonMatrix (m n : Nat) (c : JsonMatrix) : Py (Nat → Nat → ℂ) := do
  let im ← matrixList c.imaginary m n
  let re ← matrixList c.real m n
  .ok fun i j => Complex.I * (im i j : ℂ) + (re i j : ℂ)

/-- the channels array, which is passed to the constructor of the spectrogram: it should have three dimensions, but it can
have two, too. -/
inductive Channels where
  | two (channels : Mat ℂ)
  | three (channels : Cube ℂ)

/-- the channels of a spectrogram (`_spectrogram_readers.py:61-82`) -/
noncomputable def spectrogramJsonChannels (mem : Nat → Nat → ℂ) (mem' : Nat → Nat → Nat → ℂ) :
    Option (List JsonMatrix) → Py Channels
  | none => .ok (.two ⟨1, 0, mem⟩)
  | some [] => .ok (.two ⟨1, 0, mem⟩)
  | some (c :: cs) => match c.real with
    | [] => .ok (.two ⟨1, 0, mem⟩)
    | r :: rs =>
      if r.length ≠ 0 then do
        let channels ← (c :: cs).mapM (jsonMatrix (rs.length + 1) r.length)
        .ok (.three ⟨cs.length + 1, rs.length + 1, r.length, fun i => channels.getD i (mem' i)⟩)
      else .ok (.two ⟨1, 0, mem⟩)

/-- the loaded object: the constructor of the spectrogram accepts arrays with two dimensions -/
inductive LoadedSpectrogram where
  | proper (s : Spectrogram ℂ ℚ)
  | flat (channels : Mat ℂ)

/-- `JsonReader.__call__` (`_spectrogram_readers.py:53-83`) and `from_dict` (`_spectrogram_readers.py:30-36`) -/
noncomputable def spectrogramFromJson (mem : Nat → Nat → ℂ) (mem' : Nat → Nat → Nat → ℂ) (d : SpectrogramDict) :
    Py LoadedSpectrogram := do
  match ← spectrogramJsonChannels mem mem' d.channels with
  | .two channels => .ok (.flat channels)
  | .three channels => .ok (.proper (Spectrogram.new channels (d.resolution.getD 1) (d.rate.getD 48000) (d.offset.getD 0)
      (some (d.labels.getD []))))

/-! ### NPZ files -/

/-- a number or a NumPy array without dimensions, which contains a number -/
inductive Scalar (R : Type) where
  | number (x : R)
  | array (x : R)

namespace Scalar
variable {R : Type}

/-- the number, which is used for computations and comparisons -/
def value : Scalar R → R
  | number x => x
  | array x => x

/-- `hash(x)`; arrays are not hashable. (The hash is modelled by the hashed number itself.) -/
def hash : Scalar R → Py R
  | number x => .ok x
  | array _ => .error .typeError

/-- the number, after it has been saved in an NPZ file and loaded again -/
def npz (x : Scalar R) : Scalar R := array x.value

end Scalar

/-- a signal, for which the type of the sampling rate and of the offset is known -/
structure PySignal (α : Type) where
  channels : Mat α
  rate : Scalar ℚ
  offset : Scalar Int
  labels : List String

namespace PySignal

/-- the signal with the values of the numbers -/
def signal (s : PySignal α) : Signal α ℚ := ⟨s.channels, s.rate.value, s.offset.value, s.labels⟩

/-- `signal == other`, which compares the values of the numbers (`_signal.py:150-158`) -/
def eq (beq : α → α → Bool) (s o : PySignal α) : Bool := s.signal.eq beq o.signal

/-- `hash(signal)` (`_signal.py:160-162`, `_sampled_data.py:60-64`), modelled by the hashed data -/
def hash (s : PySignal α) : Py ((Nat × Nat) × List α × List String × ℚ × Int) := do
  let rate ← s.rate.hash
  let offset ← s.offset.hash
  .ok ((s.channels.rows, s.channels.cols), s.channels.flat, s.labels, rate, offset)

/-- `NumpyNpzWriter.__call__` (`_signal_writers.py:188-199`) and `NumpyReader.__call__` (`_signal_readers.py:150-152`) -/
def throughNpz (mem : Nat → Nat → α) (s : PySignal α) : Py (PySignal α) := do
  let channels ← (alloc mem s.channels.rows s.channels.cols).assign .all .all s.channels
  .ok ⟨channels, s.rate.npz, s.offset.npz, sanitizeLabels (some s.labels) channels.rows⟩

end PySignal

/-- a spectrum, for which the type of the resolution is known -/
structure PySpectrum (α : Type) where
  channels : Mat α
  resolution : Scalar ℚ
  labels : List String

namespace PySpectrum

/-- `hash(spectrum)` (`_spectrum.py:142-144`, `_sampled_data.py:60-64`), modelled by the hashed data -/
def hash (s : PySpectrum α) : Py ((Nat × Nat) × List α × List String × ℚ) := do
  let resolution ← s.resolution.hash
  .ok ((s.channels.rows, s.channels.cols), s.channels.flat, s.labels, resolution)

/-- `NumpyNpzWriter.__call__` (`_spectrum_writers.py:152-162`) and `NumpyReader.__call__` (`_spectrum_readers.py:175-179`) -/
def throughNpz (mem : Nat → Nat → α) (s : PySpectrum α) : Py (PySpectrum α) := do
  let channels ← (alloc mem s.channels.rows s.channels.cols).assign .all .all s.channels
  .ok ⟨channels, s.resolution.npz, sanitizeLabels (some s.labels) channels.rows⟩

end PySpectrum

end Container
end Verif
