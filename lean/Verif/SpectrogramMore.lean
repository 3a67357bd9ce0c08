import Verif.Spectrogram
import Verif.Spectrum
import Verif.Sweep

/-
Model of the parts of `sumpf/_data/_spectrograms/_spectrogram.py` and `sumpf/_data/_spectrums/_spectrum.py`,
which are not in `Spectrogram.lean` and `Spectrum.lean`: slicing, comparing, unary functions, padding,
shifting, the arithmetic of spectrograms with numbers and arrays and the axes of the data.
-/

namespace Verif

/-- element-wise function of one argument of a three-dimensional array -/
def Cube.map {α β : Type} (f : α → β) (A : Cube α) : Cube β where
  d0 := A.d0
  d1 := A.d1
  d2 := A.d2
  get i j k := f (A.get i j k)

namespace Spectrogram

variable {α R : Type}

/-- `spectrogram[k]` for a single key (`_spectrogram.py:103-126`, branch `else: c = slices`).
`none`: the conversion of the key does not terminate. -/
def getChannels (s : Spectrogram α R) (k : Indexing.Key) : Option (Spectrogram α R) :=
  (Indexing.keyToSlice s.count k).map fun c =>
    new (s.channels.slice c .all .all) s.resolution s.rate s.offset (some (sliceList s.labels c))

/-- `spectrogram[k0, k1]` (`_spectrogram.py:103-126`): the tuple has two elements, so the offset is kept. -/
def getBins (s : Spectrogram α R) (k0 k1 : Indexing.Key) : Option (Spectrogram α R) :=
  match Indexing.keyToSlice s.count k0, Indexing.keyToSlice s.freqs k1 with
  | some c, some f =>
    some (new (s.channels.slice c f .all) s.resolution s.rate s.offset (some (sliceList s.labels c)))
  | _, _ => none

/-- The change of the offset for the slice of the time axis (`_spectrogram.py:112-117`).  `if start:` is false
for `None` and for 0. -/
def sliceOffset (s : Spectrogram α R) (t : PySlice) : Int :=
  match t.start with
  | none => s.offset
  | some a =>
    if a = 0 then s.offset
    else if a < 0 then s.offset + (s.length + a)
    else s.offset + a

/-- `spectrogram[k0, k1, k2]` (`_spectrogram.py:103-126`) -/
def getItem (s : Spectrogram α R) (k0 k1 k2 : Indexing.Key) : Option (Spectrogram α R) :=
  match Indexing.keyToSlice s.count k0, Indexing.keyToSlice s.freqs k1, Indexing.keyToSlice s.length k2 with
  | some c, some f, some t =>
    some (new (s.channels.slice c f t) s.resolution s.rate (s.sliceOffset t) (some (sliceList s.labels c)))
  | _, _, _ => none

/-- `(A != B).any()` for arrays with the same shape -/
def anyDifferent (beq : α → α → Bool) (A B : Cube α) : Bool :=
  (List.range A.d0).any fun c => (List.range A.d1).any fun k => (List.range A.d2).any fun i =>
    !beq (A.get c k i) (B.get c k i)

/-- `spectrogram == other` for two spectrograms (`_spectrogram.py:157-167`, `_sampled_data.py:46-54`) -/
def eq [DecidableEq R] (beq : α → α → Bool) (s o : Spectrogram α R) : Bool :=
  if s.resolution ≠ o.resolution then false
  else if s.rate ≠ o.rate then false
  else if s.offset ≠ o.offset then false
  else if ¬ (s.count = o.count ∧ s.freqs = o.freqs ∧ s.length = o.length) then false
  else if anyDifferent beq s.channels o.channels then false
  else if s.labels ≠ o.labels then false
  else true

/-- `hash(spectrogram)` (`_spectrogram.py:169-171`, `_sampled_data.py:60-64`).  Python's hash functions of
samples and tuples are arbitrary functions. -/
def hash (hashSample : α → Int) (hashTuple : (Nat × Nat × Nat) × List Int × List String → Int)
    (hashOuter : Int × R × R × Int → Int) (s : Spectrogram α R) : Int :=
  hashOuter (hashTuple ((s.count, s.freqs, s.length), s.channels.flat.map hashSample, s.labels),
    s.resolution, s.rate, s.offset)

/-- `abs(spectrogram)`, `-spectrogram` and `spectrogram.conjugate()` (`_spectrogram.py:177-200, 391-402`), with
the element-wise function `f` -/
def mapSamples {β : Type} (f : α → β) (s : Spectrogram α R) : Spectrogram β R :=
  new (s.channels.map f) s.resolution s.rate s.offset (some s.labels)

/-- `spectrogram.pad(length, value)` (`_spectrogram.py:306-328`) -/
def pad (mem : Nat → Nat → Nat → α) (s : Spectrogram α R) (length : Nat) (value : α) : Py (Spectrogram α R) :=
  if length = s.length then .ok s
  else
    let channels := allocCube mem s.count s.freqs length
    (if length < s.length then
      channels.assign .all .all .all (s.channels.slice .all .all (.range 0 length))
    else do
      let channels ← channels.assign .all .all (.range 0 s.length) s.channels
      channels.assign .all .all (.drop s.length) (.scalar value)) >>= fun channels =>
    .ok (new channels s.resolution s.rate s.offset (some s.labels))

/-- `spectrogram.shift(shift, mode)` (`_spectrogram.py:330-389`).  `shift = none` is python's `None`, for which
the modes other than `OFFSET` raise a `TypeError`. -/
def shift [Zero α] (mem : Nat → Nat → Nat → α) (s : Spectrogram α R) (shift : Option Int) (mode : ShiftMode) :
    Py (Spectrogram α R) :=
  if shift = some 0 then .ok s
  else match mode, shift with
  | .offset, none => .ok (new s.channels s.resolution s.rate 0 (some s.labels))
  | .offset, some n => .ok (new s.channels s.resolution s.rate (s.offset + n) (some s.labels))
  | _, none => .error .typeError
  | .crop, some n =>
    let channels := allocCube mem s.count s.freqs s.length
    (if n < 0 then do
      let channels ← channels.assign .all .all (.range 0 n) (s.channels.slice .all .all (.drop (-n)))
      channels.assign .all .all (.drop n) (.scalar 0)
    else do
      let channels ← channels.assign .all .all (.range 0 n) (.scalar 0)
      channels.assign .all .all (.drop n) (s.channels.slice .all .all (.range 0 (-n)))) >>= fun channels =>
    .ok (new channels s.resolution s.rate s.offset (some s.labels))
  | .pad, some n =>
    let channels := allocCube mem s.count s.freqs (s.length + n.natAbs)
    (if n < 0 then do
      let channels ← channels.assign .all .all (.range 0 s.length) s.channels
      channels.assign .all .all (.drop s.length) (.scalar 0)
    else do
      let channels ← channels.assign .all .all (.range 0 n) (.scalar 0)
      channels.assign .all .all (.drop n) s.channels) >>= fun channels =>
    .ok (new channels s.resolution s.rate s.offset (some s.labels))
  | .cycle, some n =>
    let channels := allocCube mem s.count s.freqs s.length
    (do
      let channels ← channels.assign .all .all (.range 0 n) (s.channels.slice .all .all (.drop (-n)))
      channels.assign .all .all (.drop n) (s.channels.slice .all .all (.range 0 (-n)))) >>= fun channels =>
    .ok (new channels s.resolution s.rate s.offset (some s.labels))

/-- `__algebra_function_different_type` (`_spectrogram.py:1045-1056`): `other` is a number or an array, for
which the element-wise function is defined.  Arrays with less dimensions are arrays with leading axes of length
one (`Cube.ofMat`, `Cube.scalar`). -/
def algebraArray (mem : Nat → Nat → Nat → α) (f : α → α → α) (s : Spectrogram α R) (other : Cube α) :
    Py (Spectrogram α R) := do
  let channels ← Cube.ufunc2 f s.channels other (allocCube mem s.count s.freqs s.length) .all .all .all
  return new channels s.resolution s.rate s.offset (some s.labels)

/-- `_algebra_function_right` for a number or an array (`_spectrogram.py:523-549`) -/
def algebraArrayRight (mem : Nat → Nat → Nat → α) (f : α → α → α) (s : Spectrogram α R) (other : Cube α) :
    Py (Spectrogram α R) := do
  let channels ← Cube.ufunc2 f other s.channels (allocCube mem s.count s.freqs s.length) .all .all .all
  return new channels s.resolution s.rate s.offset (some s.labels)

/-- `spectrogram.maximum_frequency()` (`_spectrogram.py:241-246`) -/
def maximumFrequency (s : Spectrogram α ℝ) : ℝ := ((s.freqs : ℝ) - 1) * s.resolution

/-- `spectrogram.duration()` (`_spectrogram.py:248-253`) -/
noncomputable def duration (s : Spectrogram α ℝ) : Py ℝ := Sweep.div s.length s.rate

/-- `spectrogram.frequency_samples()` (`_spectrogram.py:290-295`): the number of elements and the elements -/
noncomputable def frequencySamples (s : Spectrogram α ℝ) : Nat × (Nat → ℝ) :=
  (s.freqs, Sweep.linspace 0 s.maximumFrequency s.freqs)

/-- `spectrogram.time_samples()` (`_spectrogram.py:297-304`) -/
noncomputable def timeSamples (s : Spectrogram α ℝ) : Py (Nat × (Nat → ℝ)) := do
  let first ← Sweep.div s.offset s.rate
  let last ← Sweep.div (s.length + s.offset - 1) s.rate
  return (s.length, Sweep.linspace first last s.length)

end Spectrogram

namespace Spectrum

variable {α R : Type}

/-- `spectrum[k]` for a single key (`_spectrum.py:92-106`) -/
def getChannels (s : Spectrum α R) (k : Indexing.Key) : Option (Spectrum α R) :=
  (Indexing.keyToSlice s.count k).map fun c =>
    new (s.channels.slice c .all) s.resolution (some (sliceList s.labels c))

/-- `spectrum[k0, k1]` (`_spectrum.py:92-106`) -/
def getItem (s : Spectrum α R) (k0 k1 : Indexing.Key) : Option (Spectrum α R) :=
  match Indexing.keyToSlice s.count k0, Indexing.keyToSlice s.length k1 with
  | some c, some f => some (new (s.channels.slice c f) s.resolution (some (sliceList s.labels c)))
  | _, _ => none

/-- `spectrum == other` for two spectrums (`_spectrum.py:134-140`, `_sampled_data.py:46-54`) -/
def eq [DecidableEq R] (beq : α → α → Bool) (s o : Spectrum α R) : Bool :=
  if s.resolution ≠ o.resolution then false
  else if ¬ (s.count = o.count ∧ s.length = o.length) then false
  else if Signal.anyDifferent beq s.channels o.channels then false
  else if s.labels ≠ o.labels then false
  else true

/-- `hash(spectrum)` (`_spectrum.py:142-144`, `_sampled_data.py:60-64`) -/
def hash (hashSample : α → Int) (hashTuple : (Nat × Nat) × List Int × List String → Int)
    (hashOuter : Int × R → Int) (s : Spectrum α R) : Int :=
  hashOuter (hashTuple ((s.count, s.length), s.channels.flat.map hashSample, s.labels), s.resolution)

/-- `abs(spectrum)`, `-spectrum` and `spectrum.conjugate()` (`_spectrum.py:150-168, 337-344`), with the
element-wise function `f` -/
def mapSamples {β : Type} (f : α → β) (s : Spectrum α R) : Spectrum β R :=
  new (s.channels.map f) s.resolution (some s.labels)

/-- `spectrum.maximum_frequency()` (`_spectrum.py:267-272`) -/
def maximumFrequency (s : Spectrum α ℝ) : ℝ := ((s.length : ℝ) - 1) * s.resolution

/-- `spectrum.frequency_samples()` (`_spectrum.py:309-314`) -/
noncomputable def frequencySamples (s : Spectrum α ℝ) : Nat × (Nat → ℝ) :=
  (s.length, Sweep.linspace 0 s.maximumFrequency s.length)

end Spectrum

namespace Signal

variable {α : Type}

/-- `signal.duration()` (`_signal.py:281-286`) -/
noncomputable def duration (s : Signal α ℝ) : Py ℝ := Sweep.div s.length s.rate

/-- `signal.time_samples()` (`_signal.py:292-299`) -/
noncomputable def timeSamples (s : Signal α ℝ) : Py (Nat × (Nat → ℝ)) := do
  let first ← Sweep.div s.offset s.rate
  let last ← Sweep.div (s.length + s.offset - 1) s.rate
  return (s.length, Sweep.linspace first last s.length)

end Signal
end Verif
