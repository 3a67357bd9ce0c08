import Verif.Cube
import Verif.Signal

/-
Model of `sumpf/_data/_spectrograms/_spectrogram.py`.  The type `α` of the (complex) samples and the type
`R` of the resolution and of the sampling rate are arbitrary.
-/

namespace Verif

/-- `sumpf.Spectrogram` (`_spectrogram.py:78-99`); `channels[c, f, t]` -/
structure Spectrogram (α : Type) (R : Type) where
  channels : Cube α
  resolution : R
  rate : R
  offset : Int
  labels : List String

/-- `sumpf_internal.allocate_array` with a three-dimensional shape (`_functions.py:28-43`) -/
def allocCube {α : Type} (mem : Nat → Nat → Nat → α) (n0 n1 n2 : Nat) : Cube α where
  d0 := n0
  d1 := n1
  d2 := n2
  get := mem

namespace Spectrogram

variable {α R : Type}

/-- the constructor -/
def new (channels : Cube α) (resolution rate : R) (offset : Int) (labels : Option (List String)) :
    Spectrogram α R :=
  { channels, resolution, rate, offset, labels := sanitizeLabels labels channels.d0 }

/-- `len(spectrogram)` -/
def count (s : Spectrogram α R) : Nat := s.channels.d0

/-- `spectrogram.number_of_frequencies()` -/
def freqs (s : Spectrogram α R) : Nat := s.channels.d1

/-- `spectrogram.length()` -/
def length (s : Spectrogram α R) : Nat := s.channels.d2

/-- `__algebra_function_overlaps` (`_spectrogram.py:588-595`) -/
def overlaps (mem : Nat → Nat → Nat → α) (f : α → α → α) (label : String) (s : Spectrogram α R)
    (a b : Cube α) (n0 n1 n2 : Nat) : Py (Spectrogram α R) := do
  let channels ← Cube.ufunc2 f a b (allocCube mem n0 n1 n2) .all .all .all
  return new channels s.resolution s.rate s.offset (some (List.replicate channels.d0 label))

/-- `channels[n:] = rest` or `function(other_pivot, rest, out=channels[n:])` (`_spectrogram.py:611-614`) -/
def fillOther (f : α → α → α) (pivot : Option α) (n : Nat) (rest channels : Cube α) : Py (Cube α) :=
  match pivot with
  | none => channels.assign (.drop n) .all .all rest
  | some p => Cube.ufunc2 f (.scalar p) rest channels (.drop n) .all .all

/-- `channels[n:] = rest` or `function(rest, other_pivot, out=channels[n:])` (`_spectrogram.py:603-606`) -/
def fillSelf (f : α → α → α) (pivot : Option α) (n : Nat) (rest channels : Cube α) : Py (Cube α) :=
  match pivot with
  | none => channels.assign (.drop n) .all .all rest
  | some p => Cube.ufunc2 f rest (.scalar p) channels (.drop n) .all .all

/-- `__algebra_function_spectrogram_different_number_of_channels` (`_spectrogram.py:597-620`) -/
def differentChannels (mem : Nat → Nat → Nat → α) (f : α → α → α) (pivot : Option α) (label : String)
    (s o : Spectrogram α R) : Py (Spectrogram α R) := do
  if s.count > o.count then
    let channels ← Cube.ufunc2 f (s.channels.slice (.range 0 o.count) .all .all) o.channels
      (allocCube mem s.count s.freqs s.length) (.range 0 o.count) .all .all
    let channels ← fillSelf f pivot o.count (s.channels.slice (.drop o.count) .all .all) channels
    return new channels s.resolution s.rate s.offset (some (List.replicate s.count label))
  else
    let channels ← Cube.ufunc2 f s.channels (o.channels.slice (.range 0 s.count) .all .all)
      (allocCube mem o.count o.freqs o.length) (.range 0 s.count) .all .all
    let channels ← fillOther f pivot s.count (o.channels.slice (.drop s.count) .all .all) channels
    return new channels s.resolution s.rate s.offset (some (List.replicate o.count label))

/-- `for c in range(1, channel_count): channels[c, fs, ts] = row`, where `row` has been evaluated before -/
def copyRows (fs ts : PySlice) (row : Cube α) (channels : Cube α) : Py (Cube α) :=
  (List.range' 1 (channels.d0 - 1)).foldlM
    (fun channels (c : Nat) => channels.assign (.range c (c + 1)) fs ts row) channels

/-- `for c in range(1, channel_count): channels[c, fs, ts] = channels[0, fs, ts]` -/
def copyFirstRow (fs ts : PySlice) (channels : Cube α) : Py (Cube α) :=
  (List.range' 1 (channels.d0 - 1)).foldlM
    (fun channels (c : Nat) => channels.assign (.range c (c + 1)) fs ts (channels.slice (.range 0 1) fs ts))
    channels

/-- Allocation of the result and copying of the first spectrogram (`_spectrogram.py:623-647`). -/
def copySelf [Zero α] (mem : Nat → Nat → Nat → α) (s o : Spectrogram α R) : Py (Cube α) := do
  let start := min s.offset o.offset
  let stop := max (s.offset + s.length) (o.offset + o.length)
  let channels := allocCube mem (max s.count o.count) (max s.freqs o.freqs) (stop - start).toNat
  let channels ← channels.assign .all .all .all (.scalar 0)
  let fs : PySlice := .range 0 s.freqs
  let ts : PySlice := .range (s.offset - start) (s.offset - start + s.length)
  let channels ← channels.assign (.range 0 s.count) fs ts s.channels
  if s.count = 1 then copyRows fs ts (s.channels.row 0) channels else pure channels

/-- Copying of the second spectrogram (`_spectrogram.py:648-657`). -/
def copyOther (f : α → α → α) (pivot : Option α) (s o : Spectrogram α R) (channels : Cube α) : Py (Cube α) := do
  let start := min s.offset o.offset
  let fs : PySlice := .range 0 o.freqs
  let ts : PySlice := .range (o.offset - start) (o.offset - start + o.length)
  match pivot with
  | none =>
    let channels ← channels.assign (.range 0 o.count) fs ts o.channels
    if o.count = 1 then copyRows fs ts (o.channels.row 0) channels else pure channels
  | some p =>
    let channels ← Cube.ufunc2 f (.scalar p) o.channels channels (.range 0 o.count) fs ts
    if o.count = 1 then copyFirstRow fs ts channels else pure channels

/-- The computation for the overlapping part (`_spectrogram.py:658-679`). -/
def computeOverlap (f : α → α → α) (s o : Spectrogram α R) (channels : Cube α) : Py (Cube α) :=
  let start := min s.offset o.offset
  let bc := min s.count o.count
  let bf := min s.freqs o.freqs
  let ba := max s.offset o.offset - start
  let bb := min (s.offset + s.length) (o.offset + o.length) - start
  let fs : PySlice := .range 0 bf
  let ss : PySlice := .range (ba + start - s.offset) (bb + start - s.offset)
  let os : PySlice := .range (ba + start - o.offset) (bb + start - o.offset)
  if bf ≠ 0 ∧ ba < bb then
    if s.count = 1 then
      Cube.ufunc2 f ((s.channels.row 0).slice .all fs ss) (o.channels.slice .all fs os) channels .all fs (.range ba bb)
    else if o.count = 1 then
      Cube.ufunc2 f (s.channels.slice .all fs ss) ((o.channels.row 0).slice .all fs os) channels .all fs (.range ba bb)
    else
      Cube.ufunc2 f (s.channels.slice (.range 0 bc) fs ss) (o.channels.slice (.range 0 bc) fs os) channels
        (.range 0 bc) fs (.range ba bb)
  else .ok channels

/-- `__algebra_function_spectrogram_different_shapes` (`_spectrogram.py:622-682`) -/
def differentShapes [Zero α] (mem : Nat → Nat → Nat → α) (f : α → α → α) (pivot : Option α) (label : String)
    (s o : Spectrogram α R) : Py (Spectrogram α R) := do
  let channels ← copySelf mem s o
  let channels ← copyOther f pivot s o channels
  let channels ← computeOverlap f s o channels
  return new channels s.resolution s.rate (min s.offset o.offset)
    (some (List.replicate (max s.count o.count) label))

/-- `__algebra_function_spectrogram` (`_spectrogram.py:555-586`) -/
def algebra [Zero α] (mem : Nat → Nat → Nat → α) (f : α → α → α) (pivot : Option α) (label : String)
    (s o : Spectrogram α R) : Py (Spectrogram α R) :=
  if s.freqs = o.freqs ∧ s.length = o.length ∧ s.offset = o.offset then
    if s.count = 1 then overlaps mem f label s (s.channels.row 0) o.channels o.count o.freqs o.length
    else if o.count = 1 then overlaps mem f label s s.channels (o.channels.row 0) s.count s.freqs s.length
    else if s.count = o.count then overlaps mem f label s s.channels o.channels s.count s.freqs s.length
    else differentChannels mem f pivot label s o
  else differentShapes mem f pivot label s o

end Spectrogram
end Verif
