import Verif.Spectrogram
import Verif.Spectrum

/-
Model of the arithmetic of spectrograms with signals and spectrums (`/repo/sumpf/_data/_spectrograms/_spectrogram.py:684-1043`).
The samples of the signals are real numbers, which numpy converts to complex numbers in these operations. Simplification:
the samples of all operands have the same type `α`.
-/

namespace Verif
namespace Spectrogram

variable {α R : Type}

/-- the values of the parameter `transpose`: `(1, 0, 2)` or `(2, 0, 1)` -/
inductive Axes where
  | signal
  | spectrum

/-- `A.transpose(transpose)` -/
def Axes.view : Axes → Cube α → Cube α
  | .signal, A => A.transpose102
  | .spectrum, A => A.transpose201

/-- an array, whose view `A.transpose(transpose)` is given -/
def Axes.restore : Axes → Cube α → Cube α
  | .signal, A => A.transpose102
  | .spectrum, A => A.transpose120

/-- an operation, that writes to the elements of `out.transpose(transpose)`, which is a view on the elements of `out` -/
def Axes.write (tr : Axes) (out : Cube α) (operation : Cube α → Py (Cube α)) : Py (Cube α) := do
  let v ← operation (tr.view out)
  return tr.restore v

/-- `for c, o in zip(rows, out): operation(c, o)`, where `out` has the channels `0` to `n - 1` -/
def forRows (n : Nat) (operation : Nat → Cube α → Py (Cube α)) (out : Cube α) : Py (Cube α) :=
  (List.range n).foldlM (fun out c => operation c out) out

/-- the result of the methods, which have been called for spectrograms with the same time range
(`_spectrogram.py:588-595`, `838-845`, `878-882`, `917-921`) -/
def mixed (s : Spectrogram α R) (label : String) (channels : Cube α) : Spectrogram α R :=
  new channels s.resolution s.rate s.offset (some (List.replicate channels.d0 label))

/-! ### The spectrogram on the left side of the operator -/

/-- `__algebra_function_signal_spectrum_different_number_of_channels` (`_spectrogram.py:847-882`) -/
def mixedDifferentChannels (mem : Nat → Nat → Nat → α) (f : α → α → α) (pivot : Option α) (tr : Axes)
    (s : Spectrogram α R) (o : Mat α) : Py (Cube α) :=
  if s.count > o.rows then do
    let channels := allocCube mem s.count s.freqs s.length
    let channels ← tr.write channels fun v =>
      Cube.ufunc2 f (tr.view (s.channels.slice (.range 0 o.rows) .all .all)) (.ofMat o) v .all (.range 0 o.rows) .all
    match pivot with
    | none => channels.assign (.drop o.rows) .all .all (s.channels.slice (.drop o.rows) .all .all)
    | some p => Cube.ufunc2 f (s.channels.slice (.drop o.rows) .all .all) (.scalar p) channels (.drop o.rows) .all .all
  else do
    let channels := allocCube mem o.rows s.freqs s.length
    let channels ← tr.write channels fun v =>
      Cube.ufunc2 f (tr.view s.channels) (.ofMat (o.slice (.range 0 s.count) .all)) v .all (.range 0 s.count) .all
    tr.write channels fun v =>
      match pivot with
      | none => v.assign .all (.drop s.count) .all (.ofMat (o.slice (.drop s.count) .all))
      | some p => Cube.ufunc2 f (.scalar p) (.ofMat (o.slice (.drop s.count) .all)) v .all (.drop s.count) .all

/-- `channels[:] = 0.0` for the allocated array and copying of the spectrogram (`_spectrogram.py:924-945`) -/
def signalCopySelf [Zero α] (mem : Nat → Nat → Nat → α) (s : Spectrogram α R) (o : Signal α R) : Py (Cube α) := do
  let start := min s.offset o.offset
  let stop := max (s.offset + s.length) (o.offset + o.length)
  let channels := allocCube mem (max s.count o.count) s.freqs (stop - start).toNat
  let channels ← channels.assign .all .all .all (.scalar 0)
  let ts : PySlice := .range (s.offset - start) (s.offset - start + s.length)
  let channels ← channels.assign (.range 0 s.count) .all ts s.channels
  if s.count = 1 then copyRows .all ts (s.channels.row 0) channels else pure channels

/-- `for c in range(1, channel_count): transposed[:, c, ts] = row`, for the view `transposed` -/
def copySignalRows (ts : PySlice) (row : Mat α) (transposed : Cube α) : Py (Cube α) :=
  (List.range' 1 (transposed.d1 - 1)).foldlM
    (fun v (c : Nat) => v.assign .all (.range c (c + 1)) ts (.ofMat row)) transposed

/-- `transposed[:, 0:oc, oa:ob] = other.channels()` and the loop for signals with one channel
(`_spectrogram.py:946-950`, `1002-1005`) -/
def copySignal (start : Int) (o : Signal α R) (channels : Cube α) : Py (Cube α) :=
  let ts : PySlice := .range (o.offset - start) (o.offset - start + o.length)
  Axes.signal.write channels fun v => do
    let v ← v.assign .all (.range 0 o.count) ts (.ofMat o.channels)
    if o.count = 1 then copySignalRows ts (o.channels.row 0) v else pure v

/-- copying of the signal (`_spectrogram.py:946-955`) -/
def signalCopyOther (f : α → α → α) (pivot : Option α) (s : Spectrogram α R) (o : Signal α R) (channels : Cube α) :
    Py (Cube α) :=
  let start := min s.offset o.offset
  let ts : PySlice := .range (o.offset - start) (o.offset - start + o.length)
  match pivot with
  | none => copySignal start o channels
  | some p => do
    let channels ← Axes.signal.write channels fun v =>
      Cube.ufunc2 f (.scalar p) (.ofMat o.channels) v .all (.range 0 o.count) ts
    if o.count = 1 then copyFirstRow .all ts channels else pure channels

/-- the computation for the overlapping part (`_spectrogram.py:956-975`) -/
def signalComputeOverlap (f : α → α → α) (s : Spectrogram α R) (o : Signal α R) (channels : Cube α) : Py (Cube α) :=
  let start := min s.offset o.offset
  let bc := min s.count o.count
  let ba := max s.offset o.offset - start
  let bb := min (s.offset + s.length) (o.offset + o.length) - start
  let ss : PySlice := .range (ba + start - s.offset) (bb + start - s.offset)
  let os : PySlice := .range (ba + start - o.offset) (bb + start - o.offset)
  if ba < bb then
    if s.count = 1 then
      forRows (min o.count channels.d0) (fun c out =>
        Cube.ufunc2 f ((s.channels.row 0).slice .all .all ss) (.ofMat ((o.channels.row c).slice .all os)) out
          (.range c (c + 1)) .all (.range ba bb)) channels
    else if o.count = 1 then
      Axes.signal.write channels fun v =>
        Cube.ufunc2 f (s.channels.slice .all .all ss).transpose102 (.ofMat ((o.channels.row 0).slice .all os)) v
          .all .all (.range ba bb)
    else
      Axes.signal.write channels fun v =>
        Cube.ufunc2 f (s.channels.slice (.range 0 bc) .all ss).transpose102 (.ofMat (o.channels.slice (.range 0 bc) os)) v
          .all (.range 0 bc) (.range ba bb)
  else .ok channels

/-- `__algebra_function_signal` and `__algebra_function_signal_different_shapes` (`_spectrogram.py:687-721`, `923-981`) -/
def algebraSignal [Zero α] (mem : Nat → Nat → Nat → α) (f : α → α → α) (pivot : Option α) (label : String)
    (s : Spectrogram α R) (o : Signal α R) : Py (Spectrogram α R) :=
  if s.length = o.length ∧ s.offset = o.offset then do
    let channels ←
      if s.count = 1 then
        forRows o.count (fun c out => Cube.ufunc2 f (s.channels.row 0) (.ofMat (o.channels.row c)) out
          (.range c (c + 1)) .all .all) (allocCube mem o.count s.freqs s.length)
      else if o.count = 1 then
        Axes.signal.write (allocCube mem s.count s.freqs s.length) fun v =>
          Cube.ufunc2 f s.channels.transpose102 (.ofMat (o.channels.row 0)) v .all .all .all
      else if s.count = o.count then
        Axes.signal.write (allocCube mem s.count s.freqs s.length) fun v =>
          Cube.ufunc2 f s.channels.transpose102 (.ofMat o.channels) v .all .all .all
      else mixedDifferentChannels mem f pivot .signal s o.channels
    return mixed s label channels
  else do
    let channels ← signalCopySelf mem s o
    let channels ← signalCopyOther f pivot s o channels
    let channels ← signalComputeOverlap f s o channels
    return new channels s.resolution s.rate (min s.offset o.offset) (some (List.replicate (max s.count o.count) label))

/-- `__algebra_function_spectrum` (`_spectrogram.py:723-758`) -/
def algebraSpectrum (mem : Nat → Nat → Nat → α) (f : α → α → α) (pivot : Option α) (label : String)
    (s : Spectrogram α R) (o : Spectrum α R) : Py (Spectrogram α R) :=
  if o.length ≠ s.freqs then .error .valueError
  else do
    let channels ←
      if s.count = 1 then do
        let v ← forRows o.count (fun c out => Cube.ufunc2 f (s.channels.row 0).transpose021 (.ofMat (o.channels.row c)) out
          (.range c (c + 1)) .all .all) (allocCube mem o.count s.freqs s.length).transpose021
        pure v.transpose021
      else if o.count = 1 then
        Axes.spectrum.write (allocCube mem s.count s.freqs s.length) fun v =>
          Cube.ufunc2 f s.channels.transpose201 (.ofMat (o.channels.row 0)) v .all .all .all
      else if s.count = o.count then
        Axes.spectrum.write (allocCube mem s.count s.freqs s.length) fun v =>
          Cube.ufunc2 f s.channels.transpose201 (.ofMat o.channels) v .all .all .all
      else mixedDifferentChannels mem f pivot .spectrum s o.channels
    return mixed s label channels

/-! ### The spectrogram on the right side of the operator -/

/-- `__algebra_function_signal_spectrum_different_number_of_channels_right` (`_spectrogram.py:884-921`) -/
def mixedDifferentChannelsRight (mem : Nat → Nat → Nat → α) (f : α → α → α) (pivot : Option α) (tr : Axes)
    (s : Spectrogram α R) (o : Mat α) : Py (Cube α) :=
  if s.count > o.rows then do
    let channels := allocCube mem s.count s.freqs s.length
    let channels ← tr.write channels fun v =>
      Cube.ufunc2 f (.ofMat o) (tr.view (s.channels.slice (.range 0 o.rows) .all .all)) v .all (.range 0 o.rows) .all
    match pivot with
    | none => channels.assign (.drop o.rows) .all .all (s.channels.slice (.drop o.rows) .all .all)
    | some p => Cube.ufunc2 f (.scalar p) (s.channels.slice (.drop o.rows) .all .all) channels (.drop o.rows) .all .all
  else do
    let channels := allocCube mem o.rows s.freqs s.length
    let channels ← tr.write channels fun v =>
      Cube.ufunc2 f (.ofMat (o.slice (.range 0 s.count) .all)) (tr.view s.channels) v .all (.range 0 s.count) .all
    tr.write channels fun v =>
      match pivot with
      | none => v.assign .all (.drop s.count) .all (.ofMat (o.slice (.drop s.count) .all))
      | some p => Cube.ufunc2 f (.ofMat (o.slice (.drop s.count) .all)) (.scalar p) v .all (.drop s.count) .all

/-- `channels[:] = 0.0` for the allocated array and copying of the signal (`_spectrogram.py:984-1005`) -/
def signalRightCopyOther [Zero α] (mem : Nat → Nat → Nat → α) (s : Spectrogram α R) (o : Signal α R) : Py (Cube α) := do
  let start := min s.offset o.offset
  let stop := max (s.offset + s.length) (o.offset + o.length)
  let channels := allocCube mem (max s.count o.count) s.freqs (stop - start).toNat
  let channels ← channels.assign .all .all .all (.scalar 0)
  copySignal start o channels

/-- copying of the spectrogram (`_spectrogram.py:1006-1015`) -/
def signalRightCopySelf (f : α → α → α) (pivot : Option α) (s : Spectrogram α R) (o : Signal α R) (channels : Cube α) :
    Py (Cube α) := do
  let start := min s.offset o.offset
  let ts : PySlice := .range (s.offset - start) (s.offset - start + s.length)
  match pivot with
  | none =>
    let channels ← channels.assign (.range 0 s.count) .all ts s.channels
    if s.count = 1 then copyRows .all ts (s.channels.row 0) channels else pure channels
  | some p =>
    let channels ← Cube.ufunc2 f (.scalar p) s.channels channels (.range 0 s.count) .all ts
    if s.count = 1 then copyFirstRow .all ts channels else pure channels

/-- the computation for the overlapping part (`_spectrogram.py:1016-1035`) -/
def signalRightComputeOverlap (f : α → α → α) (s : Spectrogram α R) (o : Signal α R) (channels : Cube α) :
    Py (Cube α) :=
  let start := min s.offset o.offset
  let bc := min s.count o.count
  let ba := max s.offset o.offset - start
  let bb := min (s.offset + s.length) (o.offset + o.length) - start
  let ss : PySlice := .range (ba + start - s.offset) (bb + start - s.offset)
  let os : PySlice := .range (ba + start - o.offset) (bb + start - o.offset)
  if ba < bb then
    if s.count = 1 then
      forRows (min o.count channels.d0) (fun c out =>
        Cube.ufunc2 f (.ofMat ((o.channels.row c).slice .all os)) ((s.channels.row 0).slice .all .all ss) out
          (.range c (c + 1)) .all (.range ba bb)) channels
    else if o.count = 1 then
      Axes.signal.write channels fun v =>
        Cube.ufunc2 f (.ofMat ((o.channels.row 0).slice .all os)) (s.channels.slice .all .all ss).transpose102 v
          .all .all (.range ba bb)
    else
      Axes.signal.write channels fun v =>
        Cube.ufunc2 f (.ofMat (o.channels.slice (.range 0 bc) os)) (s.channels.slice (.range 0 bc) .all ss).transpose102 v
          .all (.range 0 bc) (.range ba bb)
  else .ok channels

/-- `__algebra_function_signal_right` and `__algebra_function_signal_different_shapes_right`
(`_spectrogram.py:760-799`, `983-1041`) -/
def algebraSignalRight [Zero α] (mem : Nat → Nat → Nat → α) (f : α → α → α) (pivot : Option α) (label : String)
    (s : Spectrogram α R) (o : Signal α R) : Py (Spectrogram α R) :=
  if s.length = o.length ∧ s.offset = o.offset then do
    let channels ←
      if s.count = 1 then
        forRows o.count (fun c out => Cube.ufunc2 f (.ofMat (o.channels.row c)) (s.channels.row 0) out
          (.range c (c + 1)) .all .all) (allocCube mem o.count s.freqs s.length)
      else if o.count = 1 then
        Axes.signal.write (allocCube mem s.count s.freqs s.length) fun v =>
          Cube.ufunc2 f (.ofMat (o.channels.row 0)) s.channels.transpose102 v .all .all .all
      else if s.count = o.count then
        Axes.signal.write (allocCube mem s.count s.freqs s.length) fun v =>
          Cube.ufunc2 f (.ofMat o.channels) s.channels.transpose102 v .all .all .all
      else mixedDifferentChannelsRight mem f pivot .signal s o.channels
    return mixed s label channels
  else do
    let channels ← signalRightCopyOther mem s o
    let channels ← signalRightCopySelf f pivot s o channels
    let channels ← signalRightComputeOverlap f s o channels
    return new channels s.resolution s.rate (min s.offset o.offset) (some (List.replicate (max s.count o.count) label))

/-- `__algebra_function_spectrum_right` (`_spectrogram.py:801-836`) -/
def algebraSpectrumRight (mem : Nat → Nat → Nat → α) (f : α → α → α) (pivot : Option α) (label : String)
    (s : Spectrogram α R) (o : Spectrum α R) : Py (Spectrogram α R) :=
  if o.length ≠ s.freqs then .error .valueError
  else do
    let channels ←
      if s.count = 1 then do
        let v ← forRows o.count (fun c out => Cube.ufunc2 f (.ofMat (o.channels.row c)) (s.channels.row 0).transpose021 out
          (.range c (c + 1)) .all .all) (allocCube mem o.count s.freqs s.length).transpose021
        pure v.transpose021
      else if o.count = 1 then
        Axes.spectrum.write (allocCube mem s.count s.freqs s.length) fun v =>
          Cube.ufunc2 f (.ofMat (o.channels.row 0)) s.channels.transpose201 v .all .all .all
      else if s.count = o.count then
        Axes.spectrum.write (allocCube mem s.count s.freqs s.length) fun v =>
          Cube.ufunc2 f (.ofMat o.channels) s.channels.transpose201 v .all .all .all
      else mixedDifferentChannelsRight mem f pivot .spectrum s o.channels
    return mixed s label channels

end Spectrogram
end Verif
