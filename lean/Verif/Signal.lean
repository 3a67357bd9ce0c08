import Verif.Indexing

/-
Model of the non-arithmetic parts of `sumpf/_data/_signals/_signal.py` and
`sumpf/_data/_sampled_data.py`.  The sample type `α` and the type `R` of the sampling rate are
arbitrary.
-/

namespace Verif

/-- `allocate_array(shape)` (`sumpf/_internal/_functions.py:24-43`): an array with arbitrary contents.
(The real function happens to return zeroed shared memory, the model does not rely on that.) -/
def alloc {α : Type} (mem : Nat → Nat → α) (rows cols : Nat) : Mat α := ⟨rows, cols, mem⟩

/-- `tuple[slice]` -/
def sliceList {β : Type} (l : List β) (s : PySlice) : List β :=
  (l.drop (s.lo l.length)).take (s.count l.length)

/-- `sumpf.Signal` (`_signal.py:82-93`, `_sampled_data.py:26-33`). -/
structure Signal (α : Type) (R : Type) where
  channels : Mat α
  rate : R
  offset : Int
  labels : List String

/-- `sumpf.ShiftMode` (`sumpf/_internal/_enums.py:67-91`). -/
inductive ShiftMode where
  | offset
  | crop
  | pad
  | cycle
  deriving DecidableEq, Repr

namespace Signal

variable {α R : Type}

/-- The constructor of `Signal` (`_signal.py:82-93`), which sanitises the labels
(`_sampled_data.py:32`). -/
def new (channels : Mat α) (rate : R) (offset : Int) (labels : Option (List String)) : Signal α R :=
  { channels, rate, offset, labels := sanitizeLabels labels channels.rows }

/-- `len(signal)` (`_sampled_data.py:39-44`) -/
def count (s : Signal α R) : Nat := s.channels.rows

/-- `signal.length()` (`_sampled_data.py:33, 161-166`) -/
def length (s : Signal α R) : Nat := s.channels.cols

/-- `signal[k]` for a single key (`_signal.py:99-120`, branch `else: c = slices`).
`none`: the conversion of the key does not terminate. -/
def getChannels (s : Signal α R) (k : Indexing.Key) : Option (Signal α R) :=
  (Indexing.keyToSlice s.count k).map fun c =>
    new (s.channels.slice c .all) s.rate s.offset (some (sliceList s.labels c))

/-- The change of the offset for the slice of the time axis (`_signal.py:107-113`).  `if start:` is
false for `None` and for 0. -/
def sliceOffset (s : Signal α R) (t : PySlice) : Int :=
  match t.start with
  | none => s.offset
  | some a =>
    if a = 0 then s.offset
    else if a < 0 then s.offset + (s.length + a)
    else s.offset + a

/-- `signal[k0, k1]` (`_signal.py:99-120`). -/
def getItem (s : Signal α R) (k0 k1 : Indexing.Key) : Option (Signal α R) :=
  match Indexing.keyToSlice s.count k0, Indexing.keyToSlice s.length k1 with
  | some c, some t =>
    some (new (s.channels.slice c t) s.rate (s.sliceOffset t) (some (sliceList s.labels c)))
  | _, _ => none

/-- `reversed(signal)` (`_signal.py:179-192`). -/
def reversed (s : Signal α R) : Signal α R :=
  new { rows := s.count, cols := s.length, get := fun c t => s.channels.get c (s.length - 1 - t) }
    s.rate (s.length - s.offset - 1) (some s.labels)

/-- `abs(signal)` and `-signal` (`_signal.py:168-177, 194-203`), with the element-wise function `f`. -/
def mapSamples (f : α → α) (s : Signal α R) : Signal α R :=
  new (s.channels.map f) s.rate s.offset (some s.labels)

/-- `signal.pad(length, value)` (`_signal.py:301-321`). -/
def pad (mem : Nat → Nat → α) (s : Signal α R) (length : Nat) (value : α) : Py (Signal α R) :=
  if length = s.length then .ok s
  else
    let channels := alloc mem s.count length
    (if length < s.length then
      channels.assign .all .all (s.channels.slice .all (.range 0 length))
    else do
      let channels ← channels.assign .all (.range 0 s.length) s.channels
      channels.assign .all (.drop s.length) (.scalar value)) >>= fun channels =>
    .ok (new channels s.rate s.offset (some s.labels))

/-- `signal.shift(shift, mode)` (`_signal.py:323-376`).  `shift = none` is python's `None`, for which
the modes other than `OFFSET` raise a `TypeError` (`None < 0`, `abs(None)`, `-None`). -/
def shift [Zero α] (mem : Nat → Nat → α) (s : Signal α R) (shift : Option Int) (mode : ShiftMode) :
    Py (Signal α R) :=
  if shift = some 0 then .ok s
  else match mode, shift with
  | .offset, none => .ok (new s.channels s.rate 0 (some s.labels))
  | .offset, some n => .ok (new s.channels s.rate (s.offset + n) (some s.labels))
  | _, none => .error .typeError
  | .crop, some n =>
    let channels := alloc mem s.count s.length
    (if n < 0 then do
      let channels ← channels.assign .all (.range 0 n) (s.channels.slice .all (.drop (-n)))
      channels.assign .all (.drop n) (.scalar 0)
    else do
      let channels ← channels.assign .all (.range 0 n) (.scalar 0)
      channels.assign .all (.drop n) (s.channels.slice .all (.range 0 (-n)))) >>= fun channels =>
    .ok (new channels s.rate s.offset (some s.labels))
  | .pad, some n =>
    let channels := alloc mem s.count (s.length + n.natAbs)
    (if n < 0 then do
      let channels ← channels.assign .all (.range 0 s.length) s.channels
      channels.assign .all (.drop s.length) (.scalar 0)
    else do
      let channels ← channels.assign .all (.range 0 n) (.scalar 0)
      channels.assign .all (.drop n) s.channels) >>= fun channels =>
    .ok (new channels s.rate s.offset (some s.labels))
  | .cycle, some n =>
    let channels := alloc mem s.count s.length
    (do
      let channels ← channels.assign .all (.range 0 n) (s.channels.slice .all (.drop (-n)))
      channels.assign .all (.drop n) (s.channels.slice .all (.range 0 (-n)))) >>= fun channels =>
    .ok (new channels s.rate s.offset (some s.labels))

/-- `(A != B).any()` for arrays with the same shape, with the comparison `beq` of the samples (for
which `beq x x = false` is possible, because NaN is different from itself). -/
def anyDifferent (beq : α → α → Bool) (A B : Mat α) : Bool :=
  (List.range A.rows).any fun c => (List.range A.cols).any fun i => !beq (A.get c i) (B.get c i)

/-- `signal == other` for two signals (`_signal.py:150-158`, `_sampled_data.py:46-54`). -/
def eq [DecidableEq R] (beq : α → α → Bool) (s o : Signal α R) : Bool :=
  if s.rate ≠ o.rate then false
  else if s.offset ≠ o.offset then false
  else if ¬ (s.count = o.count ∧ s.length = o.length) then false
  else if anyDifferent beq s.channels o.channels then false
  else if s.labels ≠ o.labels then false
  else true

/-- `hash(signal)` (`_signal.py:160-162`, `_sampled_data.py:60-64`).  Python's hash functions of samples and
tuples are arbitrary functions. -/
def hash (hashSample : α → Int) (hashTuple : (Nat × Nat) × List Int × List String → Int)
    (hashOuter : Int × R × Int → Int) (s : Signal α R) : Int :=
  hashOuter (hashTuple ((s.count, s.length), s.channels.flat.map hashSample, s.labels), s.rate, s.offset)

end Signal
end Verif
