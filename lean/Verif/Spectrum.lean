import Verif.Signal

/-
Model of `sumpf/_data/_spectrums/_spectrum.py`.  The type `α` of the (complex) samples and the type `R` of
the resolution are arbitrary.
-/

namespace Verif

/-- `sumpf.Spectrum` (`_spectrum.py:70-86`, `_sampled_data.py:26-33`). -/
structure Spectrum (α : Type) (R : Type) where
  channels : Mat α
  resolution : R
  labels : List String

namespace Spectrum

variable {α R : Type}

/-- the constructor -/
def new (channels : Mat α) (resolution : R) (labels : Option (List String)) : Spectrum α R :=
  { channels, resolution, labels := sanitizeLabels labels channels.rows }

/-- `len(spectrum)` -/
def count (s : Spectrum α R) : Nat := s.channels.rows

/-- `spectrum.length()` -/
def length (s : Spectrum α R) : Nat := s.channels.cols

/-- `_algebra_function` for two spectrums (`_spectrum.py:174-205`). -/
def algebra (mem : Nat → Nat → α) (f : α → α → α) (pivot : Option α) (label : String)
    (s o : Spectrum α R) : Py (Spectrum α R) := do
  let channels ←
    if s.count = 1 then
      Mat.ufunc2 f (s.channels.row 0) o.channels (alloc mem o.count s.length) .all .all
    else if o.count = 1 then
      Mat.ufunc2 f s.channels (o.channels.row 0) (alloc mem s.count s.length) .all .all
    else if s.count < o.count then do
      let channels ← Mat.ufunc2 f s.channels (o.channels.slice (.range 0 s.count) .all)
        (alloc mem o.count s.length) (.range 0 s.count) .all
      match pivot with
      | none => channels.assign (.drop s.count) .all (o.channels.slice (.drop s.count) .all)
      | some p => Mat.ufunc2 f (.scalar p) (o.channels.slice (.drop s.count) .all) channels (.drop s.count) .all
    else do
      let channels ← Mat.ufunc2 f (s.channels.slice (.range 0 o.count) .all) o.channels
        (alloc mem s.count s.length) (.range 0 o.count) .all
      channels.assign (.drop o.count) .all (s.channels.slice (.drop o.count) .all)
  return new channels s.resolution (some (List.replicate channels.rows label))

/-- `_algebra_function` for a number or an array (`_spectrum.py:208-216`) -/
def algebraArray (mem : Nat → Nat → α) (f : α → α → α) (s : Spectrum α R) (other : Mat α) : Py (Spectrum α R) := do
  let channels ← Mat.ufunc2 f s.channels other (alloc mem s.count s.length) .all .all
  return new channels s.resolution (some s.labels)

/-- `_algebra_function_right` (`_spectrum.py:218-234`) -/
def algebraArrayRight (mem : Nat → Nat → α) (f : α → α → α) (s : Spectrum α R) (other : Mat α) :
    Py (Spectrum α R) := do
  let channels ← Mat.ufunc2 f other s.channels (alloc mem s.count s.length) .all .all
  return new channels s.resolution (some s.labels)

/-- `~spectrum` (`_spectrum.py:240-250`): `numpy.divide(1.0, channels)` -/
def invert [One α] [Div α] (mem : Nat → Nat → α) (s : Spectrum α R) : Py (Spectrum α R) :=
  algebraArrayRight mem (· / ·) s (.scalar 1)

/-- `spectrum.pad(length, value)` (`_spectrum.py:316-335`) -/
def pad (mem : Nat → Nat → α) (s : Spectrum α R) (length : Nat) (value : α) : Py (Spectrum α R) :=
  if length = s.length then .ok s
  else
    let channels := alloc mem s.count length
    (if length < s.length then
      channels.assign .all .all (s.channels.slice .all (.range 0 length))
    else do
      let channels ← channels.assign .all (.range 0 s.length) s.channels
      channels.assign .all (.drop s.length) (.scalar value)) >>= fun channels =>
    .ok (new channels s.resolution (some s.labels))

end Spectrum
end Verif
