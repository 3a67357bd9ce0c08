import Verif.Spectrum

/-
`sumpf.RudinShapiroNoiseSpectrum` (`/repo/sumpf/_data/_spectrums/_rudinshapiro.py`).
-/

namespace Verif

namespace Mat

variable {α : Type}

/-- `v[j] = x` for a one-dimensional array `v`, which is modelled as an array with one row -/
def setCol (A : Mat α) (j : Int) (x : α) : Py (Mat α) :=
  let k := if j < 0 then j + A.cols else j
  if 0 ≤ k ∧ k < A.cols then
    .ok { A with get := fun i j' => if (j' : Int) = k then x else A.get i j' }
  else .error .indexError

end Mat

namespace RudinShapiro

variable {α R : Type}

/-- the second part of the body of the loop (`_rudinshapiro.py:65-67`) -/
def negatedPart [Neg α] (offset sequenceLength : Int) (i : Nat) (channel : Mat α) : Py (Mat α) :=
  if ((i + i / 2 : Nat) : Int) < sequenceLength then
    let j := min (i : Int) (sequenceLength - i)
    channel.assign .all (.range (offset + i + (i / 2 : Nat)) (offset + i + j))
      ((channel.slice .all (.range (offset + (i / 2 : Nat)) (offset + j))).map (- ·))
  else .ok channel

/-- the body of the loop (`_rudinshapiro.py:63-67`) -/
def body [Neg α] (offset sequenceLength : Int) (i : Nat) (channel : Mat α) : Py (Mat α) := do
  let j := min ((i / 2 : Nat) : Int) (sequenceLength - i)
  let channel ← channel.assign .all (.range (offset + i) (offset + i + j))
    (channel.slice .all (.range offset (offset + j)))
  negatedPart offset sequenceLength i channel

/-- the loop (`_rudinshapiro.py:62-68`); `i` is positive -/
def loop [Neg α] (offset sequenceLength : Int) (i : Nat) (hi : 0 < i) (channel : Mat α) : Py (Mat α) :=
  if h : (i : Int) < sequenceLength then
    match body offset sequenceLength i channel with
    | .error e => .error e
    | .ok channel => loop offset sequenceLength (i * 2) (by omega) channel
  else .ok channel
termination_by (sequenceLength - i).toNat
decreasing_by omega

/-- the case of more than one non-zero sample (`_rudinshapiro.py:59-68`) -/
def fillRest [One α] [Neg α] (offset sequenceLength : Int) (length : Nat) (channel : Mat α) : Py (Mat α) :=
  if offset + 1 < length ∧ sequenceLength > 1 then do
    let channel ← channel.setCol (offset + 1) 1
    loop offset sequenceLength 2 (by omega) channel
  else .ok channel

/-- the non-zero samples (`_rudinshapiro.py:57-68`) -/
def fill [One α] [Neg α] (offset sequenceLength : Int) (length : Nat) (channel : Mat α) : Py (Mat α) :=
  if offset < length ∧ sequenceLength > 0 then do
    let channel ← channel.setCol offset 1
    fillRest offset sequenceLength length channel
  else .ok channel

/-- the length of the sequence (`_rudinshapiro.py:50-53`) -/
def sequenceLength (stopFrequency : Option ℚ) (resolution : ℚ) (length : Nat) (offset : Int) : Int :=
  match stopFrequency with
  | none => length - offset
  | some f => min (pyRound (f / resolution)) length - offset

/-- `RudinShapiroNoiseSpectrum.__init__` (`_rudinshapiro.py:38-72`), for exact rational frequencies. `channel` is a
view of the only row of `channels`. The result consists of the spectrum and the sequence length. -/
def new [Zero α] [One α] [Neg α] (mem : Nat → Nat → α) (startFrequency : ℚ) (stopFrequency : Option ℚ)
    (resolution : ℚ) (length : Nat) : Py (Spectrum α ℚ × Int) := do
  if resolution = 0 then .error .zeroDivisionError else
    let offset := min (pyRound (startFrequency / resolution)) length
    let sequenceLength := sequenceLength stopFrequency resolution length offset
    let channels ← (alloc mem 1 length).assign .all (.range 0 offset) (.scalar 0)
    let channels ← fill offset sequenceLength length channels
    let channels ← channels.assign .all (.drop (offset + sequenceLength)) (.scalar 0)
    return (Spectrum.new channels resolution (some ["Noise"]), sequenceLength)

end RudinShapiro
end Verif
