import Verif.Signal
import Mathlib.Data.Nat.Log

/-
`sumpf.MaximumLengthSequence` (`/repo/sumpf/_data/_signals/_mls.py`).
-/

namespace Verif
namespace Mls

variable {α R : Type}

/-- the number of bits and the length of the signal (`_mls.py:55-60`). The logarithm is computed exactly, while python
computes it with floating point numbers. -/
def parameters : Option Nat → Option Nat → Nat × Nat
  | bits, none => let bits := bits.getD 16; (bits, 2 ^ bits - 1)
  | none, some length => (Nat.clog 2 (length + 1), length)
  | some bits, some length => (bits, length)

/-- `random.integers(low=0, high=high)`; the outcome of the random generator is the parameter `draw`, which is mapped to
the range of the function. -/
def integers (draw : Nat) (high : Int) : Py Nat :=
  if high ≤ 0 then .error .valueError else .ok (draw % high.toNat)

/-- the initialization of the shift register (`_mls.py:62-64`). The outcome of `random.choice` is the parameter `choice`,
which states for each bit, if it is set. -/
def seed (bits : Nat) (choice : Nat → Bool) (draw : Nat) : Py (List Bool) :=
  let state := (List.range bits).map choice
  if true ∉ state then do
    let i ← integers draw ((state.length : Int) - 1)
    return state.set i true
  else return state

/-- `scipy.signal.max_len_seq(bits, state, length)[0]`: scipy supports two to 32 bits and requires, that the state has one
entry per bit and that it is not zero. The sequence itself is the parameter `register`. -/
def maxLenSeq (register : Nat → List Bool → Nat → Bool) (bits : Nat) (state : List Bool) (length : Nat) :
    Py (List Bool) :=
  if bits < 2 ∨ 32 < bits then .error .valueError
  else if state.length ≠ bits then .error .valueError
  else if true ∉ state then .error .valueError
  else .ok ((List.range length).map (register bits state))

/-- the constructor (`_mls.py:48-71`), returns the signal and the number of bits -/
def new [One α] [Zero α] [Add α] [Sub α] [Mul α] (mem : Nat → Nat → α) (register : Nat → List Bool → Nat → Bool)
    (choice : Nat → Bool) (draw : Nat) (bits : Option Nat) (rate : R) (length : Option Nat) : Py (Signal α R × Nat) :=
  let (bits, length) := parameters bits length
  do
    let state ← seed bits choice draw
    let sequence ← maxLenSeq register bits state length
    let channels := alloc mem 1 sequence.length
    let row : Mat α := ⟨1, sequence.length, fun _ i => if sequence.getD i false then 1 else 0⟩
    let channels ← channels.assign .all .all row
    let channels := channels.map (· * (1 + 1))
    let channels := channels.map (· - 1)
    return (Signal.new channels rate 0 (some ["MLS"]), bits)

end Mls
end Verif
