import Verif.Mls

/-
The shift register of `scipy.signal.max_len_seq`, with which `sumpf.MaximumLengthSequence`
(`/repo/sumpf/_data/_signals/_mls.py:65`) computes its samples. It is an instance of the parameter `register` of the
model in `Verif.Mls`. The function is not a part of the repository, it is modelled as it is documented and implemented in
scipy: for each number of bits there is a fixed list of taps, the register is a cyclic buffer.
-/

namespace Verif
namespace Mls

/-- the positions in the register, that are added to the feedback for the given number of bits (`_mls_taps` in
`scipy/signal/_max_len_seq.py`) -/
def taps : Nat → List Nat
  | 2 => [1]
  | 3 => [2]
  | 4 => [3]
  | 5 => [3]
  | 6 => [5]
  | 7 => [6]
  | 8 => [7, 6, 1]
  | 9 => [5]
  | 10 => [7]
  | 11 => [9]
  | 12 => [11, 10, 4]
  | 13 => [12, 11, 8]
  | 14 => [13, 12, 2]
  | 15 => [14]
  | 16 => [15, 13, 4]
  | 17 => [14]
  | 18 => [11]
  | 19 => [18, 17, 14]
  | 20 => [17]
  | 21 => [19]
  | 22 => [21]
  | 23 => [18]
  | 24 => [23, 22, 17]
  | 25 => [22]
  | 26 => [25, 24, 20]
  | 27 => [26, 25, 22]
  | 28 => [25]
  | 29 => [27]
  | 30 => [29, 28, 7]
  | 31 => [28]
  | 32 => [31, 30, 10]
  | _ => []

/-- The content of the register and the index of the current bit -/
structure Register where
  state : List Bool
  idx : Nat

/-- the output of the register (`seq[i] = state[idx]` in `_max_len_seq_inner`) -/
def Register.output (r : Register) : Bool := r.state.getD r.idx false

/-- the body of the loop in `_max_len_seq_inner`: the taps are added to the current bit, and the result replaces the
current bit -/
def Register.step (taps : List Nat) (bits : Nat) (r : Register) : Register :=
  let feedback := taps.foldl (fun f t => xor f (r.state.getD ((t + r.idx) % bits) false)) r.output
  ⟨r.state.set r.idx feedback, (r.idx + 1) % bits⟩

/-- the register after `i` steps -/
def registerAt (bits : Nat) (state : List Bool) : Nat → Register
  | 0 => ⟨state, 0⟩
  | i + 1 => (registerAt bits state i).step (taps bits) bits

/-- the sample `i` of the sequence, which `scipy.signal.max_len_seq(bits, state, length)` returns -/
def shiftRegister (bits : Nat) (state : List Bool) (i : Nat) : Bool := (registerAt bits state i).output

/-- `MaximumLengthSequence.__init__` (`_mls.py:48-71`) with the shift register of scipy -/
def sequence {α R : Type} [One α] [Zero α] [Add α] [Sub α] [Mul α] (mem : Nat → Nat → α) (choice : Nat → Bool)
    (draw : Nat) (bits : Option Nat) (rate : R) (length : Option Nat) : Py (Signal α R × Nat) :=
  new mem shiftRegister choice draw bits rate length

/-- `MaximumLengthSequence.period_length` (`_mls.py:81-87`), `bits` is the second component of the result of the
constructor, which is returned by the method `bits` (`_mls.py:73-79`) -/
def periodLength (bits : Nat) : Nat := 2 ^ bits - 1

/-- `MaximumLengthSequence.periods` (`_mls.py:89-95`) -/
def periods {α R : Type} (s : Signal α R) (bits : Nat) : ℚ := (s.length : ℚ) / periodLength bits

end Mls
end Verif
