import Verif.Numpy

/-
Python's `range` with an arbitrary step.
-/

namespace Verif

/-- the elements of `range(start, stop, step)` for a step that is not zero -/
def pyRange (start stop step : Int) : List Int :=
  if 0 < step then (List.range ((stop - start + step - 1) / step).toNat).map fun (k : Nat) => start + k * step
  else (List.range ((start - stop + (-step) - 1) / (-step)).toNat).map fun (k : Nat) => start + k * step

/-- a `for`-loop over a list, whose body changes a variable and can raise exceptions -/
def pyFor {α β : Type} (body : β → α → Py β) : List α → β → Py β
  | [], s => .ok s
  | x :: l, s => body s x >>= pyFor body l

end Verif
