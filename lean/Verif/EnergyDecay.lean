import Verif.Signal

/-
`sumpf.EnergyDecayCurve` (`/repo/sumpf/_data/_signals/_energy_decay.py`).
-/

namespace Verif

namespace Mat

variable {α : Type}

/-- `A[:, ::-1]` -/
def flipCols (A : Mat α) : Mat α := { A with get := fun i j => A.get i (A.cols - 1 - j) }

/-- the running sum of `numpy.cumsum`: every element is the previous result plus the element of the argument -/
def cumsumRow [Add α] (f : Nat → α) : Nat → α
  | 0 => f 0
  | j + 1 => cumsumRow f j + f (j + 1)

/-- `numpy.cumsum(A, axis=1)` -/
def cumsum [Add α] (A : Mat α) : Mat α := { A with get := fun i j => cumsumRow (A.get i) j }

end Mat

namespace EnergyDecay

variable {α R : Type}

/-- `EnergyDecayCurve.__init__` (`_energy_decay.py:46-58`). The call `numpy.cumsum(channels[:, ::-1], axis=1,
out=channels[:, ::-1])` works in place; every element is read before it is overwritten. -/
def new [Add α] [Mul α] (mem : Nat → Nat → α) (s : Signal α R) : Py (Signal α R) := do
  let channels ← (alloc mem s.count s.length).assign .all .all (s.channels.map fun x => x * x)
  let channels ← channels.flipCols.assign .all .all channels.flipCols.cumsum
  return Signal.new channels.flipCols s.rate s.offset (some s.labels)

end EnergyDecay
end Verif
