import Verif.EnergyDecay
import Verif.PyRange
import Mathlib.Analysis.SpecialFunctions.Log.Base

/-
`EnergyDecayCurve.reverberation_time` and `EnergyDecayCurve.decay_model`
(`/repo/sumpf/_data/_signals/_energy_decay.py`) with real numbers.
-/

namespace Verif
namespace EnergyDecay

/-- `numpy.linalg.lstsq(x, y, rcond=None)[0]` for a matrix `x` with two columns -/
abbrev Lstsq := List (ℝ × ℝ) → List ℝ → ℝ × ℝ

/-- The values of one channel `10.0 * numpy.log10(c[start_index:stop_index])` (`_energy_decay.py:128`) -/
noncomputable def decibels (A : Mat ℝ) (c : Nat) (start stop : Int) : List ℝ :=
  (List.range (A.slice .all (.range start stop)).cols).map fun k =>
    10 * Real.logb 10 ((A.slice .all (.range start stop)).get c k)

/-- one iteration of the loop of `__solve` (`_energy_decay.py:124-129`). `lstsq` raises a `LinAlgError`, which is a
`ValueError`, if the numbers of rows differ. -/
noncomputable def solveChannel (lstsq : Lstsq) (A : Mat ℝ) (start stop : Int) (c : Nat) : Py (ℝ × ℝ) :=
  if ((pyRange start stop 1).map fun i : Int => ((i : ℝ), (1 : ℝ))).length = (decibels A c start stop).length then
    .ok (lstsq ((pyRange start stop 1).map fun i : Int => ((i : ℝ), (1 : ℝ))) (decibels A c start stop))
  else .error .valueError

/-- `EnergyDecayCurve.__solve` (`_energy_decay.py:103-129`); `none` if an index can not be computed -/
noncomputable def solve (lstsq : Lstsq) (s : Signal ℝ ℝ) (start stop : Indexing.Idx) : Option (Py (List (ℝ × ℝ))) := do
  let start ← Indexing.index s.length start
  let stop ← Indexing.index s.length stop
  return (List.range s.count).mapM (solveChannel lstsq s.channels start stop)

/-- `EnergyDecayCurve.reverberation_time` (`_energy_decay.py:60-77`). -/
noncomputable def reverberationTime (lstsq : Lstsq) (s : Signal ℝ ℝ) (start stop : Indexing.Idx) :
    Option (Py (List ℝ)) := do
  let solution ← solve lstsq s start stop
  return do
    let mn ← solution
    return mn.map fun p => -60 / p.1 / s.rate

/-- the body of the loop of `decay_model` (`_energy_decay.py:97-98`) -/
noncomputable def modelChannel (length : Nat) (channels : Mat ℝ) (c : Nat × (ℝ × ℝ)) : Py (Mat ℝ) :=
  channels.assign (.range c.1 (c.1 + 1 : Nat)) .all
    ⟨1, length, fun _ i => (10 : ℝ) ^ ((c.2.1 / 10) * i + c.2.2 / 10)⟩

/-- `EnergyDecayCurve.decay_model` (`_energy_decay.py:79-102`). -/
noncomputable def decayModel (mem : Nat → Nat → ℝ) (lstsq : Lstsq) (s : Signal ℝ ℝ) (start stop : Indexing.Idx) :
    Option (Py (Signal ℝ ℝ)) := do
  let solution ← solve lstsq s start stop
  return do
    let mn ← solution
    let channels ← pyFor (modelChannel s.length) ((List.range s.count).zip mn) (alloc mem s.count s.length)
    return Signal.new channels s.rate s.offset (some s.labels)

end EnergyDecay
end Verif
