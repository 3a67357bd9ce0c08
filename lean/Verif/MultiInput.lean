import Verif.Merge
import Verif.Concatenate

/-
The bookkeeping of the inputs of `sumpf.Merge` and `sumpf.Concatenate`
(`/repo/sumpf/_blocks/_merge.py`, `/repo/sumpf/_blocks/_concatenate.py`).

Both classes store their data sets in a `connectors.MultiInputData`. The package `connectors` is not a part of the
repository. What is assumed about it is its documented behaviour: it is an ordered dictionary with an additional
method `add`, which stores a data set under a new key and returns this key. How the key is chosen is not modelled;
it is an arbitrary function `fresh` of the stored content.
-/

namespace Verif
namespace MultiInput

variable {Id D : Type} [DecidableEq Id]

/-- The content of a `MultiInputData` in the order of the dictionary. -/
abbrev Store (Id D : Type) := List (Id × D)

/-- the keys of the dictionary -/
def keys (d : Store Id D) : List Id := d.map Prod.fst

/-- `d.values()`: the data sets in the order, in which the output methods iterate over them
(`_merge.py:62-66`, `_concatenate.py:61-66`) -/
def values (d : Store Id D) : List D := d.map Prod.snd

/-- `del d[i]` (`_merge.py:157`, `_concatenate.py:167`) -/
def delItem (d : Store Id D) (i : Id) : Py (Store Id D) :=
  if i ∈ keys d then .ok (d.filter fun e => decide (e.1 ≠ i)) else .error .keyError

/-- `d[i] = x` (`_merge.py:169`, `_concatenate.py:178`): an existing item keeps its position, a new one is appended -/
def setItem (d : Store Id D) (i : Id) (x : D) : Store Id D :=
  if i ∈ keys d then d.map fun e => if e.1 = i then (i, x) else e else d ++ [(i, x)]

/-- The methods, with which the inputs are modified. -/
inductive Call (Id D : Type) where
  | add (x : D)
  | remove (i : Id)
  | replace (i : Id) (x : D)

/-- What a call has done, for the statement of the properties. -/
inductive Event (Id D : Type) where
  | added (i : Id) (x : D)
  | removed (i : Id)
  | replaced (i : Id) (x : D)
  deriving DecidableEq

/-- One call of `add`, `remove` or `replace` (`_merge.py:134-170`, `_concatenate.py:148-179`). Besides the new
content, it is recorded what has happened. Replacing a data set under an unknown key adds it under this key. -/
def step (fresh : Store Id D → Id) (d : Store Id D) : Call Id D → Py (Store Id D × Event Id D)
  | .add x => .ok (d ++ [(fresh d, x)], .added (fresh d) x)
  | .remove i => do
    let d ← delItem d i
    return (d, .removed i)
  | .replace i x => .ok (setItem d i x, if i ∈ keys d then .replaced i x else .added i x)

/-- A sequence of calls. -/
def run (fresh : Store Id D → Id) : Store Id D → List (Call Id D) → Py (Store Id D × List (Event Id D))
  | d, [] => .ok (d, [])
  | d, c :: calls => do
    let (d, e) ← step fresh d c
    let (d, es) ← run fresh d calls
    return (d, e :: es)

/-- `Merge(data, mode)` (`_merge.py:47-57`) and `Concatenate(data)` (`_concatenate.py:41-47`): the data sets are
added one after the other -/
def init (fresh : Store Id D → Id) (data : List D) : Store Id D :=
  data.foldl (fun d x => d ++ [(fresh d, x)]) []

/-- `Merge.output` for signals (`_merge.py:59-134`) -/
def mergeOutput {α R : Type} [Zero α] (mem : Nat → Nat → α) (mode : MergeMode) (d : Store Id (Signal α R)) :
    Py (Signal α R) := Merge.signals mem mode (values d)

/-- `Concatenate.output` for signals (`_concatenate.py:49-145`) -/
def concatenateOutput {α R : Type} [Zero α] [Add α] (mem : Nat → Nat → α) (d : Store Id (Signal α R)) :
    Py (Signal α R) := Concatenate.signals mem (values d)

end MultiInput
end Verif
