import Verif.Signal

/-
Model of the overloaded binary operators of `sumpf/_data/_signals/_signal.py`.
-/

namespace Verif
namespace Signal

variable {α R : Type}

/-- `for c in range(1, len(channels)): channels[c, cs] = row` (`_signal.py:930-932, 935-937, 941-943`),
where `row` is a one-dimensional array that has been evaluated before (`self._channels[0]`). -/
def copyRows (cs : PySlice) (row : Mat α) (channels : Mat α) : Py (Mat α) :=
  (List.range' 1 (channels.rows - 1)).foldlM
    (fun channels (c : Nat) => channels.assign (.range c (c + 1)) cs row) channels

/-- `for c in range(1, len(channels)): channels[c, cs] = channels[0, cs]` (`_signal.py:941-943`), where the
right hand side is evaluated anew in every iteration. -/
def copyFirstRow (cs : PySlice) (channels : Mat α) : Py (Mat α) :=
  (List.range' 1 (channels.rows - 1)).foldlM
    (fun channels (c : Nat) => channels.assign (.range c (c + 1)) cs (channels.slice (.range 0 1) cs)) channels

/-- `(label,) * n` -/
def labelTuple (label : String) (n : Nat) : Option (List String) := some (List.replicate n label)

/-- `__algebra_function_signals_overlap` (`_signal.py:895-901`) -/
def algebraOverlap (mem : Nat → Nat → α) (f : α → α → α) (label : String) (s o : Signal α R) :
    Py (Signal α R) := do
  let channels ← Mat.ufunc2 f s.channels o.channels (alloc mem s.count s.length) .all .all
  return new channels s.rate s.offset (labelTuple label s.count)

/-- `__algebra_function_self_has_one_channel` (`_signal.py:903-909`) -/
def algebraSelfOne (mem : Nat → Nat → α) (f : α → α → α) (label : String) (s o : Signal α R) :
    Py (Signal α R) := do
  let channels ← Mat.ufunc2 f (s.channels.row 0) o.channels (alloc mem o.count o.length) .all .all
  return new channels s.rate s.offset (labelTuple label o.count)

/-- `__algebra_function_other_has_one_channel` (`_signal.py:911-917`) -/
def algebraOtherOne (mem : Nat → Nat → α) (f : α → α → α) (label : String) (s o : Signal α R) :
    Py (Signal α R) := do
  let channels ← Mat.ufunc2 f s.channels (o.channels.row 0) (alloc mem s.count s.length) .all .all
  return new channels s.rate s.offset (labelTuple label s.count)

/-- Allocation of the result and copying of the first signal (`_signal.py:920-932`). -/
def copySelf [Zero α] (mem : Nat → Nat → α) (s o : Signal α R) : Py (Mat α) := do
  let start := min s.offset o.offset
  let stop := max (s.offset + s.length) (o.offset + o.length)
  let channels := alloc mem (max s.count o.count) (stop - start).toNat
  let channels ← channels.assign .all .all (.scalar 0)
  let cs : PySlice := .range (s.offset - start) (s.offset + s.length - start)
  let channels ← channels.assign (.range 0 s.count) cs s.channels
  if s.count = 1 then copyRows cs (s.channels.row 0) channels else pure channels

/-- Copying of the second signal (`_signal.py:933-943`). -/
def copyOther (f : α → α → α) (pivot : Option α) (s o : Signal α R) (channels : Mat α) : Py (Mat α) := do
  let start := min s.offset o.offset
  let cs : PySlice := .range (o.offset - start) (o.offset + o.length - start)
  match pivot with
  | none =>
    let channels ← channels.assign (.range 0 o.count) cs o.channels
    if o.count = 1 then copyRows cs (o.channels.row 0) channels else pure channels
  | some p =>
    let channels ← Mat.ufunc2 f (.scalar p) o.channels channels (.range 0 o.count) cs
    if o.count = 1 then copyFirstRow cs channels else pure channels

/-- The computation for the overlapping part (`_signal.py:944-962`). -/
def computeOverlap (f : α → α → α) (s o : Signal α R) (channels : Mat α) : Py (Mat α) :=
  let start := min s.offset o.offset
  let overlapStart := max s.offset o.offset
  let overlapStop := min (s.offset + s.length) (o.offset + o.length)
  let ss : PySlice := .range (overlapStart - s.offset) (overlapStop - s.offset)
  let os : PySlice := .range (overlapStart - o.offset) (overlapStop - o.offset)
  let cs : PySlice := .range (overlapStart - start) (overlapStop - start)
  if overlapStart < overlapStop then
    if s.count = 1 then
      Mat.ufunc2 f ((s.channels.row 0).slice .all ss) (o.channels.slice .all os) channels .all cs
    else if o.count = 1 then
      Mat.ufunc2 f (s.channels.slice .all ss) ((o.channels.row 0).slice .all os) channels .all cs
    else
      let n := min s.count o.count
      Mat.ufunc2 f (s.channels.slice (.range 0 n) ss) (o.channels.slice (.range 0 n) os) channels (.range 0 n) cs
  else .ok channels

/-- `__algebra_function_different_shapes` (`_signal.py:919-967`) -/
def algebraDifferentShapes [Zero α] (mem : Nat → Nat → α) (f : α → α → α) (pivot : Option α) (label : String)
    (s o : Signal α R) : Py (Signal α R) := do
  let channels ← copySelf mem s o
  let channels ← copyOther f pivot s o channels
  let channels ← computeOverlap f s o channels
  return new channels s.rate (min s.offset o.offset) (labelTuple label (max s.count o.count))

/-- `_algebra_function` for two signals (`_signal.py:843-871`) -/
def algebra [Zero α] (mem : Nat → Nat → α) (f : α → α → α) (pivot : Option α) (label : String)
    (s o : Signal α R) : Py (Signal α R) :=
  if s.count = o.count ∧ s.length = o.length ∧ s.offset = o.offset then algebraOverlap mem f label s o
  else if s.count = 1 ∧ s.length = o.length ∧ s.offset = o.offset then algebraSelfOne mem f label s o
  else if o.count = 1 ∧ s.length = o.length ∧ s.offset = o.offset then algebraOtherOne mem f label s o
  else algebraDifferentShapes mem f pivot label s o

/-- `__algebra_function_different_type` (`_signal.py:969-979`): the other operand is a number or an
array; a one-dimensional array is a matrix with one row here.  (`TypeError`s of numpy for objects which are
neither of both are not modelled.) -/
def algebraArray (mem : Nat → Nat → α) (f : α → α → α) (s : Signal α R) (other : Mat α) : Py (Signal α R) := do
  let channels ← Mat.ufunc2 f s.channels other (alloc mem s.count s.length) .all .all
  return new channels s.rate s.offset (some s.labels)

/-- `_algebra_function_right` (`_signal.py:878-893`) -/
def algebraArrayRight (mem : Nat → Nat → α) (f : α → α → α) (s : Signal α R) (other : Mat α) :
    Py (Signal α R) := do
  let channels ← Mat.ufunc2 f other s.channels (alloc mem s.count s.length) .all .all
  return new channels s.rate s.offset (some s.labels)

/-- `signal + other` (`_sampled_data.py:99-101`) -/
def add [Zero α] [Add α] (mem : Nat → Nat → α) (s o : Signal α R) : Py (Signal α R) :=
  algebra mem (· + ·) none "Sum" s o

/-- `signal - other` (`_sampled_data.py:107-109`) -/
def sub [Zero α] [Sub α] (mem : Nat → Nat → α) (s o : Signal α R) : Py (Signal α R) :=
  algebra mem (· - ·) (some 0) "Difference" s o

/-- `signal * other` (`_sampled_data.py:115-117`) -/
def mul [Zero α] [Mul α] (mem : Nat → Nat → α) (s o : Signal α R) : Py (Signal α R) :=
  algebra mem (· * ·) none "Product" s o

/-- `signal / other` (`_sampled_data.py:123-125`) -/
def div [Zero α] [One α] [Div α] (mem : Nat → Nat → α) (s o : Signal α R) : Py (Signal α R) :=
  algebra mem (· / ·) (some 1) "Quotient" s o

/-- `-signal` (`_signal.py:194-203`) -/
def neg [Neg α] (s : Signal α R) : Signal α R := mapSamples (fun x => -x) s

end Signal
end Verif
