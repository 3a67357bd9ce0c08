import Verif.Numpy
import Mathlib.Algebra.Module.Defs
import Mathlib.Algebra.Order.Field.Basic
import Mathlib.Data.List.Basic

/-
The interpolation functions of `/repo/sumpf/_internal/_interpolation.py`.

The x values are elements of an ordered field, the y values are elements of a vector space over this field (real or
complex numbers in the implementation). The calculation is exact, so there are neither infinities nor NaNs: the checks
`numpy.isinf(m)` (`_interpolation.py:141,147`) are always false, because the supporting points are distinct.
-/

namespace Verif
namespace Interpolation

variable {α β : Type}

/-- `l[i]` for an integer index `i` -/
def item (l : List β) (i : Int) : Py β :=
  if 0 ≤ (if i < 0 then i + l.length else i) then
    match l[(if i < 0 then i + l.length else i).toNat]? with
    | some x => .ok x
    | none => .error .indexError
  else .error .indexError

/-- `ys[xs == x][0]`: a boolean mask must have the same length as the array -/
def lookup [DecidableEq α] (x : α) (xs : List α) (ys : List β) : Py β :=
  if xs.length ≠ ys.length then .error .indexError
  else match ((xs.zip ys).filter fun p => p.1 = x).head? with
    | some p => .ok p.2
    | none => .error .indexError

/-- the decorator `interpolation` for a scalar `x` (`_interpolation.py:69-73`) -/
def decorateScalar [DecidableEq α] (func : α → List α → List β → Py β) (x : α) (xs : List α) (ys : List β) : Py β :=
  if x ∈ xs then lookup x xs ys else func x xs ys

/-- the decorator `interpolation` for an array `x` (`_interpolation.py:74-81`). The loop, that overwrites the elements
of `result`, is a pass through the pairs of elements of `x` and `result`, which have the same length. -/
def decorateArray [DecidableEq α] (func : List α → List α → List β → Py (List β)) (x xs : List α) (ys : List β) :
    Py (List β) :=
  if x.length = 0 then .ok []
  else do
    let result ← func x xs ys
    (x.zip result).mapM fun p => if p.1 ∈ xs then lookup p.1 xs ys else .ok p.2

/-- `zero` for a scalar (`_interpolation.py:86-104`) -/
def zeroScalar [Zero β] (_ : α) (_ : List α) (_ : List β) : Py β := .ok 0

/-- `zero` for an array (`_interpolation.py:86-104`) -/
def zeroArray [Zero β] (x : List α) (_ : List α) (_ : List β) : Py (List β) := .ok (x.map fun _ => 0)

/-- `one` for a scalar (`_interpolation.py:107-125`) -/
def oneScalar [One β] (_ : α) (_ : List α) (_ : List β) : Py β := .ok 1

/-- `one` for an array (`_interpolation.py:107-125`) -/
def oneArray [One β] (x : List α) (_ : List α) (_ : List β) : Py (List β) := .ok (x.map fun _ => 1)

section Linear

variable [Field α] [LinearOrder α] [AddCommGroup β] [Module α β]

/-- `numpy.interp` for one value and increasing `xp` (documentation of numpy): the first and last value of `fp` outside
of the range of `xp`, otherwise the linear interpolation between the neighbouring points. -/
def interp (x : α) (xp : List α) (fp : List β) : Py β :=
  if xp.length = 0 then .error .valueError
  else if xp.length ≠ fp.length then .error .valueError
  else if (xp.takeWhile (· ≤ x)).length = 0 then item fp 0
  else if (xp.takeWhile (· ≤ x)).length = xp.length then item fp (-1)
  else do
    let x0 ← item xp ((xp.takeWhile (· ≤ x)).length - 1)
    let x1 ← item xp (xp.takeWhile (· ≤ x)).length
    let y0 ← item fp ((xp.takeWhile (· ≤ x)).length - 1)
    let y1 ← item fp (xp.takeWhile (· ≤ x)).length
    return (x - x0) • ((x1 - x0)⁻¹ • (y1 - y0)) + y0

/-- the straight line through two points (`_interpolation.py:140,143-144` and the other copies of these lines), where
the axis intercept is computed with the first of the points -/
def line (x x0 x1 : α) (y0 y1 : β) : β :=
  x • ((x1 - x0)⁻¹ • (y1 - y0)) + (y0 - x0 • ((x1 - x0)⁻¹ • (y1 - y0)))

/-- the extrapolation below the first supporting point (`_interpolation.py:140-144`) -/
def below (x : α) (xs : List α) (ys : List β) : Py β := do
  let y1 ← item ys 1
  let y0 ← item ys 0
  let x1 ← item xs 1
  let x0 ← item xs 0
  return line x x0 x1 y0 y1

/-- the extrapolation above the last supporting point (`_interpolation.py:146-150`): `n = ys[-1] - m * xs[-1]` -/
def above (x : α) (xs : List α) (ys : List β) : Py β := do
  let y1 ← item ys (-1)
  let y0 ← item ys (-2)
  let x1 ← item xs (-1)
  let x0 ← item xs (-2)
  return x • ((x1 - x0)⁻¹ • (y1 - y0)) + (y1 - x1 • ((x1 - x0)⁻¹ • (y1 - y0)))

/-- `_linear` for a scalar (`_interpolation.py:127-152`) -/
def linearScalar (x : α) (xs : List α) (ys : List β) : Py β :=
  if xs.length = 1 then item ys 0
  else do
    let first ← item xs 0
    if x < first then below x xs ys
    else do
      let last ← item xs (-1)
      if last < x then above x xs ys
      else interp x xs ys

/-- the assignment of the extrapolated values with a mask (`_interpolation.py:155-159`). The comparison of the minimum
of `x` is true, if it is true for any element. `m` and `n` are recomputed for every element here, while the
implementation computes them once. -/
def maskBelow (x xs : List α) (ys : List β) (first : α) (result : List β) : Py (List β) :=
  if x.any (· < first) then (x.zip result).mapM fun p => if p.1 < first then below p.1 xs ys else .ok p.2
  else .ok result

/-- the same at the other end (`_interpolation.py:160-164`) -/
def maskAbove (x xs : List α) (ys : List β) (last : α) (result : List β) : Py (List β) :=
  if x.any (last < ·) then (x.zip result).mapM fun p => if last < p.1 then above p.1 xs ys else .ok p.2
  else .ok result

/-- `_linear` for an array (`_interpolation.py:132-136,153-165`) -/
def linearArray (x xs : List α) (ys : List β) : Py (List β) :=
  if xs.length = 1 then do
    let y ← item ys 0
    return x.map fun _ => y
  else do
    let result ← x.mapM fun t => interp t xs ys
    let first ← item xs 0
    let result ← maskBelow x xs ys first result
    let last ← item xs (-1)
    maskAbove x xs ys last result

end Linear

section Stairs

variable [Field α] [LinearOrder α]

/-- `i[i >= len(ys)] -= 1` for one element of `numpy.searchsorted(xs, x)`, which is the number of elements of the
increasing array `xs`, that are smaller than `x` (`_interpolation.py:250-251`) -/
def stairsIndex (x : α) (xs : List α) (ys : List β) : Nat :=
  if ys.length ≤ (xs.takeWhile (· < x)).length then (xs.takeWhile (· < x)).length - 1
  else (xs.takeWhile (· < x)).length

/-- `_stairs_lin` for one element of the array `x` (`_interpolation.py:243-256`) -/
def stairs (x : α) (xs : List α) (ys : List β) : Py β := do
  let left ← item xs (stairsIndex x xs ys - 1 : Nat)
  let right ← item xs (stairsIndex x xs ys)
  if |x - left| < |x - right| then item ys ((stairsIndex x xs ys : Int) - 1)
  else item ys (stairsIndex x xs ys)

/-- `xs.min()` of a non-empty array; numpy raises a ValueError for an empty array -/
def minimum (xs : List α) : Py α :=
  match xs with
  | [] => .error .valueError
  | x :: l => .ok (l.foldl min x)

/-- `xs.max()` -/
def maximum (xs : List α) : Py α :=
  match xs with
  | [] => .error .valueError
  | x :: l => .ok (l.foldl max x)

/-- `stairs_log` for a scalar (`_interpolation.py:299-308`). `log2` is the logarithm. -/
def stairsLogScalar (log2 : α → α) (x : α) (xs : List α) (ys : List β) : Py β := do
  let lo ← minimum xs
  if x < lo then lookup lo xs ys
  else do
    let hi ← maximum xs
    if hi < x then lookup hi xs ys
    else stairs (log2 x) (xs.map log2) ys

/-- `stairs_log` for an array (`_interpolation.py:299,309-316`) -/
def stairsLogArray (log2 : α → α) (x xs : List α) (ys : List β) : Py (List β) := do
  let lo ← minimum xs
  let result ← x.mapM fun t => stairs (log2 t) (xs.map log2) ys
  let y ← lookup lo xs ys
  let result := (x.zip result).map fun p => if p.1 < lo then y else p.2
  let hi ← maximum xs
  let y ← lookup hi xs ys
  return (x.zip result).map fun p => if hi < p.1 then y else p.2

end Stairs

/-- `sumpf_internal.Interpolations` (`/repo/sumpf/_internal/_enums.py`) -/
inductive Mode where
  | zero | one | linear | logarithmic | logX | logY | stairsLin | stairsLog
  deriving DecidableEq, Repr

/-- the logarithm with the base two and its inverse function for the x values and the y values -/
structure Logs (α β : Type) where
  x : α → α
  y : β → β
  exp : β → β

section Get

variable [Field α] [LinearOrder α] [AddCommGroup β] [One β] [Module α β]

/-- the undecorated function for a scalar, that is selected by `get` (`_interpolation.py:26-57`): `zero`, `one`,
`linear`, `logarithmic` (185-201), `log_x` (204-225), `log_y` (228-240), `stairs_lin` (259-277), `stairs_log`
(280-316) -/
def funcScalar (log : Logs α β) (mode : Mode) (x : α) (xs : List α) (ys : List β) : Py β :=
  match mode with
  | .zero => zeroScalar x xs ys
  | .one => oneScalar x xs ys
  | .linear => linearScalar x xs ys
  | .logarithmic => do
    let r ← linearScalar (log.x x) (xs.map log.x) (ys.map log.y)
    return log.exp r
  | .logX => linearScalar (log.x x) (xs.map log.x) ys
  | .logY => do
    let r ← linearScalar x xs (ys.map log.y)
    return log.exp r
  | .stairsLin => stairs x xs ys
  | .stairsLog => stairsLogScalar log.x x xs ys

/-- the undecorated function for an array, that is selected by `get` (`_interpolation.py:26-57`) -/
def funcArray (log : Logs α β) (mode : Mode) (x : List α) (xs : List α) (ys : List β) : Py (List β) :=
  match mode with
  | .zero => zeroArray x xs ys
  | .one => oneArray x xs ys
  | .linear => linearArray x xs ys
  | .logarithmic => do
    let r ← linearArray (x.map log.x) (xs.map log.x) (ys.map log.y)
    return r.map log.exp
  | .logX => linearArray (x.map log.x) (xs.map log.x) ys
  | .logY => do
    let r ← linearArray x xs (ys.map log.y)
    return r.map log.exp
  | .stairsLin => x.mapM fun t => stairs t xs ys
  | .stairsLog => stairsLogArray log.x x xs ys

/-- `get(flag)(x, xs, ys)` for a scalar -/
def scalar (log : Logs α β) (mode : Mode) : α → List α → List β → Py β := decorateScalar (funcScalar log mode)

/-- `get(flag)(x, xs, ys)` for an array -/
def array (log : Logs α β) (mode : Mode) : List α → List α → List β → Py (List β) := decorateArray (funcArray log mode)

end Get
end Interpolation
end Verif
