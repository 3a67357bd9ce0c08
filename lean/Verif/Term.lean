import Verif.Interpolation
import Mathlib.Algebra.Field.Basic
import Mathlib.Algebra.BigOperators.Group.List.Basic

/-
The terms, from which the transfer functions of filters are built:
`/repo/sumpf/_data/_filters/_base/_terms/{_base,_primitive,_unary,_binary}.py` and
`/repo/sumpf/_data/_filters/_base/_s.py`.

The numbers are elements of a field `K` (the complex numbers in the implementation), the frequencies are elements of an
ordered field `α` (the real numbers). The exponential function, the magnitude and the logarithms are given by an
environment `Env`, because they are no field operations.

A term is evaluated at one frequency. The result is an `Option`: `none` stands for the infinities and NaNs, which numpy
computes for a division by zero, and for exceptions during the evaluation. The arrays of the implementation are
evaluated element by element. What happens at 0 Hz is the subject of `Filter.lean`.

The recursion of the methods is limited, as it is in python: every function, that calls methods of other terms, has the
remaining recursion depth as a parameter and raises a RecursionError, which is a RuntimeError, when the depth is
exceeded. Where that depth ends is arbitrary.
-/

namespace Verif
namespace Filter

open Interpolation (Mode Logs)

/-- the terms. The flag `tr` is the attribute `transform`, that says, that `s` is replaced by `1 / s`. The constants and
the bands are not transformed (`_primitive.py:45-52,414-431`). -/
inductive Term (α K : Type) where
  /-- `Constant` (`_primitive.py:29-165`) -/
  | constant (value : K)
  /-- `Polynomial` (`_primitive.py:168-309`), the coefficient of the highest power is the first -/
  | polynomial (coefficients : List K) (tr : Bool)
  /-- `Exp` (`_primitive.py:312-385`) -/
  | exp (coefficient : K) (tr : Bool)
  /-- `Bands` (`_primitive.py:388-622`) -/
  | bands (xs : List α) (ys : List K) (interpolation extrapolation : Mode)
  /-- `Absolute` (`_unary.py:25-106`) -/
  | absolute (value : Term α K) (tr : Bool)
  /-- `Negative` (`_unary.py:109-192`) -/
  | negative (value : Term α K) (tr : Bool)
  /-- `Sum` (`_binary.py:28-138`) -/
  | sum (summands : List (Term α K)) (tr : Bool)
  /-- `Difference` (`_binary.py:141-263`) -/
  | difference (minuend subtrahend : Term α K) (tr : Bool)
  /-- `Product` (`_binary.py:266-383`) -/
  | product (factors : List (Term α K)) (tr : Bool)
  /-- `Quotient` (`_binary.py:386-484`) -/
  | quotient (numerator denominator : Term α K) (tr : Bool)

/-- the functions, that are used to evaluate terms -/
structure Env (α K : Type) where
  /-- `2.0j * math.pi * frequency` (`_s.py:46`) -/
  s : α → K
  /-- `numpy.exp` -/
  exp : K → K
  /-- `numpy.absolute` -/
  abs : K → K
  /-- `numpy.log2` and `numpy.exp2` -/
  log : Logs α K

variable {α K : Type} [Field α] [LinearOrder α] [Field K] [DecidableEq K] [Module α K]

/-- the attribute `transform` of a term -/
def Term.transform : Term α K → Bool
  | .constant _ => false
  | .polynomial _ tr => tr
  | .exp _ tr => tr
  | .bands _ _ _ _ => false
  | .absolute _ tr => tr
  | .negative _ tr => tr
  | .sum _ tr => tr
  | .difference _ _ tr => tr
  | .product _ tr => tr
  | .quotient _ _ tr => tr

section Evaluation

/-- `s()` for one frequency, where `t` says, if `s` is a `TransformedS` instance (`_s.py:40-47,95-109`). A division by
zero is avoided by the implementation, but the value is not defined then. -/
def sValue (E : Env α K) (f : α) (t : Bool) : Option K :=
  if t then if E.s f = 0 then none else some (E.s f)⁻¹ else some (E.s f)

/-- `numpy.polyval` (documentation of numpy): Horner's scheme -/
def polyval (coefficients : List K) (x : K) : K := coefficients.foldl (fun y c => y * x + c) 0

/-- the result of an interpolation function as a value, where exceptions are no values -/
def value {β : Type} : Py β → Option β
  | .ok y => some y
  | .error _ => none

/-- `Bands._compute` (`_primitive.py:433-460`) for one element of an array of frequencies. The interpolation function is
evaluated for a scalar, which is the same as its evaluation for an array (`C29_array`). -/
def bandsAt (E : Env α K) (f : α) (xs : List α) (ys : List K) (interpolation extrapolation : Mode) : Option K :=
  match xs with
  | [] => some 0
  | x :: l =>
    if f < x ∨ (x :: l).getLast (List.cons_ne_nil x l) < f then
      value (Interpolation.scalar E.log extrapolation f (x :: l) ys)
    else value (Interpolation.scalar E.log interpolation f (x :: l) ys)

/-- the loop of `Sum._compute` (`_binary.py:71-85`) -/
def sumValues : List (Option K) → Option K
  | [] => some 0
  | v :: l => l.foldl (fun r v => r.bind fun x => v.map fun y => x + y) v

/-- the loop of `Product._compute` (`_binary.py:308-322`); the empty product is zero -/
def productValues : List (Option K) → Option K
  | [] => some 0
  | v :: l => l.foldl (fun r v => r.bind fun x => v.map fun y => x * y) v

/-- `numpy.divide` for one element -/
def divide (x y : K) : Option K := if y = 0 then none else some (x / y)

mutual

/-- `Term.__call__` (`_base.py:49-60`) with the `_compute` methods of the terms for one frequency `f`. `t` says, if the
parameter `s` is a `TransformedS` instance; transforming a transformed instance leads to the original `s`
(`_s.py:70-78,131-136`). The method `fix` does nothing at frequencies other than 0 Hz. -/
def eval (E : Env α K) (f : α) (t : Bool) : Term α K → Option K
  | .constant v => some v
  | .polynomial cs tr => (sValue E f (t ^^ tr)).map (polyval cs)
  | .exp c tr => (sValue E f (t ^^ tr)).map fun s => E.exp (c * s)
  | .bands xs ys i e => bandsAt E f xs ys i e
  | .absolute v tr => (eval E f (t ^^ tr) v).map E.abs
  | .negative v tr => (eval E f (t ^^ tr) v).map fun x => -x
  | .sum l tr => sumValues (evalList E f (t ^^ tr) l)
  | .difference m s tr => (eval E f (t ^^ tr) m).bind fun x => (eval E f (t ^^ tr) s).map fun y => x - y
  | .product l tr => productValues (evalList E f (t ^^ tr) l)
  | .quotient n d tr => (eval E f (t ^^ tr) n).bind fun x => (eval E f (t ^^ tr) d).bind fun y => divide x y

/-- the values of a sequence of terms -/
def evalList (E : Env α K) (f : α) (t : Bool) : List (Term α K) → List (Option K)
  | [] => []
  | a :: l => eval E f t a :: evalList E f t l

end

end Evaluation

section Checks

/-- `all(p(x) for x in l)` with a function, that may raise exceptions -/
def allM {β : Type} (p : β → Py Bool) : List β → Py Bool
  | [] => .ok true
  | a :: l => p a >>= fun b => if b then allM p l else .ok false

/-- `any(p(x) for x in l)` with a function, that may raise exceptions -/
def anyM {β : Type} (p : β → Py Bool) : List β → Py Bool
  | [] => .ok false
  | a :: l => p a >>= fun b => if b then .ok true else anyM p l

/-- `numpy.not_equal(a, b).any()` for one-dimensional arrays, where an array with one element is broadcast -/
def notEqualAny {β : Type} [DecidableEq β] (a b : List β) : Py Bool :=
  if a.length = b.length then .ok (a ≠ b)
  else match a, b with
    | [x], b => .ok (b.any fun y => x ≠ y)
    | a, [y] => .ok (a.any fun x => x ≠ y)
    | _, _ => .error .valueError

/-- the last lines of `Constant.__eq__` (`_primitive.py:93-97`) -/
def constantEq (v : K) : Term α K → Py Bool
  | .constant w => .ok (v = w)
  | _ => .ok false

/-- the last lines of `Bands.__eq__` (`_primitive.py:513-518`); a `or` is only evaluated as far as necessary -/
def bandsEq (xs : List α) (ys : List K) (i e : Mode) (xs' : List α) (ys' : List K) (i' e' : Mode) : Py Bool :=
  if i ≠ i' ∨ e ≠ e' then .ok false
  else notEqualAny xs xs' >>= fun b =>
    if b then .ok false
    else notEqualAny ys ys' >>= fun b => .ok (!b)

mutual

/-- the methods `is_zero` (`_base.py:72-80`, `_primitive.py:71-79,220-231,471-479`, `_unary.py:66-74,150-158`,
`_binary.py:87-98,196-208,324-338,436-444`) -/
def isZero : Nat → Term α K → Py Bool
  | 0, _ => .error .runtimeError
  | n + 1, t => match t with
    | .constant v => .ok (v = 0)
    | .polynomial cs _ => .ok (cs.all (· = 0))
    | .exp _ _ => .ok false
    | .bands xs ys _ _ => .ok (xs.length = 0 ∨ ys.all (· = 0))
    | .absolute v _ => isZero n v
    | .negative v _ => isZero n v
    | .sum l _ => allM (isZero n) l
    | .difference m s _ =>
      termEq n m s >>= fun b => if b then .ok true else
        isZero n m >>= fun b => if b then isZero n s else .ok false
    | .product l _ => if l.length = 0 then .ok true else anyM (isZero n) l
    | .quotient m _ _ => isZero n m

/-- the methods `__eq__` (`_base.py:111-113`, `_primitive.py:89-97,249-257,365-371,509-518`, `_unary.py:86-92,170-176`,
`_binary.py:110-119,223-231,350-359,459-467`). The operator `!=` is the negation of it. -/
def termEq : Nat → Term α K → Term α K → Py Bool
  | 0, _, _ => .error .runtimeError
  | n + 1, a, b => match a with
    | .constant v =>
      if v = 0 then isZero n b >>= fun z => if z then .ok true else constantEq v b
      else constantEq v b
    | .polynomial cs tr => match b with
      | .polynomial cs' tr' => .ok (cs.length = cs'.length ∧ cs = cs' ∧ tr = tr')
      | _ => .ok false
    | .exp c tr => match b with
      | .exp c' tr' => .ok (c = c' ∧ tr = tr')
      | _ => .ok false
    | .bands xs ys i e => match b with
      | .bands xs' ys' i' e' => bandsEq xs ys i e xs' ys' i' e'
      | _ => .ok false
    | .absolute v tr => match b with
      | .absolute v' tr' => termEq n v v' >>= fun b => if b then .ok (tr = tr') else .ok false
      | _ => .ok false
    | .negative v tr => match b with
      | .negative v' tr' => termEq n v v' >>= fun b => if b then .ok (tr = tr') else .ok false
      | _ => .ok false
    | .sum l tr => match b with
      | .sum l' tr' =>
        if l.length ≠ l'.length then .ok false
        else allM (fun p : Term α K × Term α K => termEq n p.1 p.2) (l.zip l') >>= fun b =>
          if b then .ok (tr = tr') else .ok false
      | _ => .ok false
    | .difference m s tr => match b with
      | .difference m' s' tr' => termEq n m m' >>= fun b => if b then
          termEq n s s' >>= fun b => if b then .ok (tr = tr') else .ok false
        else .ok false
      | _ => .ok false
    | .product l tr => match b with
      | .product l' tr' =>
        if l.length ≠ l'.length then .ok false
        else allM (fun p : Term α K × Term α K => termEq n p.1 p.2) (l.zip l') >>= fun b =>
          if b then .ok (tr = tr') else .ok false
      | _ => .ok false
    | .quotient m s tr => match b with
      | .quotient m' s' tr' => termEq n m m' >>= fun b => if b then
          termEq n s s' >>= fun b => if b then .ok (tr = tr') else .ok false
        else .ok false
      | _ => .ok false

end

end Checks

section Operators

/-- `Bands.__init__` (`_primitive.py:414-431`) -/
def mkBands (xs : List α) (ys : List K) (interpolation extrapolation : Mode) : Term α K :=
  .bands xs ys interpolation (if extrapolation = .stairsLog then .stairsLin else extrapolation)

/-- an operation of numpy on two one-dimensional arrays, where an array with one element is broadcast -/
def broadcast (g : K → K → K) (a b : List K) : Py (List K) :=
  if a.length = b.length then .ok (List.zipWith g a b)
  else match a, b with
    | [x], b => .ok (b.map fun y => g x y)
    | a, [y] => .ok (a.map fun x => g x y)
    | _, _ => .error .valueError

/-- `numpy.polyadd` and `numpy.polysub` (documentation of numpy): the shorter array is filled up with leading zeros -/
def polyop (g : K → K → K) (a b : List K) : List K :=
  List.zipWith g (List.replicate (b.length - a.length) 0 ++ a) (List.replicate (a.length - b.length) 0 ++ b)

/-- `coefficients[-1] += value` (`_primitive.py:267,282`) for a non-empty list -/
def changeLast (g : K → K) (cs : List K) : List K := cs.dropLast ++ (cs.getLast?.map g).toList

/-- the operators `+`, `-`, `*` and `/` of two `Bands`, if their supporting points and their interpolations are equal
(`_primitive.py:559-609`) -/
def bandsOp (g : K → K → K) (xs : List α) (ys : List K) (i e : Mode) (ys' : List K) : Py (Term α K) :=
  broadcast g ys ys' >>= fun y => .ok (mkBands xs y i e)

/-- `Polynomial.factory` (`_primitive.py:172-198`) -/
def polynomialFactory (cs : List K) (tr : Bool) : Term α K :=
  match cs.dropWhile (· = 0) with
  | [] => .constant 0
  | [c] => .constant c
  | cs' => .polynomial cs' tr

/-- `Exp.factory` (`_primitive.py:318-336`) -/
def expFactory (c : K) (tr : Bool) : Term α K := if c = 0 then .constant 1 else .exp c tr

/-- `__abs__` of the terms (`_base.py:125-132`, `_primitive.py:107-113,531-540`, `_unary.py:94-100`) -/
def Term.abs (E : Env α K) : Term α K → Term α K
  | .constant v => .constant (E.abs v)
  | .bands xs ys i e => mkBands xs (ys.map E.abs) i e
  | .absolute v tr => .absolute v tr
  | t => .absolute t false

/-- `__invert__` of the terms (`_base.py:115-123`, `_primitive.py:99-105,373-379,520-529`, `_binary.py:469-477`). The
division of python numbers by zero raises an exception. Dividing by an array with zeros, the elements become infinite or
NaN in the implementation. There are no such numbers in `K`, so this is modelled as an exception, too. -/
def Term.invert : Term α K → Py (Term α K)
  | .constant v => if v = 0 then .error .zeroDivisionError else .ok (.constant (1 / v))
  | .exp c tr => .ok (.exp (-c) tr)
  | .bands xs ys i e =>
    if 0 ∈ ys then .error .zeroDivisionError else .ok (mkBands xs (ys.map fun y => 1 / y) i e)
  | .quotient m s tr => .ok (.quotient s m tr)
  | t => .ok (.quotient (.constant 1) t false)

/-- the modes, for which `Bands.__neg__` does not change the signs of the supporting points (`_primitive.py:547-550`) -/
def nonNegative (m : Mode) : Bool := m = .one ∨ m = .logarithmic ∨ m = .logY

/-- `tuple(s for s in summands if not s.is_zero())` (`_binary.py:46`) -/
def dropZeros (n : Nat) : List (Term α K) → Py (List (Term α K))
  | [] => .ok []
  | a :: l => isZero n a >>= fun z => dropZeros n l >>= fun r => .ok (if z then r else a :: r)

/-- `Quotient.factory` (`_binary.py:390-410`) -/
def quotientFactory (n : Nat) (a b : Term α K) (tr : Bool) : Py (Term α K) :=
  isZero n a >>= fun z => if z then .ok (.constant 0) else
    termEq n a b >>= fun q => .ok (if q then .constant 1 else .quotient a b tr)

mutual

/-- `invert_transform` (`_base.py:82-89`, `_primitive.py:64-69,462-469`): calls the factory of the term's class with the
same parameters and the inverted flag -/
def invertTransform (E : Env α K) : Nat → Term α K → Py (Term α K)
  | 0, _ => .error .runtimeError
  | n + 1, t => match t with
    | .constant v => .ok (.constant v)
    | .polynomial cs tr => .ok (polynomialFactory cs !tr)
    | .exp c tr => .ok (expFactory c !tr)
    | .bands xs ys i e => .ok (.bands xs ys i e)
    | .absolute v tr => absoluteFactory E n v !tr
    | .negative v tr => negativeFactory E n v !tr
    | .sum l tr => sumFactory E n l !tr
    | .difference m s tr => differenceFactory E n m s !tr
    | .product l tr => productFactory E n l !tr
    | .quotient a b tr => quotientFactory n a b !tr

/-- `Absolute.factory` (`_unary.py:29-46`) -/
def absoluteFactory (E : Env α K) : Nat → Term α K → Bool → Py (Term α K)
  | 0, _, _ => .error .runtimeError
  | n + 1, v, tr =>
    if tr then invertTransform E n v >>= fun v => .ok (v.abs E)
    else .ok (v.abs E)

/-- `Negative.factory` (`_unary.py:113-130`) -/
def negativeFactory (E : Env α K) : Nat → Term α K → Bool → Py (Term α K)
  | 0, _, _ => .error .runtimeError
  | n + 1, v, tr =>
    if tr then invertTransform E n v >>= fun v => negate E n v
    else negate E n v

/-- `Sum.factory` (`_binary.py:32-60`) -/
def sumFactory (E : Env α K) : Nat → List (Term α K) → Bool → Py (Term α K)
  | 0, _, _ => .error .runtimeError
  | n + 1, l, tr => dropZeros n l >>= fun l => match l with
    | [] => .ok (.constant 0)
    | [a] => if tr then invertTransform E n a else .ok a
    | [a, b] =>
      if tr then invertTransform E n a >>= fun a => invertTransform E n b >>= fun b => add E n a b
      else add E n a b
    | l => .ok (.sum l tr)

/-- `Difference.factory` (`_binary.py:145-172`) -/
def differenceFactory (E : Env α K) : Nat → Term α K → Term α K → Bool → Py (Term α K)
  | 0, _, _, _ => .error .runtimeError
  | n + 1, m, s, tr => isZero n s >>= fun zs =>
    if zs then isZero n m >>= fun zm =>
      if zm then .ok (.constant 0)
      else if tr then invertTransform E n m
      else .ok m
    else isZero n m >>= fun zm =>
      if zm then negate E n s
      else termEq n m s >>= fun q => .ok (if q then .constant 0 else .difference m s tr)

/-- `Product.factory` (`_binary.py:270-297`) -/
def productFactory (E : Env α K) : Nat → List (Term α K) → Bool → Py (Term α K)
  | 0, _, _ => .error .runtimeError
  | n + 1, l, tr => (if l.length = 0 then .ok true else anyM (isZero n) l) >>= fun z =>
    if z then .ok (.constant 0)
    else match l with
      | [a] => if tr then invertTransform E n a else .ok a
      | [a, b] =>
        if tr then invertTransform E n a >>= fun a => invertTransform E n b >>= fun b => mul E n a b
        else mul E n a b
      | l => .ok (.product l tr)

/-- `__neg__` of the terms (`_base.py:134-140`, `_primitive.py:115-120,542-557`, `_unary.py:178-186`,
`_binary.py:233-240`) -/
def negate (E : Env α K) : Nat → Term α K → Py (Term α K)
  | 0, _ => .error .runtimeError
  | n + 1, t => match t with
    | .constant v => .ok (.constant (-v))
    | .bands xs ys i e =>
      if nonNegative i ∨ nonNegative e then .ok (.difference (.constant 0) (.bands xs ys i e) false)
      else .ok (mkBands xs (ys.map fun y => -y) i e)
    | .difference m s tr => .ok (.difference s m tr)
    | .negative v tr => if tr then invertTransform E n v else .ok v
    | t => .ok (.negative t false)

/-- `__add__` of the terms (`_base.py:142-145`, `_primitive.py:122-129,259-272,559-570`, `_binary.py:121-132,242-248`) -/
def add (E : Env α K) : Nat → Term α K → Term α K → Py (Term α K)
  | 0, _, _ => .error .runtimeError
  | n + 1, a, b => match a with
    | .constant v =>
      if v = 0 then .ok b
      else match b with
        | .constant w => .ok (.constant (v + w))
        | b => .ok (.sum [.constant v, b] false)
    | .polynomial cs tr => match b with
      | .polynomial cs' tr' =>
        if tr = tr' then .ok (.polynomial (polyop (· + ·) cs cs') tr)
        else .ok (.sum [.polynomial cs tr, .polynomial cs' tr'] false)
      | .constant w =>
        if cs.length ≠ 0 then .ok (.polynomial (changeLast (· + w) cs) tr)
        else .ok (.constant (-w))
      | b => .ok (.sum [.polynomial cs tr, b] false)
    | .bands xs ys i e => match b with
      | .bands xs' ys' i' e' =>
        if xs = xs' ∧ i = i' ∧ e = e' then bandsOp (· + ·) xs ys i e ys'
        else .ok (.sum [.bands xs ys i e, .bands xs' ys' i' e'] false)
      | b => .ok (.sum [.bands xs ys i e, b] false)
    | .sum l tr =>
      if l.length = 0 then .ok b
      else match b with
        | .sum l' tr' =>
          if tr = tr' then .ok (.sum (l ++ l') tr)
          else (if tr then l.mapM (invertTransform E n) else .ok l) >>= fun l => .ok (.sum (l ++ [.sum l' tr']) false)
        | b => (if tr then l.mapM (invertTransform E n) else .ok l) >>= fun l => .ok (.sum (l ++ [b]) false)
    | .difference m s tr =>
      (if tr then invertTransform E n b else .ok b) >>= fun b =>
        add E n m b >>= fun m => .ok (.difference m s tr)
    | a => .ok (.sum [a, b] false)

/-- `__mul__` of the terms (`_base.py:152-155`, `_primitive.py:140-151,289-295,585-596`, `_binary.py:361-377`) -/
def mul (E : Env α K) : Nat → Term α K → Term α K → Py (Term α K)
  | 0, _, _ => .error .runtimeError
  | n + 1, a, b => match a with
    | .constant v =>
      if v = 0 then .ok (.constant v)
      else if v = 1 then .ok b
      else if v = -1 then negate E n b
      else match b with
        | .constant w => .ok (.constant (v * w))
        | b => .ok (.product [.constant v, b] false)
    | .polynomial cs tr => match b with
      | .constant w => .ok (.polynomial (cs.map (· * w)) tr)
      | b => .ok (.product [.polynomial cs tr, b] false)
    | .bands xs ys i e => match b with
      | .bands xs' ys' i' e' =>
        if xs = xs' ∧ i = i' ∧ e = e' then bandsOp (· * ·) xs ys i e ys'
        else .ok (.product [.bands xs ys i e, .bands xs' ys' i' e'] false)
      | b => .ok (.product [.bands xs ys i e, b] false)
    | .product l tr =>
      if l.length = 0 then .ok (.constant 0)
      else isZero n b >>= fun z => if z then .ok (.constant 0) else
        match b with
        | .product l' tr' =>
          if tr = tr' then .ok (.product (l ++ l') tr)
          else l'.mapM (invertTransform E n) >>= fun l' => .ok (.product (l ++ l') tr)
        | b => (if tr then l.mapM (invertTransform E n) else .ok l) >>= fun l => .ok (.product (l ++ [b]) false)
    | a => .ok (.product [a, b] false)

end

/-- `__sub__` of the terms (`_base.py:147-150`, `_primitive.py:131-138,274-287,572-583`, `_binary.py:250-256`) -/
def sub (E : Env α K) : Nat → Term α K → Term α K → Py (Term α K)
  | 0, _, _ => .error .runtimeError
  | n + 1, a, b => match a with
    | .constant v =>
      if v = 0 then negate E n b
      else match b with
        | .constant w => .ok (.constant (v - w))
        | b => .ok (.difference (.constant v) b false)
    | .polynomial cs tr => match b with
      | .polynomial cs' tr' =>
        if tr = tr' then .ok (.polynomial (polyop (· - ·) cs cs') tr)
        else .ok (.difference (.polynomial cs tr) (.polynomial cs' tr') false)
      | .constant w =>
        if cs.length ≠ 0 then .ok (.polynomial (changeLast (· - w) cs) tr)
        else .ok (.constant (-w))
      | b => .ok (.difference (.polynomial cs tr) b false)
    | .bands xs ys i e => match b with
      | .bands xs' ys' i' e' =>
        if xs = xs' ∧ i = i' ∧ e = e' then bandsOp (· - ·) xs ys i e ys'
        else .ok (.difference (.bands xs ys i e) (.bands xs' ys' i' e') false)
      | b => .ok (.difference (.bands xs ys i e) b false)
    | .difference m s tr =>
      (if tr then invertTransform E n b else .ok b) >>= fun b =>
        add E n s b >>= fun s => .ok (.difference m s tr)
    | a => .ok (.difference a b false)

/-- `__truediv__` of the terms (`_base.py:157-160`, `_primitive.py:153-160,297-303,598-609`). The division of python
numbers by zero raises an exception. The elements of arrays become infinite or NaN in the implementation, when they are
divided by zero. There are no such numbers in `K`, so this is modelled as an exception, too. -/
def div (a b : Term α K) : Py (Term α K) :=
  match a with
  | .constant v =>
    if v = 0 then .ok (.constant v)
    else match b with
      | .constant w => if w = 0 then .error .zeroDivisionError else .ok (.constant (v / w))
      | b => .ok (.quotient (.constant v) b false)
  | .polynomial cs tr => match b with
    | .constant w => if w = 0 then .error .zeroDivisionError else .ok (.polynomial (cs.map (· / w)) tr)
    | b => .ok (.quotient (.polynomial cs tr) b false)
  | .bands xs ys i e => match b with
    | .bands xs' ys' i' e' =>
      if xs = xs' ∧ i = i' ∧ e = e' then
        if 0 ∈ ys' then .error .zeroDivisionError else bandsOp (· / ·) xs ys i e ys'
      else .ok (.quotient (.bands xs ys i e) (.bands xs' ys' i' e') false)
    | b => .ok (.quotient (.bands xs ys i e) b false)
  | a => .ok (.quotient a b false)

end Operators

end Filter
end Verif
