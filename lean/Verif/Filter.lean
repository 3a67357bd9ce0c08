import Verif.Term
import Verif.Signal

/-
The class `Filter` (`/repo/sumpf/_data/_filters/_base/_filter.py`) and the evaluation of its terms, including 0 Hz, where
the lowpass-to-highpass transform would divide by zero (`/repo/sumpf/_data/_filters/_base/_s.py`).
-/

namespace Verif
namespace Filter

open Interpolation (Mode Logs)

variable {α K : Type} [Field α] [LinearOrder α] [Field K] [DecidableEq K] [Module α K]

/-! ### the evaluation with the state of the `S` instance

The only state of `S` and `TransformedS`, that influences the results, is the attribute `__invalid` of `TransformedS`: it
is set, when the transformed values are requested for the first time and there is a frequency, where `s` is zero
(`_s.py:95-109`). For one frequency, this is a flag, that says, if the method `fix` replaces the result by zero. The
element of an array does not depend on the other elements of that array. -/

/-- the flag after calling `s()`, where `t` says, if `s` is a `TransformedS` instance (`_s.py:40-47,95-109`) -/
def touch (E : Env α K) (f : α) (t invalid : Bool) : Bool := invalid || (t && decide (E.s f = 0))

/-- `fix` (`_s.py:57-68,119-129`) -/
def fix (invalid : Bool) (result : Option K) : Option K := if invalid then some 0 else result

/-- the value of `s()` (`_s.py:40-47,95-109`); `mem` is the uninitialised memory, that is returned by
`numpy.divide(1.0, s, where=(s != 0))`, where `s` is zero. -/
def sMemory (E : Env α K) (mem : K) (f : α) (t : Bool) : K :=
  if t then if E.s f = 0 then mem else (E.s f)⁻¹ else E.s f

mutual

/-- `Term.__call__` (`_base.py:49-60`) with the `_compute` methods for one frequency. The result is the value and the flag
of the `S` instance. The flag `t` says, if the parameter is a `TransformedS` instance. -/
def evalState (E : Env α K) (mem : K) (f : α) (t : Bool) : Term α K → Bool → Option K × Bool
  | .constant v, b => (fix (touch E f t b) (some v), touch E f t b)
  | .polynomial cs tr, b =>
    (fix (touch E f (t ^^ tr) b) (some (polyval cs (sMemory E mem f (t ^^ tr)))), touch E f (t ^^ tr) b)
  | .exp c tr, b =>
    (fix (touch E f (t ^^ tr) b) (some (E.exp (c * sMemory E mem f (t ^^ tr)))), touch E f (t ^^ tr) b)
  | .bands xs ys i e, b => (fix b (bandsAt E f xs ys i e), b)
  | .absolute v tr, b =>
    let p := evalState E mem f (t ^^ tr) v b
    (fix p.2 (p.1.map E.abs), p.2)
  | .negative v tr, b =>
    let p := evalState E mem f (t ^^ tr) v b
    (fix p.2 (p.1.map fun x => -x), p.2)
  | .sum l tr, b =>
    let p := evalStateList E mem f (t ^^ tr) l (if l.length = 0 then touch E f (t ^^ tr) b else b)
    (fix p.2 (sumValues p.1), p.2)
  | .difference m s tr, b =>
    let p := evalState E mem f (t ^^ tr) m b
    let q := evalState E mem f (t ^^ tr) s p.2
    (fix q.2 (p.1.bind fun x => q.1.map fun y => x - y), q.2)
  | .product l tr, b =>
    let p := evalStateList E mem f (t ^^ tr) l (if l.length = 0 then touch E f (t ^^ tr) b else b)
    (fix p.2 (productValues p.1), p.2)
  | .quotient n d tr, b =>
    let p := evalState E mem f (t ^^ tr) n b
    let q := evalState E mem f (t ^^ tr) d p.2
    (fix q.2 (p.1.bind fun x => q.1.bind fun y => divide x y), q.2)

/-- the values of a sequence of terms, that are evaluated one after the other -/
def evalStateList (E : Env α K) (mem : K) (f : α) (t : Bool) : List (Term α K) → Bool → List (Option K) × Bool
  | [], b => ([], b)
  | a :: l, b =>
    let p := evalState E mem f t a b
    let q := evalStateList E mem f t l p.2
    (p.1 :: q.1, q.2)

end

/-! ### the filter -/

/-- The class `Filter`: the transfer functions and the labels of its channels -/
structure Channels (α K : Type) where
  transferFunctions : List (Term α K)
  labels : List String

namespace Channels

/-- `Filter.__init__` (`_filter.py:121-127`) -/
def new (transferFunctions : List (Term α K)) (labels : List String) : Channels α K :=
  ⟨transferFunctions, sanitizeLabels (some labels) transferFunctions.length⟩

/-- `Filter.__call__` for one frequency (`_filter.py:145-157`): the same `S` instance is used for all channels. -/
def call (E : Env α K) (mem : K) (a : Channels α K) (f : α) : List (Option K) :=
  (evalStateList E mem f false a.transferFunctions false).1

/-- `Filter.spectrum` (`_filter.py:406-420`): the channels of the spectrum. The frequencies are
`numpy.linspace(0.0, (length - 1) * resolution, length)`. -/
def spectrum (E : Env α K) (mem : K) (a : Channels α K) (resolution : α) (length : Nat) : Mat (Option K) where
  rows := a.transferFunctions.length
  cols := length
  get i j := ((a.call E mem (j * resolution))[i]?).getD none

/-- `Filter.__getitem__` with a single key (`_filter.py:134-143`); `none`: the conversion of the key does not
terminate -/
def getItem (a : Channels α K) (key : Indexing.Key) : Option (Channels α K) :=
  (Indexing.keyToSlice a.transferFunctions.length key).map fun s =>
    new (sliceList a.transferFunctions s) (sliceList a.labels s)

/-- `Filter.__eq__` (`_filter.py:186-196`) for two filters; `any` and `zip` are evaluated as far as necessary -/
def eq (n : Nat) (a b : Channels α K) : Py Bool :=
  if a.transferFunctions.length ≠ b.transferFunctions.length then .ok false
  else anyM (fun p : Term α K × Term α K => termEq n p.1 p.2 >>= fun q => .ok !q)
      (a.transferFunctions.zip b.transferFunctions) >>= fun different =>
    if different then .ok false else .ok (decide (a.labels = b.labels))

/-- `Filter.__algebra_function` (`_filter.py:226-252`) -/
def algebraFunction (a : Channels α K) (other : List (Term α K)) (function : Term α K → Term α K → Py (Term α K))
    (label : String) : Py (Channels α K) :=
  match a.transferFunctions with
  | [tf1] => other.mapM (function tf1) >>= fun l => .ok (new l (List.replicate other.length label))
  | tfs => match other with
    | [tf2] => tfs.mapM (fun tf1 => function tf1 tf2) >>= fun l => .ok (new l (List.replicate tfs.length label))
    | other =>
      if tfs.length = other.length then
        (tfs.zip other).mapM (fun p => function p.1 p.2) >>= fun l =>
          .ok (new l (List.replicate other.length label))
      else .error .valueError

/-- the operand of an operator: a filter, a number (`int`, `float`, `complex`) or an object of another class, for which
`NotImplemented` is returned. The `Signal`, `Spectrum` and `Spectrogram` instances, that are accepted by the
multiplication, are not modelled here. -/
inductive Operand (α K : Type) where
  | filter (b : Channels α K)
  | number (v : K)
  | other

/-- `Filter.__add__` and `Filter.__radd__` (`_filter.py:254-275`); python raises a TypeError, if the result is
`NotImplemented` -/
def add (E : Env α K) (n : Nat) (a : Channels α K) : Operand α K → Py (Channels α K)
  | .filter b => a.algebraFunction b.transferFunctions (Filter.add E n) "Sum"
  | .number v =>
    if v = 0 then .ok a
    else a.transferFunctions.mapM (fun tf => Filter.add E n tf (.constant v)) >>= fun l => .ok (new l a.labels)
  | .other => .error .typeError

/-- `Filter.__sub__` (`_filter.py:277-296`) -/
def sub (E : Env α K) (n : Nat) (a : Channels α K) : Operand α K → Py (Channels α K)
  | .filter b => a.algebraFunction b.transferFunctions (Filter.sub E n) "Difference"
  | .number v =>
    if v = 0 then .ok a
    else a.transferFunctions.mapM (fun tf => Filter.sub E n tf (.constant v)) >>= fun l => .ok (new l a.labels)
  | .other => .error .typeError

/-- `Filter.__rsub__` (`_filter.py:298-302`) with a number -/
def rsub (E : Env α K) (n : Nat) (a : Channels α K) (v : K) : Py (Channels α K) :=
  a.transferFunctions.mapM (fun tf => Filter.sub E n (.constant v) tf) >>= fun l => .ok (new l a.labels)

/-- `Filter.__mul__` and `Filter.__rmul__` (`_filter.py:304-345`) -/
def mul (E : Env α K) (n : Nat) (a : Channels α K) : Operand α K → Py (Channels α K)
  | .filter b => a.algebraFunction b.transferFunctions (Filter.mul E n) "Product"
  | .number v =>
    if v = 1 then .ok a
    else a.transferFunctions.mapM (fun tf => Filter.mul E n tf (.constant v)) >>= fun l => .ok (new l a.labels)
  | .other => .error .typeError

/-- `Filter.__truediv__` (`_filter.py:347-366`) -/
def truediv (a : Channels α K) : Operand α K → Py (Channels α K)
  | .filter b => a.algebraFunction b.transferFunctions Filter.div "Quotient"
  | .number v =>
    if v = 1 then .ok a
    else a.transferFunctions.mapM (fun tf => Filter.div tf (.constant v)) >>= fun l => .ok (new l a.labels)
  | .other => .error .typeError

/-- `Filter.__rtruediv__` (`_filter.py:368-372`) with a number -/
def rtruediv (a : Channels α K) (v : K) : Py (Channels α K) :=
  a.transferFunctions.mapM (fun tf => Filter.div (.constant v) tf) >>= fun l => .ok (new l a.labels)

/-- `Filter.__abs__` (`_filter.py:206-213`) -/
def abs (E : Env α K) (a : Channels α K) : Channels α K := new (a.transferFunctions.map fun tf => tf.abs E) a.labels

/-- `Filter.__neg__` (`_filter.py:215-221`) -/
def neg (E : Env α K) (n : Nat) (a : Channels α K) : Py (Channels α K) :=
  a.transferFunctions.mapM (negate E n) >>= fun l => .ok (new l a.labels)

/-- `Filter.__invert__` (`_filter.py:378-385`) -/
def invert (a : Channels α K) : Py (Channels α K) :=
  a.transferFunctions.mapM Term.invert >>= fun l => .ok (new l a.labels)

end Channels
end Filter
end Verif
