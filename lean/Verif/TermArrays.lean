import Verif.Filter

/-
The evaluation of terms with arrays, which are stored in memory and changed in place:
`/repo/sumpf/_data/_filters/_base/_terms/{_base,_primitive,_unary,_binary}.py` (`__call__` and `_compute` with the
parameter `out`), `/repo/sumpf/_data/_filters/_base/_functions.py` (`copy_to_out`),
`/repo/sumpf/_data/_filters/_base/_s.py` and `Filter.spectrum` (`_filter.py:406-420`).

`Filter.lean` evaluates the terms for one frequency. Here, the arrays have an address, so that it can be stated, which
array a method returns and which arrays it changes. All arrays of an evaluation have the same number `n` of elements. The
elements are optional values: `none` stands for the infinities and NaNs and for exceptions, as it does in `Term.lean`.
The data types of the arrays are not modelled. The frequencies are an immutable sequence: they are only passed as an
operand to functions, that do not modify their operands.
-/

namespace Verif
namespace Filter
namespace Arrays

open Interpolation (Mode Logs)

variable {α K : Type}

/-- the attributes `__s` and `__invalid` of a `TransformedS` instance (`_s.py:86-93`). The indices in `__invalid` are
given by their mask. -/
structure TransformedS where
  s : Option Nat
  invalid : Option (Nat → Bool)

/-- the memory with the address of the next array and the elements of the arrays, and the attributes `__s` and
`__transformed` of the `S` instance (`_s.py:32-38`) -/
structure State (K : Type) where
  next : Nat
  cells : Nat → Nat → Option K
  s : Option Nat
  transformed : Option TransformedS

/-- a new array with the given elements -/
def alloc (c : Nat → Option K) (σ : State K) : Nat × State K :=
  (σ.next, { σ with next := σ.next + 1, cells := Function.update σ.cells σ.next c })

/-- `array[:] = c` -/
def write (a : Nat) (c : Nat → Option K) (σ : State K) : State K :=
  { σ with cells := Function.update σ.cells a c }

/-- `array[mask] = c[mask]` -/
def writeMask (a : Nat) (mask : Nat → Bool) (c : Nat → Option K) (σ : State K) : State K :=
  write a (fun j => if mask j then c j else σ.cells a j) σ

/-- the result `c` of an universal function of numpy, that has been called with the parameter `out` (documentation of
numpy: "A location into which the result is stored. […] If not provided or None, a freshly-allocated array is
returned.") The result does not depend on an overlap of the operands with `out`. -/
def store (out : Option Nat) (c : Nat → Option K) (σ : State K) : Nat × State K :=
  match out with
  | none => alloc c σ
  | some o => (o, write o c σ)

/-- an universal function with one operand -/
def ufunc1 (op : Option K → Option K) (a : Nat) (out : Option Nat) (σ : State K) : Nat × State K :=
  store out (fun j => op (σ.cells a j)) σ

/-- an universal function with two operands -/
def ufunc2 (op : Option K → Option K → Option K) (a b : Nat) (out : Option Nat) (σ : State K) : Nat × State K :=
  store out (fun j => op (σ.cells a j) (σ.cells b j)) σ

/-- `copy_to_out` (`_functions.py:39-54`) -/
def copyToOut (result : Nat) (out : Option Nat) (σ : State K) : Nat × State K :=
  match out with
  | none => (result, σ)
  | some o => (o, write o (σ.cells result) σ)

/-- a function, that has no parameter `out`, followed by `copy_to_out` -/
def fresh (c : Nat → Option K) (out : Option Nat) (σ : State K) : Nat × State K :=
  let p := alloc c σ
  copyToOut p.1 out p.2

variable [Field α] [LinearOrder α] [Field K] [DecidableEq K] [Module α K]

/-- `S.__call__` (`_s.py:40-47`) -/
def callS (E : Env α K) (freqs : Nat → α) (σ : State K) : Nat × State K :=
  match σ.s with
  | some a => (a, σ)
  | none =>
    let p := alloc (fun j => some (E.s (freqs j))) σ
    (p.1, { p.2 with s := some p.1 })

/-- `TransformedS.__call__` (`_s.py:95-109`). The values of the uninitialised memory, that `numpy.divide` leaves in the
elements, for which `where` is false, are given by `junk`. -/
def callTransformed (E : Env α K) (n : Nat) (freqs : Nat → α) (junk : Nat → Nat → Option K) (σ : State K) :
    Nat × State K :=
  match σ.transformed with
  | some ⟨some a, _⟩ => (a, σ)
  | _ =>
    let p := callS E freqs σ
    let zero := fun j => decide (p.2.cells p.1 j = some 0)
    if (List.range n).any zero then
      let q := alloc (fun j => if zero j then junk p.2.next j else (p.2.cells p.1 j).bind fun x => divide 1 x) p.2
      (q.1, { q.2 with transformed := some ⟨some q.1, some zero⟩ })
    else
      let q := alloc (fun j => (p.2.cells p.1 j).bind fun x => divide 1 x) p.2
      (q.1, { q.2 with transformed := some ⟨some q.1, none⟩ })

/-- `s()`, where `t` says, if `s` is a `TransformedS` instance -/
def callVariable (E : Env α K) (n : Nat) (freqs : Nat → α) (junk : Nat → Nat → Option K) (t : Bool) (σ : State K) :
    Nat × State K :=
  if t then callTransformed E n freqs junk σ else callS E freqs σ

/-- `S.transform` and `TransformedS.transform` (`_s.py:70-78,131-136`): the result says, if it is a `TransformedS`
instance -/
def transform (t : Bool) (σ : State K) : Bool × State K :=
  if t then (false, σ)
  else match σ.transformed with
    | none => (true, { σ with transformed := some ⟨none, none⟩ })
    | some _ => (true, σ)

/-- `TransformedS.fix` (`_s.py:119-129`) -/
def fixTransformed (result : Nat) (x : TransformedS) (σ : State K) : State K :=
  match x.invalid with
  | some mask => writeMask result mask (fun _ => some 0) σ
  | none => σ

/-- `S.fix` (`_s.py:57-68`) and `TransformedS.fix`. A `TransformedS` instance is always that of the `S` instance, so both
methods do the same. -/
def fixResult (result : Nat) (σ : State K) : State K :=
  match σ.transformed with
  | some x => fixTransformed result x σ
  | none => σ

/-- `Term.__call__` (`_base.py:49-60`) for a term with the given attribute `transform` and the given method `_compute` -/
def within (tr t : Bool) (σ : State K) (compute : Bool → State K → Nat × State K) : Nat × State K :=
  let s := if tr then transform t σ else (t, σ)
  let p := compute s.1 s.2
  (p.1, fixResult p.1 p.2)

/-- `Bands._compute` (`_primitive.py:433-460`) for an array of frequencies -/
def bands (E : Env α K) (freqs : Nat → α) (junk : Nat → Nat → Option K) (xs : List α) (ys : List K)
    (interpolation extrapolation : Mode) (out : Option Nat) (σ : State K) : Nat × State K :=
  let p := match out with
    | none => alloc (junk σ.next) σ
    | some o => (o, σ)
  match xs with
  | [] => (p.1, write p.1 (fun _ => some 0) p.2)
  | x :: l =>
    let mask := fun j => decide (freqs j < x) || decide ((x :: l).getLast (List.cons_ne_nil x l) < freqs j)
    let σ₁ := writeMask p.1 mask (fun j => value (Interpolation.scalar E.log extrapolation (freqs j) (x :: l) ys)) p.2
    let σ₂ := writeMask p.1 (fun j => !mask j)
      (fun j => value (Interpolation.scalar E.log interpolation (freqs j) (x :: l) ys)) σ₁
    (p.1, σ₂)

/-- the operators of numpy for one element -/
def addCells (x y : Option K) : Option K := x.bind fun x => y.map fun y => x + y
@[inherit_doc addCells] def mulCells (x y : Option K) : Option K := x.bind fun x => y.map fun y => x * y
@[inherit_doc addCells] def subCells (x y : Option K) : Option K := x.bind fun x => y.map fun y => x - y
@[inherit_doc addCells] def divCells (x y : Option K) : Option K := x.bind fun x => y.bind fun y => divide x y

mutual

/-- `Term.__call__` (`_base.py:49-60`) with the `_compute` methods of the terms (`_primitive.py:54-62,210-218,347-355`,
`_unary.py:57-64,141-148`, `_binary.py:71-85,185-195,308-322,423-435`). The result is the address of the returned array. -/
def call (E : Env α K) (n : Nat) (freqs : Nat → α) (junk : Nat → Nat → Option K) :
    Term α K → Bool → Option Nat → State K → Nat × State K
  | .constant v, t, out, σ => within false t σ fun t σ =>
    let s := callVariable E n freqs junk t σ
    fresh (fun _ => some v) out s.2
  | .polynomial cs tr, t, out, σ => within tr t σ fun t σ =>
    let s := callVariable E n freqs junk t σ
    fresh (fun j => (s.2.cells s.1 j).map (polyval cs)) out s.2
  | .exp c tr, t, out, σ => within tr t σ fun t σ =>
    let s := callVariable E n freqs junk t σ
    let exponent := ufunc1 (fun x => x.map fun x => c * x) s.1 out s.2
    ufunc1 (fun x => x.map E.exp) exponent.1 out exponent.2
  | .bands xs ys i e, t, out, σ => within false t σ fun _ σ => bands E freqs junk xs ys i e out σ
  | .absolute v tr, t, out, σ => within tr t σ fun t σ =>
    let p := call E n freqs junk v t out σ
    ufunc1 (fun x => x.map E.abs) p.1 out p.2
  | .negative v tr, t, out, σ => within tr t σ fun t σ =>
    let p := call E n freqs junk v t out σ
    ufunc1 (fun x => x.map fun x => -x) p.1 out p.2
  | .sum l tr, t, out, σ => within tr t σ fun t σ => callAll E n freqs junk addCells l t out σ
  | .difference m s tr, t, out, σ => within tr t σ fun t σ =>
    let p := call E n freqs junk m t none σ
    let q := call E n freqs junk s t none p.2
    ufunc2 subCells p.1 q.1 out q.2
  | .product l tr, t, out, σ => within tr t σ fun t σ => callAll E n freqs junk mulCells l t out σ
  | .quotient m s tr, t, out, σ => within tr t σ fun t σ =>
    let p := call E n freqs junk m t none σ
    let q := call E n freqs junk s t none p.2
    ufunc2 divCells p.1 q.1 out q.2

/-- `Sum._compute` and `Product._compute` (`_binary.py:71-85,308-322`), which differ in the operator only -/
def callAll (E : Env α K) (n : Nat) (freqs : Nat → α) (junk : Nat → Nat → Option K)
    (op : Option K → Option K → Option K) : List (Term α K) → Bool → Option Nat → State K → Nat × State K
  | [], t, out, σ =>
    let s := callVariable E n freqs junk t σ
    fresh (fun _ => some 0) out s.2
  | a :: l, t, out, σ =>
    let p := call E n freqs junk a t out σ
    callRest E n freqs junk op l t out p.1 p.2

/-- the loop of these methods: `for a in summands[1:]: result = numpy.add(result, a(s), out=out)` -/
def callRest (E : Env α K) (n : Nat) (freqs : Nat → α) (junk : Nat → Nat → Option K)
    (op : Option K → Option K → Option K) : List (Term α K) → Bool → Option Nat → Nat → State K → Nat × State K
  | [], _, _, result, σ => (result, σ)
  | a :: l, t, out, result, σ =>
    let q := call E n freqs junk a t none σ
    let r := ufunc2 op result q.1 out q.2
    callRest E n freqs junk op l t out r.1 r.2

end

/-- the loop of `Filter.spectrum`: `for tf, c in zip(self.__transfer_functions, channels): tf(s, out=c)`, where `c` is the
address of the next row -/
def spectrumLoop (E : Env α K) (n : Nat) (freqs : Nat → α) (junk : Nat → Nat → Option K) :
    List (Term α K) → Nat → State K → State K
  | [], _, σ => σ
  | a :: l, c, σ => spectrumLoop E n freqs junk l (c + 1) (call E n freqs junk a false (some c) σ).2

/-- `Filter.spectrum` (`_filter.py:406-420`): the channels of the spectrum. The rows of the allocated matrix are the
arrays with the addresses `0, …, len(transfer_functions) - 1`. -/
def spectrum (E : Env α K) (junk : Nat → Nat → Option K) (a : Channels α K) (resolution : α) (length : Nat) :
    Mat (Option K) where
  rows := a.transferFunctions.length
  cols := length
  get := (spectrumLoop E length (fun j => j * resolution) junk a.transferFunctions 0
    ⟨a.transferFunctions.length, junk, none, none⟩).cells

/-- the loop of `Filter.__call__`: `tuple(tf(s) for tf in self.__transfer_functions)` -/
def callLoop (E : Env α K) (n : Nat) (freqs : Nat → α) (junk : Nat → Nat → Option K) :
    List (Term α K) → State K → List Nat × State K
  | [], σ => ([], σ)
  | a :: l, σ =>
    let p := call E n freqs junk a false none σ
    let q := callLoop E n freqs junk l p.2
    (p.1 :: q.1, q.2)

/-- `Filter.__call__` (`_filter.py:145-157`) with an array of frequencies: the addresses of the returned arrays and the
memory. At the beginning, there are `k` other arrays. -/
def callFilter (E : Env α K) (n : Nat) (freqs : Nat → α) (junk : Nat → Nat → Option K) (a : Channels α K)
    (k : Nat) (cells : Nat → Nat → Option K) : List Nat × State K :=
  callLoop E n freqs junk a.transferFunctions ⟨k, cells, none, none⟩

end Arrays
end Filter
end Verif
