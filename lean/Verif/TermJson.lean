import Verif.Filter

/-
Storing filters as JSON and loading them again: the methods `as_dict` of the terms
(`/repo/sumpf/_data/_filters/_base/_terms`), `JsonWriter` (`/repo/sumpf/_internal/_persistence/_filter_writers.py`) and
`term_from_dict` and `JsonReader` (`/repo/sumpf/_internal/_persistence/_filter_readers.py`).
-/

namespace Verif
namespace Filter

open Interpolation (Mode Logs)

/-- python values, that can be in the dictionaries. Tuples and lists are not distinguished, because JSON has only one
kind of sequences. Dictionaries are lists of their items in the order of their insertion. -/
inductive Value (α K : Type) where
  | real (x : α)
  | complex (z : K)
  | int (n : Int)
  | bool (b : Bool)
  | str (s : String)
  | list (l : List (Value α K))
  | dict (l : List (String × Value α K))

/-- How numbers are stored: `isComplex` says, if a number has the type `complex` and `isComplexArray` says, if the data
type of an array is complex. -/
structure Numbers (α K : Type) where
  isComplex : K → Bool
  isComplexArray : List K → Bool
  re : K → α
  im : K → α
  ofReal : α → K
  /-- the imaginary unit `1j` -/
  i : K

variable {α K : Type} [Field α] [LinearOrder α] [Field K] [DecidableEq K] [Module α K]

section Writing

/-- a number as a value -/
def Numbers.value (N : Numbers α K) (z : K) : Value α K := if N.isComplex z then .complex z else .real (N.re z)

/-- the integer number of the elements of the enumeration `Interpolations` (`_enums.py:201-239`) -/
def modeNumber : Mode → Int
  | .zero => 1
  | .one => 2
  | .linear => 3
  | .logarithmic => 4
  | .logX => 5
  | .logY => 6
  | .stairsLin => 7
  | .stairsLog => 8

mutual

/-- the methods `as_dict` (`_primitive.py:162-165,305-309,381-385,611-622`, `_unary.py:102-106,188-192`,
`_binary.py:134-138,258-263,379-383,479-484`) -/
def asDict (N : Numbers α K) : Term α K → Value α K
  | .constant v => .dict [("type", .str "Constant"), ("value", N.value v)]
  | .polynomial cs tr =>
    .dict [("type", .str "Polynomial"), ("coefficients", .list (cs.map N.value)), ("transform", .bool tr)]
  | .exp c tr => .dict [("type", .str "Exp"), ("coefficient", N.value c), ("transform", .bool tr)]
  | .bands xs ys i e =>
    .dict [("type", .str "Bands"), ("xs", .list (xs.map .real)),
      ("ys", if N.isComplexArray ys then
          .dict [("real", .list (ys.map fun y => .real (N.re y))), ("imaginary", .list (ys.map fun y => .real (N.im y)))]
        else .list (ys.map fun y => .real (N.re y))),
      ("interpolation", .int (modeNumber i)), ("extrapolation", .int (modeNumber e))]
  | .absolute v tr => .dict [("type", .str "Absolute"), ("value", asDict N v), ("transform", .bool tr)]
  | .negative v tr => .dict [("type", .str "Negative"), ("value", asDict N v), ("transform", .bool tr)]
  | .sum l tr => .dict [("type", .str "Sum"), ("summands", .list (asDictList N l)), ("transform", .bool tr)]
  | .difference m s tr =>
    .dict [("type", .str "Difference"), ("minuend", asDict N m), ("subtrahend", asDict N s), ("transform", .bool tr)]
  | .product l tr => .dict [("type", .str "Product"), ("factors", .list (asDictList N l)), ("transform", .bool tr)]
  | .quotient m s tr =>
    .dict [("type", .str "Quotient"), ("numerator", asDict N m), ("denominator", asDict N s), ("transform", .bool tr)]

/-- `[t.as_dict() for t in l]` -/
def asDictList (N : Numbers α K) : List (Term α K) → List (Value α K)
  | [] => []
  | a :: l => asDict N a :: asDictList N l

end

mutual

/-- `json.load` of the result of `json.dump` (documentation of python): complex numbers raise a `TypeError`, all other
values are restored exactly. -/
def json : Value α K → Py (Value α K)
  | .complex _ => .error .typeError
  | .list l => jsonList l >>= fun l => .ok (.list l)
  | .dict l => jsonItems l >>= fun l => .ok (.dict l)
  | .real x => .ok (.real x)
  | .int n => .ok (.int n)
  | .bool b => .ok (.bool b)
  | .str s => .ok (.str s)

/-- the elements of a sequence -/
def jsonList : List (Value α K) → Py (List (Value α K))
  | [] => .ok []
  | v :: l => json v >>= fun v => jsonList l >>= fun l => .ok (v :: l)

/-- the items of a dictionary -/
def jsonItems : List (String × Value α K) → Py (List (String × Value α K))
  | [] => .ok []
  | p :: l => jsonItem p >>= fun p => jsonItems l >>= fun l => .ok (p :: l)

/-- an item of a dictionary -/
def jsonItem : String × Value α K → Py (String × Value α K)
  | (k, v) => json v >>= fun v => .ok (k, v)

end

/-- `JsonWriter.__call__` (`_filter_writers.py:433-442`) and `json.load` -/
def jsonWrite (N : Numbers α K) (a : Channels α K) : Py (Value α K) :=
  json (.dict [("transfer_functions", .list (asDictList N a.transferFunctions)),
    ("labels", .list (a.labels.map .str))])

end Writing

section Reading

/-- the values of the dictionary `parameters` (`_filter_readers.py:44`) -/
inductive Param (α K : Type) where
  | term (t : Term α K)
  | array (a : List K)
  | values (l : List (Term α K ⊕ Value α K))
  | value (v : Value α K)

/-- a keyword argument; a missing one raises a `TypeError` -/
def argument (name : String) : List (String × Param α K) → Py (Param α K)
  | [] => .error .typeError
  | (k, p) :: l => if k = name then .ok p else argument name l

/-- a keyword argument with a default value -/
def flagArgument : List (String × Param α K) → Py Bool
  | [] => .ok false
  | (k, p) :: l => if k = "transform" then
      match p with
      | .value (.bool b) => .ok b
      | _ => .error .typeError
    else flagArgument l

/-- checks, that there are no unexpected keyword arguments -/
def keywords (names : List String) (ps : List (String × Param α K)) : Py Unit :=
  if ps.all fun p => p.1 ∈ names then .ok () else .error .typeError

/-- a parameter, that is a term. Python accepts other types, but fails with different exceptions, when the parameter is
used. This is modelled as a `TypeError`. -/
def Param.toTerm : Param α K → Py (Term α K)
  | .term t => .ok t
  | _ => .error .typeError

/-- a parameter, that is a sequence of terms -/
def Param.toTerms : Param α K → Py (List (Term α K))
  | .values l => l.mapM fun v => match v with
    | .inl t => .ok t
    | .inr _ => .error .typeError
  | _ => .error .typeError

/-- a number -/
def Value.toNumber (N : Numbers α K) : Value α K → Py K
  | .real x => .ok (N.ofReal x)
  | .complex z => .ok z
  | _ => .error .typeError

/-- a parameter, that is a number -/
def Param.toNumber (N : Numbers α K) : Param α K → Py K
  | .value v => v.toNumber N
  | _ => .error .typeError

/-- a parameter, that is a sequence of numbers -/
def Param.toNumbers (N : Numbers α K) : Param α K → Py (List K)
  | .array a => .ok a
  | .values l => l.mapM fun v => match v with
    | .inl _ => .error .typeError
    | .inr v => v.toNumber N
  | _ => .error .typeError

/-- a real number -/
def Value.toReal : Value α K → Py α
  | .real x => .ok x
  | _ => .error .typeError

/-- a parameter, that is a sequence of real numbers -/
def Param.toReals : Param α K → Py (List α)
  | .values l => l.mapM fun v => match v with
    | .inl _ => .error .typeError
    | .inr v => v.toReal
  | _ => .error .typeError

/-- `sumpf_internal.Interpolations(value)` (`_primitive.py:427-428`) -/
def Param.toMode : Param α K → Py Mode
  | .value (.int n) =>
    if n = 1 then .ok .zero else if n = 2 then .ok .one else if n = 3 then .ok .linear
    else if n = 4 then .ok .logarithmic else if n = 5 then .ok .logX else if n = 6 then .ok .logY
    else if n = 7 then .ok .stairsLin else if n = 8 then .ok .stairsLog else .error .valueError
  | _ => .error .valueError

/-- `terms[name]` (`_filter_readers.py:45-54,58`) followed by calling the factory with the keyword arguments (line 82) -/
def construct (N : Numbers α K) (E : Env α K) (n : Nat) (cls : String) (ps : List (String × Param α K)) :
    Py (Term α K) :=
  if cls = "Sum" then
    keywords ["summands", "transform"] ps >>= fun _ => argument "summands" ps >>= fun l => l.toTerms >>= fun l =>
      flagArgument ps >>= fun tr => sumFactory E n l tr
  else if cls = "Difference" then
    keywords ["minuend", "subtrahend", "transform"] ps >>= fun _ =>
      argument "minuend" ps >>= fun m => m.toTerm >>= fun m =>
        argument "subtrahend" ps >>= fun s => s.toTerm >>= fun s =>
          flagArgument ps >>= fun tr => differenceFactory E n m s tr
  else if cls = "Product" then
    keywords ["factors", "transform"] ps >>= fun _ => argument "factors" ps >>= fun l => l.toTerms >>= fun l =>
      flagArgument ps >>= fun tr => productFactory E n l tr
  else if cls = "Quotient" then
    keywords ["numerator", "denominator", "transform"] ps >>= fun _ =>
      argument "numerator" ps >>= fun m => m.toTerm >>= fun m =>
        argument "denominator" ps >>= fun s => s.toTerm >>= fun s =>
          flagArgument ps >>= fun tr => quotientFactory n m s tr
  else if cls = "Constant" then argument "value" ps >>= fun v => v.toNumber N >>= fun v => .ok (.constant v)
  else if cls = "Polynomial" then
    keywords ["coefficients", "transform"] ps >>= fun _ =>
      argument "coefficients" ps >>= fun cs => cs.toNumbers N >>= fun cs =>
        flagArgument ps >>= fun tr => .ok (polynomialFactory cs tr)
  else if cls = "Exp" then
    keywords ["coefficient", "transform"] ps >>= fun _ =>
      argument "coefficient" ps >>= fun c => c.toNumber N >>= fun c =>
        flagArgument ps >>= fun tr => .ok (expFactory c tr)
  else if cls = "Bands" then
    argument "xs" ps >>= fun xs => xs.toReals >>= fun xs =>
      argument "ys" ps >>= fun ys => ys.toNumbers N >>= fun ys =>
        argument "interpolation" ps >>= fun i => i.toMode >>= fun i =>
          argument "extrapolation" ps >>= fun e => e.toMode >>= fun e => .ok (mkBands xs ys i e)
  else if cls = "Absolute" then
    keywords ["value", "transform"] ps >>= fun _ => argument "value" ps >>= fun v => v.toTerm >>= fun v =>
      flagArgument ps >>= fun tr => absoluteFactory E n v tr
  else if cls = "Negative" then
    keywords ["value", "transform"] ps >>= fun _ => argument "value" ps >>= fun v => v.toTerm >>= fun v =>
      flagArgument ps >>= fun tr => negativeFactory E n v tr
  else .error .keyError

/-- `dictionary[name]` -/
def lookup (name : String) : List (String × Value α K) → Py (Value α K)
  | [] => .error .keyError
  | (k, v) :: l => if k = name then .ok v else lookup name l

/-- `"type" in parameter` -/
def hasType (l : List (String × Value α K)) : Bool := l.any fun p => p.1 = "type"

/-- The array of complex numbers (`_filter_readers.py:65-71`). The shape of the array is that of the real parts; a
different number of imaginary parts cannot be assigned. -/
def complexArray (N : Numbers α K) (l : List (String × Value α K)) : Py (List K) :=
  lookup "real" l >>= fun r => lookup "imaginary" l >>= fun m =>
    match r, m with
    | .list r, .list m => r.mapM (Value.toReal (K := K)) >>= fun r => m.mapM (Value.toReal (K := K)) >>= fun m =>
        if r.length = m.length then .ok (List.zipWith (fun x y => N.ofReal y * N.i + N.ofReal x) r m)
        else .error .valueError
    | _, _ => .error .typeError

/-- The call of the class after the loop (`_filter_readers.py:82`). Calling `None`, if there was no type, raises a
`TypeError`. -/
def finish (N : Numbers α K) (E : Env α K) (n : Nat) : Option String × List (String × Param α K) → Py (Term α K)
  | (none, _) => .error .typeError
  | (some cls, ps) => construct N E n cls ps

mutual

/-- the loop of `term_from_dict` (`_filter_readers.py:56-81`); the result is the class and the parameters -/
def items (N : Numbers α K) (E : Env α K) (n : Nat) :
    List (String × Value α K) → Py (Option String × List (String × Param α K))
  | [] => .ok (none, [])
  | p :: l => item N E n p >>= fun q => items N E n l >>= fun r =>
    match q with
    | .inl cls => .ok (some (r.1.getD cls), r.2)
    | .inr q => .ok (r.1, q :: r.2)

/-- one cycle of the loop -/
def item (N : Numbers α K) (E : Env α K) (n : Nat) : String × Value α K → Py (String ⊕ (String × Param α K))
  | (name, v) =>
    if name = "type" then
      match v with
      | .str cls => .ok (.inl cls)
      | _ => .error .keyError
    else parameter N E n v >>= fun p => .ok (.inr (name, p))

/-- the value of a parameter (`_filter_readers.py:60-81`) -/
def parameter (N : Numbers α K) (E : Env α K) (n : Nat) : Value α K → Py (Param α K)
  | .dict l =>
    if hasType l then items N E n l >>= fun r => finish N E n r >>= fun t => .ok (.term t)
    else if l.map Prod.fst = ["real", "imaginary"] ∨ l.map Prod.fst = ["imaginary", "real"] then
      complexArray N l >>= fun a => .ok (.array a)
    else .ok (.value (.dict l))
  | .list l => elements N E n l >>= fun l => .ok (.values l)
  | .str s => .ok (.values (s.toList.map fun c => .inr (.str c.toString)))
  | .real x => .ok (.value (.real x))
  | .complex z => .ok (.value (.complex z))
  | .int m => .ok (.value (.int m))
  | .bool b => .ok (.value (.bool b))

/-- the elements of a sequence (`_filter_readers.py:74-80`) -/
def elements (N : Numbers α K) (E : Env α K) (n : Nat) : List (Value α K) → Py (List (Term α K ⊕ Value α K))
  | [] => .ok []
  | v :: l => element N E n v >>= fun v => elements N E n l >>= fun l => .ok (v :: l)

/-- one element of a sequence (`_filter_readers.py:76-79`) -/
def element (N : Numbers α K) (E : Env α K) (n : Nat) : Value α K → Py (Term α K ⊕ Value α K)
  | .dict l =>
    if hasType l then items N E n l >>= fun r => finish N E n r >>= fun t => .ok (.inl t)
    else .ok (.inr (.dict l))
  | v => .ok (.inr v)

end

/-- `term_from_dict` (`_filter_readers.py:33-82`). Everything else than a dictionary raises an exception. -/
def termFromDict (N : Numbers α K) (E : Env α K) (n : Nat) : Value α K → Py (Term α K)
  | .dict l => items N E n l >>= fun r => finish N E n r
  | _ => .error .typeError

/-- a sequence of strings -/
def Value.toStrings : Value α K → Py (List String)
  | .list l => l.mapM fun v => match v with
    | .str s => .ok s
    | _ => .error .typeError
  | _ => .error .typeError

/-- `JsonReader.__call__` (`_filter_readers.py:129-140`) after `json.load` -/
def jsonRead (N : Numbers α K) (E : Env α K) (n : Nat) : Value α K → Py (Channels α K)
  | .dict l => lookup "transfer_functions" l >>= fun tfs =>
      match tfs with
      | .list tfs => tfs.mapM (termFromDict N E n) >>= fun tfs =>
          lookup "labels" l >>= fun labels => labels.toStrings >>= fun labels => .ok (Channels.new tfs labels)
      | _ => .error .typeError
  | _ => .error .typeError

end Reading

end Filter
end Verif
