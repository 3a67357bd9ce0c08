import Verif.TermJson
import Verif.BandsFilter
import Verif.BandsText
import Verif.PyExpr

/-
The text representation of filters, which is computed by the methods `__repr__`, stored by the class `ReprWriter`
(`/repo/sumpf/_internal/_persistence/_filter_writers.py:408-426`) and evaluated by the class `ReprReader`
(`/repo/sumpf/_internal/_persistence/_filter_readers.py:97-122`).

Simplifications: all real numbers are floats, that are finite and not the negative zero, so they are written with a decimal
separator or an exponent, if they are not a part of a complex number. The elements of arrays are written like the numbers of
python, which is the case for the versions of NumPy before 2.0. The functions `float64` and `complex128`, the enumeration
`Interpolations` and default values of parameters are not modelled, because they do not occur in the texts of filters.
Integer numbers with leading zeros are no syntax error. The encoding of the file is not modelled.
-/

namespace Verif
namespace Filter

open Interpolation (Mode Logs)
open PyExpr

/-- How numbers and strings are converted from and to texts: `part` is the text of a part of a complex number, `printable` is the
method `isprintable` of characters and `breaks texts i` says, if NumPy inserts a line break after the `i`-th element of an
array. -/
structure Texts (α : Type) extends BandsText.Floats α where
  part : α → List Char
  printable : Char → Bool
  breaks : List (List Char) → Nat → Bool

/-- the kinds of sequences -/
inductive SeqKind where
  | tuple
  | list
  | array
  deriving DecidableEq

/-- How sequences are stored: the coefficients of polynomials can be in any kind of sequence, the terms of sums and products
can be in tuples or lists. -/
structure Storage (α K : Type) where
  coefficients : List K → SeqKind
  isTuple : List (Term α K) → Bool

variable {α K : Type} [Field α] [LinearOrder α] [Field K] [DecidableEq K] [Module α K]

section Writing

/-- `repr` of a complex number (documentation of python) -/
def reprComplex (T : Texts α) (re im : α) : List Char :=
  if re = 0 then T.part im ++ ['j']
  else '(' :: T.part re ++ ((if im < 0 then [] else ['+']) ++ T.part im) ++ ['j', ')']

/-- `repr` of a number -/
def reprNumber (T : Texts α) (N : Numbers α K) (z : K) : List Char :=
  if N.isComplex z then reprComplex T (N.re z) (N.im z) else T.repr (N.re z)

/-- `separator.join` for the separator "," with line breaks -/
def joinBreaks (breaks : Nat → Bool) : Nat → List (List Char) → List Char
  | _, [] => []
  | _, [x] => x
  | i, x :: l => x ++ ',' :: ((if breaks i then ['\n'] else []) ++ joinBreaks breaks (i + 1) l)

/-- `f"array({numpy.array2string(a, separator=",", formatter={"all": repr}, threshold=a.size).replace(" ", "")})"`
(`_primitive.py:240-244,488-492,496-500`), where the parameter contains the texts of the elements -/
def reprArray (T : Texts α) (l : List (List Char)) : List Char :=
  "array".toList ++ '(' :: '[' :: (joinBreaks (T.breaks l) 0 l ++ [']', ')'])

/-- the text of a sequence with the given texts of the elements -/
def reprSeq (T : Texts α) (kind : SeqKind) (l : List (List Char)) : List Char :=
  match kind with
  | .tuple => tupleText l
  | .list => reprList l
  | .array => reprArray T l

/-- a keyword argument -/
def reprArg (p : String × List Char) : List Char := p.1.toList ++ '=' :: p.2

/-- the text of creating a term, e.g. `f"Filter.{self.__class__.__name__}(value={self.value!r})"` -/
def reprCall (cls : String) (args : List (String × List Char)) : List Char :=
  "Filter".toList ++ '.' :: (cls.toList ++ '(' :: (join [',', ' '] (args.map reprArg) ++ [')']))

mutual

/-- the methods `__repr__` of the terms (`_primitive.py:81-87,233-247,357-363,481-507`, `_unary.py:76-84,160-168`,
`_binary.py:100-108,210-221,340-348,446-457`) -/
def reprTerm (T : Texts α) (N : Numbers α K) (S : Storage α K) : Term α K → List Char
  | .constant v => reprCall "Constant" [("value", reprNumber T N v)]
  | .polynomial cs tr => reprCall "Polynomial"
      [("coefficients", reprSeq T (S.coefficients cs) (cs.map (reprNumber T N))), ("transform", reprBool tr)]
  | .exp c tr => reprCall "Exp" [("coefficient", reprNumber T N c), ("transform", reprBool tr)]
  | .bands xs ys i e => reprCall "Bands"
      [("xs", reprArray T (xs.map T.repr)),
        ("ys", reprArray T (if N.isComplexArray ys then ys.map fun y => reprComplex T (N.re y) (N.im y)
          else ys.map fun y => T.repr (N.re y))),
        ("interpolation", reprInt (modeNumber i)), ("extrapolation", reprInt (modeNumber e))]
  | .absolute v tr => reprCall "Absolute" [("value", reprTerm T N S v), ("transform", reprBool tr)]
  | .negative v tr => reprCall "Negative" [("value", reprTerm T N S v), ("transform", reprBool tr)]
  | .sum l tr => reprCall "Sum"
      [("summands", reprSeq T (if S.isTuple l then .tuple else .list) (reprTerms T N S l)), ("transform", reprBool tr)]
  | .difference m s tr => reprCall "Difference"
      [("minuend", reprTerm T N S m), ("subtrahend", reprTerm T N S s), ("transform", reprBool tr)]
  | .product l tr => reprCall "Product"
      [("factors", reprSeq T (if S.isTuple l then .tuple else .list) (reprTerms T N S l)), ("transform", reprBool tr)]
  | .quotient m s tr => reprCall "Quotient"
      [("numerator", reprTerm T N S m), ("denominator", reprTerm T N S s), ("transform", reprBool tr)]

/-- `[repr(t) for t in l]` -/
def reprTerms (T : Texts α) (N : Numbers α K) (S : Storage α K) : List (Term α K) → List (List Char)
  | [] => []
  | t :: l => reprTerm T N S t :: reprTerms T N S l

end

/-- `repr` of a tuple of strings -/
def reprLabels (T : Texts α) (l : List String) : List Char := tupleText (l.map fun s => reprStr T.printable s.toList)

/-- `Filter.__repr__` (`_filter.py:177-184`), where `cls` is `self.__class__.__name__` -/
def reprFilter (T : Texts α) (N : Numbers α K) (S : Storage α K) (cls : String) (a : Channels α K) : List Char :=
  cls.toList ++ '(' :: (join [',', ' '] ([("transfer_functions", tupleText (reprTerms T N S a.transferFunctions)),
    ("labels", reprLabels T a.labels)].map reprArg) ++ [')'])

/-- `Bands.__repr__` (`_bands.py:93-102`). The dictionaries are in a sequence of the given kind. -/
def reprBands (T : Texts α) (N : Numbers α K) (kind : SeqKind) (a : BandsFilter α K) : List Char :=
  "Bands".toList ++ '(' :: (join [',', ' '] ([
    ("bands", reprSeq T kind (a.bands.map fun d => reprDict (d.map fun p => (T.repr p.1, reprNumber T N p.2)))),
    ("interpolations", reprList (a.interpolations.map fun m => reprInt (modeNumber m))),
    ("extrapolations", reprList (a.extrapolations.map fun m => reprInt (modeNumber m))),
    ("labels", reprLabels T a.filter.labels)].map reprArg) ++ [')'])

end Writing

section Reading

/-- the exceptions, that can be raised by `ReprReader.__call__` -/
inductive EvalExc where
  | syntaxError
  | nameError
  | assertionError
  | py (e : PyExc)

/-- the result of an evaluation -/
abbrev Ev (β : Type) := Except EvalExc β

/-- the result of a function -/
def lift {β : Type} : Py β → Ev β
  | .ok x => .ok x
  | .error e => .error (.py e)

/-- the values of expressions. Tuples, lists and arrays are not distinguished. -/
inductive Obj (α K : Type) where
  | int (n : Int)
  | real (x : α)
  | complex (z : K)
  | bool (b : Bool)
  | str (s : String)
  | seq (l : List (Obj α K))
  | dict (l : List (Obj α K × Obj α K))
  | term (t : Term α K)
  | filter (a : Channels α K)
  | bands (a : BandsFilter α K)

/-- the value of decimal digits -/
def digitsValue (s : List Char) : Nat := s.foldl (fun k c => 10 * k + (c.toNat - 48)) 0

/-- the value of a number -/
def literal (T : Texts α) (t : List Char) : Ev (Obj α K) :=
  if t.all Char.isDigit then .ok (.int (digitsValue t : ℕ))
  else match T.parse t with
    | some x => .ok (.real x)
    | none => .error .syntaxError

/-- a number as a complex number -/
def Obj.toComplex (N : Numbers α K) : Obj α K → Ev K
  | .int n => .ok (n : K)
  | .real x => .ok (N.ofReal x)
  | .complex z => .ok z
  | _ => .error (.py .typeError)

/-- the value of a number with the letter `j` -/
def imaginary (T : Texts α) (N : Numbers α K) (t : List Char) : Ev (Obj α K) :=
  literal (K := K) T t >>= fun x => x.toComplex N >>= fun x => .ok (.complex (x * N.i))

/-- the operator `-x` -/
def Obj.neg : Obj α K → Ev (Obj α K)
  | .int n => .ok (.int (-n))
  | .real x => .ok (.real (-x))
  | .complex z => .ok (.complex (-z))
  | _ => .error (.py .typeError)

/-- the operator `x + y` for numbers -/
def Obj.add (N : Numbers α K) : Obj α K → Obj α K → Ev (Obj α K)
  | .int m, .int n => .ok (.int (m + n))
  | .int m, .real y => .ok (.real (m + y))
  | .real x, .int n => .ok (.real (x + n))
  | .real x, .real y => .ok (.real (x + y))
  | a, b => a.toComplex N >>= fun x => b.toComplex N >>= fun y => .ok (.complex (x + y))

/-- the functions, that can be called -/
inductive Callee where
  | filter
  | bands
  | array
  | factory (cls : List Char)

/-- the names of the factories of the terms (`_filter.py:108-117`) -/
def factories : List String :=
  ["Sum", "Difference", "Product", "Quotient", "Constant", "Polynomial", "Exp", "Bands", "Absolute", "Negative"]

/-- The function, that is called. The names are those, which are given to `eval` (`_filter_readers.py:114-119`). `Bands`
inherits the attributes of `Filter`. Other expressions than names and their attributes do not evaluate to functions. -/
def callee : Ast → Ev Callee
  | .name x =>
    if x = "Filter".toList then .ok .filter
    else if x = "Bands".toList then .ok .bands
    else if x = "array".toList then .ok .array
    else .error .nameError
  | .attr (.name x) y =>
    if x = "Filter".toList ∨ x = "Bands".toList then
      if String.ofList y ∈ factories then .ok (.factory y) else .error (.py .attributeError)
    else if x = "array".toList then .error (.py .attributeError)
    else .error .nameError
  | _ => .error (.py .typeError)

/-- an element of a sequence as parameter for a factory. Python fails with different exceptions, when a value with a wrong type is
used. This is modelled as a `TypeError`. -/
def Obj.toElement : Obj α K → Ev (Term α K ⊕ Value α K)
  | .term t => .ok (.inl t)
  | .int n => .ok (.inr (.int n))
  | .real x => .ok (.inr (.real x))
  | .complex z => .ok (.inr (.complex z))
  | .bool b => .ok (.inr (.bool b))
  | .str s => .ok (.inr (.str s))
  | _ => .error (.py .typeError)

/-- a value as parameter for a factory; see `Obj.toElement` -/
def Obj.toParam : Obj α K → Ev (Param α K)
  | .seq l => l.mapM Obj.toElement >>= fun l => .ok (.values l)
  | a => a.toElement >>= fun v => match v with
    | .inl t => .ok (.term t)
    | .inr v => .ok (.value v)

/-- a keyword argument as parameter for a factory; there are no positional arguments -/
def toKeyword : Option (List Char) × Obj α K → Ev (String × Param α K)
  | (some k, a) => a.toParam >>= fun p => .ok (String.ofList k, p)
  | (none, _) => .error (.py .typeError)

/-- a keyword argument -/
def keyword (name : String) : List (Option (List Char) × Obj α K) → Ev (Obj α K)
  | [] => .error (.py .typeError)
  | (k, a) :: l => if k = some name.toList then .ok a else keyword name l

/-- the elements of a sequence -/
def Obj.toList : Obj α K → Ev (List (Obj α K))
  | .seq l => .ok l
  | _ => .error (.py .typeError)

/-- a term -/
def Obj.toTerm : Obj α K → Ev (Term α K)
  | .term t => .ok t
  | _ => .error (.py .typeError)

/-- a string -/
def Obj.toStr : Obj α K → Ev String
  | .str s => .ok s
  | _ => .error (.py .typeError)

/-- a flag of the enumeration `Interpolations` -/
def Obj.toMode : Obj α K → Ev Mode
  | .int n => lift (Param.toMode (.value (.int n) : Param α K))
  | _ => .error (.py .valueError)

/-- a key of the dictionaries for bands filters -/
def Obj.toReal : Obj α K → Ev α
  | .int n => .ok (n : α)
  | .real x => .ok x
  | _ => .error (.py .typeError)

/-- the dictionary with the given items -/
def toDict (N : Numbers α K) (d : Dict α K) : List (Obj α K × Obj α K) → Ev (Dict α K)
  | [] => .ok d
  | p :: l => p.1.toReal >>= fun k => p.2.toComplex N >>= fun v => toDict N (d.set k v) l

/-- a dictionary for a bands filter -/
def Obj.toDict (N : Numbers α K) : Obj α K → Ev (Dict α K)
  | .dict l => Filter.toDict N [] l
  | _ => .error (.py .typeError)

/-- the call of a function -/
def apply (N : Numbers α K) (E : Env α K) (n : Nat) : Callee → List (Option (List Char) × Obj α K) → Ev (Obj α K)
  | .factory cls, args => args.mapM toKeyword >>= fun ps =>
      lift (construct N E n (String.ofList cls) ps) >>= fun t => .ok (.term t)
  | .array, args => match args with
    | [(none, .seq l)] => .ok (.seq l)
    | _ => .error (.py .typeError)
  | .filter, args => keyword "transfer_functions" args >>= fun tfs => tfs.toList >>= fun tfs =>
      tfs.mapM Obj.toTerm >>= fun tfs => keyword "labels" args >>= fun ls => ls.toList >>= fun ls =>
        ls.mapM Obj.toStr >>= fun ls => .ok (.filter (Channels.new tfs ls))
  | .bands, args => keyword "bands" args >>= fun bs => bs.toList >>= fun bs => bs.mapM (Obj.toDict N) >>= fun bs =>
      keyword "interpolations" args >>= fun is => is.toList >>= fun is => is.mapM Obj.toMode >>= fun is =>
        keyword "extrapolations" args >>= fun es => es.toList >>= fun es => es.mapM Obj.toMode >>= fun es =>
          keyword "labels" args >>= fun ls => ls.toList >>= fun ls => ls.mapM Obj.toStr >>= fun ls =>
            lift (BandsFilter.new bs (.sequence is) (.sequence es) (.sequence ls)) >>= fun a => .ok (.bands a)

mutual

/-- `eval` of an expression with the names, that are given in `_filter_readers.py:114-119` -/
def evalAst (T : Texts α) (N : Numbers α K) (E : Env α K) (n : Nat) : Ast → Ev (Obj α K)
  | .name x =>
    if x = "True".toList then .ok (.bool true)
    else if x = "False".toList then .ok (.bool false)
    else .error .nameError
  | .num t => literal T t
  | .imag t => imaginary T N t
  | .str s => .ok (.str (String.ofList s))
  | .attr _ _ => .error (.py .attributeError)
  | .neg a => evalAst T N E n a >>= fun a => a.neg
  | .add a b => evalAst T N E n a >>= fun a => evalAst T N E n b >>= fun b => a.add N b
  | .sub a b => evalAst T N E n a >>= fun a => evalAst T N E n b >>= fun b => b.neg >>= fun b => a.add N b
  | .tuple l => evalElements T N E n l >>= fun l => .ok (.seq l)
  | .list l => evalElements T N E n l >>= fun l => .ok (.seq l)
  | .dict l => evalItems T N E n l >>= fun l => .ok (.dict l)
  | .call f args => callee f >>= fun f => evalArgs T N E n args >>= fun args => apply N E n f args

/-- the elements of a sequence -/
def evalElements (T : Texts α) (N : Numbers α K) (E : Env α K) (n : Nat) : List Ast → Ev (List (Obj α K))
  | [] => .ok []
  | a :: l => evalAst T N E n a >>= fun a => evalElements T N E n l >>= fun l => .ok (a :: l)

/-- the items of a dictionary -/
def evalItems (T : Texts α) (N : Numbers α K) (E : Env α K) (n : Nat) :
    List (Ast × Ast) → Ev (List (Obj α K × Obj α K))
  | [] => .ok []
  | p :: l => evalItem T N E n p >>= fun p => evalItems T N E n l >>= fun l => .ok (p :: l)

/-- an item of a dictionary -/
def evalItem (T : Texts α) (N : Numbers α K) (E : Env α K) (n : Nat) : Ast × Ast → Ev (Obj α K × Obj α K)
  | (k, v) => evalAst T N E n k >>= fun k => evalAst T N E n v >>= fun v => .ok (k, v)

/-- the arguments of a call -/
def evalArgs (T : Texts α) (N : Numbers α K) (E : Env α K) (n : Nat) :
    List (Option (List Char) × Ast) → Ev (List (Option (List Char) × Obj α K))
  | [] => .ok []
  | p :: l => evalArg T N E n p >>= fun p => evalArgs T N E n l >>= fun l => .ok (p :: l)

/-- an argument of a call -/
def evalArg (T : Texts α) (N : Numbers α K) (E : Env α K) (n : Nat) :
    Option (List Char) × Ast → Ev (Option (List Char) × Obj α K)
  | (k, a) => evalAst T N E n a >>= fun a => .ok (k, a)

end

/-- `eval` of a text -/
def evalText (T : Texts α) (N : Numbers α K) (E : Env α K) (n : Nat) (s : List Char) : Ev (Obj α K) :=
  match parse s with
  | none => .error .syntaxError
  | some a => evalAst T N E n a

/-- `ReprReader.__call__` (`_filter_readers.py:107-122`) for the content of the file. `Bands` is derived from `Filter`. -/
def reprRead (T : Texts α) (N : Numbers α K) (E : Env α K) (n : Nat) (s : List Char) : Ev (Obj α K) :=
  evalText T N E n s >>= fun r => match r with
    | .filter a => .ok (.filter a)
    | .bands a => .ok (.bands a)
    | _ => .error .assertionError

end Reading

end Filter
end Verif
