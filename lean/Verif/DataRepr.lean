import Verif.TermRepr
import Verif.Spectrum
import Verif.Spectrogram

/-
The text representation of signals, spectrums and spectrograms (the methods `__repr__` in `_signal.py:135-148`,
`_spectrum.py:120-132` and `_spectrogram.py:141-155`) and its evaluation with `eval`, as it is documented in the classes.

The expressions in the parameters are evaluated as in `TermRepr.lean`, which has the same simplifications for the texts of numbers
(finite floats without the negative zero, the texts of NumPy's numbers before version 2.0). Additionally, the sampling rate and
the resolution are floats.
-/

namespace Verif
namespace DataRepr

open Filter (Texts Numbers Env Obj Ev EvalExc reprComplex joinBreaks reprArg reprLabels evalAst evalArgs keyword)
open PyExpr

/-- a NumPy array with its shape and its elements in row-major order -/
structure Nd (K : Type) where
  shape : List Nat
  elements : List K

variable {α K : Type} [Field α] [LinearOrder α] [Field K] [DecidableEq K]

section Writing

/-- the texts of the elements of an array with the data type `float64` or `complex128` (`formatter={"all": repr}`) -/
def elementText (T : Texts α) (N : Numbers α K) (complexType : Bool) (z : K) : List Char :=
  if complexType then reprComplex T (N.re z) (N.im z) else T.repr (N.re z)

/-- one dimension of the result of `numpy.array2string(..., separator=",", ...).replace("\n", "").replace(" ", "")` -/
def listText (l : List (List Char)) : List Char := '[' :: (joinBreaks (fun _ => false) 0 l ++ [']'])

/-- `numpy.array2string(A, separator=",", formatter={"all": repr}, threshold=A.size).replace("\n", "").replace(" ", "")` for two
dimensions. NumPy writes all arrays without elements as `[]`. -/
def matText (text : K → List Char) (A : Mat K) : List Char :=
  if A.rows * A.cols = 0 then ['[', ']']
  else listText ((List.range A.rows).map fun c => listText ((List.range A.cols).map fun t => text (A.get c t)))

/-- see `matText`, for three dimensions -/
def cubeText (text : K → List Char) (A : Cube K) : List Char :=
  if A.d0 * A.d1 * A.d2 = 0 then ['[', ']']
  else listText ((List.range A.d0).map fun c => listText ((List.range A.d1).map fun f =>
    listText ((List.range A.d2).map fun t => text (A.get c f t))))

/-- `f"array({channels})"` -/
def arrayText (channels : List Char) : List Char := "array".toList ++ '(' :: (channels ++ [')'])

/-- a call with keyword arguments, e.g. `f"{self.__class__.__name__}(channels=array({channels}), labels={self._labels})"` -/
def callText (cls : String) (args : List (String × List Char)) : List Char :=
  cls.toList ++ '(' :: (join [',', ' '] (args.map reprArg) ++ [')'])

/-- `Signal.__repr__` (`_signal.py:135-148`), where `cls` is the name of the class and `complexType` says, if the data type of
the channels is complex -/
def reprSignal (T : Texts α) (N : Numbers α K) (complexType : Bool) (cls : String) (s : Signal K α) : List Char :=
  callText cls [("channels", arrayText (matText (elementText T N complexType) s.channels)),
    ("sampling_rate", T.repr s.rate), ("offset", reprInt s.offset), ("labels", reprLabels T s.labels)]

/-- `Spectrum.__repr__` (`_spectrum.py:120-132`), see `reprSignal` -/
def reprSpectrum (T : Texts α) (N : Numbers α K) (complexType : Bool) (cls : String) (s : Spectrum K α) : List Char :=
  callText cls [("channels", arrayText (matText (elementText T N complexType) s.channels)),
    ("resolution", T.repr s.resolution), ("labels", reprLabels T s.labels)]

/-- `Spectrogram.__repr__` (`_spectrogram.py:141-155`), see `reprSignal` -/
def reprSpectrogram (T : Texts α) (N : Numbers α K) (complexType : Bool) (cls : String) (s : Spectrogram K α) : List Char :=
  callText cls [("channels", arrayText (cubeText (elementText T N complexType) s.channels)),
    ("resolution", T.repr s.resolution), ("sampling_rate", T.repr s.rate), ("offset", reprInt s.offset),
    ("labels", reprLabels T s.labels)]

end Writing

section Reading

mutual

/-- the shape of the array, that `numpy.array` creates from nested sequences of numbers; `none`: the shape is not homogeneous -/
def shape : Obj α K → Option (List Nat)
  | .int _ => some []
  | .real _ => some []
  | .complex _ => some []
  | .seq l => shapes l >>= fun ss => match ss with
    | [] => some [0]
    | s :: r => if r.all (· = s) then some ((s :: r).length :: s) else none
  | _ => none

/-- the shapes of the elements of a sequence -/
def shapes : List (Obj α K) → Option (List (List Nat))
  | [] => some []
  | a :: l => shape a >>= fun s => shapes l >>= fun ss => some (s :: ss)

end

mutual

/-- the elements of the array, that `numpy.array` creates from nested sequences of numbers -/
def elements (N : Numbers α K) : Obj α K → Ev (List K)
  | .seq l => elementsList N l
  | a => a.toComplex N >>= fun z => .ok [z]

/-- see `elements` -/
def elementsList (N : Numbers α K) : List (Obj α K) → Ev (List K)
  | [] => .ok []
  | a :: l => elements N a >>= fun x => elementsList N l >>= fun y => .ok (x ++ y)

end

/-- an array as parameter of a constructor. The difference between sequences and arrays is not modelled. -/
def toNd (N : Numbers α K) (a : Obj α K) : Ev (Nd K) :=
  match shape a with
  | none => .error (.py .valueError)
  | some s => elements N a >>= fun l => .ok ⟨s, l⟩

/-- an integer number as parameter of a constructor. Other types are not modelled. -/
def toInt : Obj α K → Ev Int
  | .int n => .ok n
  | _ => .error (.py .typeError)

/-- the labels as parameter of a constructor -/
def toLabels (a : Obj α K) : Ev (List String) := a.toList >>= fun l => l.mapM Obj.toStr

/-- the results of an evaluation: an instance of a class with its attributes or another object -/
inductive Data (α K : Type) where
  | signal (channels : Nd K) (rate : α) (offset : Int) (labels : List String)
  | spectrum (channels : Nd K) (resolution : α) (labels : List String)
  | spectrogram (channels : Nd K) (resolution rate : α) (offset : Int) (labels : List String)
  | other (a : Obj α K)

/-- `SampledData.__init__` (`_sampled_data.py:26-33`): the labels. `len(channels)` raises a `TypeError` for arrays without
dimensions. -/
def sampledData (channels : Nd K) (labels : List String) : Ev (List String) :=
  match channels.shape with
  | [] => .error (.py .typeError)
  | n :: _ => .ok (sanitizeLabels (some labels) n)

/-- `Signal.__init__` (`_signal.py:82-93`) -/
def newSignal (channels : Nd K) (rate : α) (offset : Int) (labels : List String) : Ev (Data α K) :=
  sampledData channels labels >>= fun labels => .ok (.signal channels rate offset labels)

/-- `Spectrum.__init__` (`_spectrum.py:79-86`) -/
def newSpectrum (channels : Nd K) (resolution : α) (labels : List String) : Ev (Data α K) :=
  sampledData channels labels >>= fun labels => .ok (.spectrum channels resolution labels)

/-- `Spectrogram.__init__` (`_spectrogram.py:80-100`): `channels.shape[1]` raises an `IndexError` for arrays with one dimension. -/
def newSpectrogram (channels : Nd K) (resolution rate : α) (offset : Int) (labels : List String) : Ev (Data α K) :=
  sampledData channels labels >>= fun labels => match channels.shape with
    | _ :: _ :: _ => .ok (.spectrogram channels resolution rate offset labels)
    | _ => .error (.py .indexError)

variable [Module α K]

/-- `eval` of an expression, when the names of the classes and `array` are defined -/
def evalData (T : Texts α) (N : Numbers α K) (E : Env α K) (n : Nat) : Ast → Ev (Data α K)
  | .call (.name cls) args =>
    if cls = "Signal".toList then evalArgs T N E n args >>= fun args =>
      keyword "channels" args >>= fun c => toNd N c >>= fun c =>
      keyword "sampling_rate" args >>= fun r => r.toReal >>= fun r =>
      keyword "offset" args >>= fun o => toInt o >>= fun o =>
      keyword "labels" args >>= fun l => toLabels l >>= fun l => newSignal c r o l
    else if cls = "Spectrum".toList then evalArgs T N E n args >>= fun args =>
      keyword "channels" args >>= fun c => toNd N c >>= fun c =>
      keyword "resolution" args >>= fun r => r.toReal >>= fun r =>
      keyword "labels" args >>= fun l => toLabels l >>= fun l => newSpectrum c r l
    else if cls = "Spectrogram".toList then evalArgs T N E n args >>= fun args =>
      keyword "channels" args >>= fun c => toNd N c >>= fun c =>
      keyword "resolution" args >>= fun d => d.toReal >>= fun d =>
      keyword "sampling_rate" args >>= fun r => r.toReal >>= fun r =>
      keyword "offset" args >>= fun o => toInt o >>= fun o =>
      keyword "labels" args >>= fun l => toLabels l >>= fun l => newSpectrogram c d r o l
    else evalAst T N E n (.call (.name cls) args) >>= fun a => .ok (.other a)
  | a => evalAst T N E n a >>= fun a => .ok (.other a)

/-- `eval` of a text -/
def dataEval (T : Texts α) (N : Numbers α K) (E : Env α K) (n : Nat) (s : List Char) : Ev (Data α K) :=
  match parse s with
  | none => .error .syntaxError
  | some a => evalData T N E n a

end Reading

end DataRepr
end Verif
