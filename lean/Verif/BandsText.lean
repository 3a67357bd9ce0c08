import Verif.Regex
import Verif.BandsTable
import Mathlib.Data.List.DropRight
import Mathlib.Algebra.Order.Monoid.Defs
import Mathlib.Algebra.Group.Basic

/-
The text of tabular files, in which bands filters are stored: the classes, that are derived from `TextTableWriter`
(`/repo/sumpf/_internal/_persistence/_filter_writers.py:160-379`), and the class `TableReader`
(`/repo/sumpf/_internal/_persistence/_filter_readers.py:170-239`).

Simplifications: only the decimal digits of ASCII are digits. `repr` and `float` are parameters, see `Floats`. The position of
a comment within the file is not considered.
-/

namespace Verif
namespace Filter
namespace BandsText

/-! ### the regular expressions -/

/-- `\d` -/
def digit (c : Char) : Bool := c.isDigit

/-- `[+-]` -/
def sign (c : Char) : Bool := c == '+' || c == '-'

/-- `[jJiI]` -/
def imag (c : Char) : Bool := c == 'j' || c == 'J' || c == 'i' || c == 'I'

/-- `[nN]` -/
def letterN (c : Char) : Bool := c == 'n' || c == 'N'

/-- a space -/
def space (c : Char) : Bool := c == ' '

/-- `\d+.?\d*e[+-]?\d+` (`_filter_readers.py:198`), where the dot is not escaped -/
def exponential : Re :=
  .seqs (.plus digit) [.opt (.chr fun _ => true), .star digit, .lit 'e', .opt (.chr sign), .plus digit]

/-- `\d+\.?\d*` (`_filter_readers.py:198`) -/
def decimal : Re := .seqs (.plus digit) [.opt (.lit '.'), .star digit]

/-- `unsigned` (`_filter_readers.py:198`) -/
def unsigned : Re := .alt exponential (.alt decimal (.seq (.lit '.') (.plus digit)))

/-- `real` (`_filter_readers.py:199`) -/
def real : Re := .seq (.opt (.lit '-')) unsigned

/-- `complex_parentheses` (`_filter_readers.py:200`) -/
def parentheses : Re :=
  .seqs (.lit '(') [real, .star space, .chr sign, .star space, unsigned, .chr imag, .lit ')']

/-- `complex_` (`_filter_readers.py:201`) -/
def complex : Re := .seqs real [.chr sign, unsigned, .chr imag]

/-- `gnuplot` (`_filter_readers.py:202`) -/
def gnuplot : Re := .seqs (.lit '{') [real, .star space, .lit ',', .star space, real, .lit '}']

/-- `[nN]a[nN]` -/
def nan3 : Re := .seqs (.chr letterN) [.lit 'a', .chr letterN]

/-- `nan` (`_filter_readers.py:203`) -/
def nan : Re := .alt nan3 (.seqs (.lit '{') [nan3, .star space, .lit ',', .star space, nan3, .lit '}'])

/-- the groups of the expression `mask` (`_filter_readers.py:204`) -/
inductive Kind where
  | gnuplot
  | parentheses
  | complex
  | real
  | nan
  deriving DecidableEq

/-- the alternatives of the expression `mask` (`_filter_readers.py:204`) -/
def mask : List (Kind × Re) :=
  [(.gnuplot, gnuplot), (.parentheses, parentheses), (.complex, complex), (.real, real), (.nan, nan)]

/-- the match at the begin of the text: its group and the remainder of the text -/
def first (s : List Char) : Option (Kind × List Char) :=
  mask.findSome? fun k => (Re.rests k.2 s).head?.map fun r => (k.1, r)

/-- `mask.finditer` with the maximum number of characters, that are examined -/
def scan : Nat → List Char → List (Kind × List Char)
  | 0, _ => []
  | _ + 1, [] => []
  | n + 1, c :: s => match first (c :: s) with
    | some (k, r) => (k, (c :: s).take ((c :: s).length - r.length)) :: scan n r
    | none => scan n s

/-- `mask.finditer(line)` (`_filter_readers.py:214`) -/
def tokens (line : List Char) : List (Kind × List Char) := scan line.length line

/-! ### numbers -/

/-- `repr` and `float` of python for finite floats; `none` is a `ValueError`. -/
structure Floats (F : Type) where
  repr : F → List Char
  parse : List Char → Option F

/-- the numbers, that are distinguished by the writers: floats, integers of numpy, which are not instances of python's `int`,
and complex numbers -/
inductive Number (F : Type) where
  | float (x : F)
  | integer (n : Nat)
  | complex (re im : F)

/-- the differences between the writers -/
structure Format where
  delimiter : List Char
  gnuplot : Bool
  imaginary : Char

/-- the `_delimiter` methods and the letters of the imaginary unit (`_filter_writers.py:206-379`) -/
def tabI : Format := ⟨['\t'], false, 'i'⟩
/-- see `tabI` -/
def tabJ : Format := ⟨['\t'], false, 'j'⟩
/-- see `tabI` -/
def pipeI : Format := ⟨[' ', '|', ' '], false, 'i'⟩
/-- see `tabI` -/
def pipeJ : Format := ⟨[' ', '|', ' '], false, 'j'⟩
/-- see `tabI` -/
def gnuplotTable : Format := ⟨['\t'], true, 'i'⟩

/-- all formats of text tables -/
def formats : List Format := [tabI, tabJ, pipeI, pipeJ, gnuplotTable]

section Write

variable {F : Type} [LinearOrder F] [AddCommGroup F]

/-- the `_number` methods (`_filter_writers.py:216-233, 252-269, 288-305, 324-341, 361-372`). `repr` of an integer of numpy
consists of its digits before numpy 2. -/
def Format.number (f : Format) (P : Floats F) : Option (Number F) → List Char
  | none => if f.gnuplot then "{nan, nan}".toList else "nan".toList
  | some (.float x) => P.repr x
  | some (.integer n) =>
    if f.gnuplot then '{' :: (toString n).toList ++ ",0}".toList
    else (toString n).toList ++ "+0.0".toList ++ [f.imaginary]
  | some (.complex re im) =>
    if f.gnuplot then '{' :: P.repr re ++ ',' :: P.repr im ++ ['}']
    else if im = 0 then P.repr re ++ "+0.0".toList ++ [f.imaginary]
    else if im > 0 then P.repr re ++ '+' :: P.repr im ++ [f.imaginary]
    else P.repr re ++ '-' :: P.repr (-im) ++ [f.imaginary]

/-- a line of the table with the line break (`_filter_writers.py:184-187`) -/
def Format.line (f : Format) (P : Floats F) (frequency : Option (Number F)) (ys : List (Option (Number F))) : List Char :=
  f.number P frequency ++ f.delimiter ++ f.delimiter.intercalate (ys.map (f.number P)) ++ ['\n']

/-- the lines of the file (`TextTableWriter._write`, `_filter_writers.py:169-187`). `labels` is the text with the labels in
the first line, which does not contain line breaks. -/
def Format.write (f : Format) (P : Floats F) (labels : List Char) (a : Channels F (Number F)) : Py (List (List Char)) :=
  tableRows a.transferFunctions >>= fun rows =>
    .ok (("# frequencies".toList ++ f.delimiter ++ labels ++ ['\n']) :: rows.map fun r => f.line P (r.1.map .float) r.2)

/-! ### reading -/

/-- the exceptions of the reader -/
inductive ReadExc where
  | valueError
  | osError
  | attributeError
  deriving DecidableEq

/-- `text.strip()` -/
def strip (s : List Char) : List Char := (s.dropWhile Char.isWhitespace).rdropWhile Char.isWhitespace

/-- removing comments (`_filter_readers.py:209`) -/
def clean (l : List Char) : List Char := strip ((l.takeWhile fun c => c != '#').takeWhile fun c => c != ';')

/-- `complex(text.rstrip("jJiI") + "j")` (`_filter_readers.py:231, 233`). `complex` splits the text in front of the sign of the
imaginary part. -/
def parseComplex (P : Floats F) (text : List Char) : Except ReadExc (Number F) :=
  let t := text.rdropWhile imag
  match (Re.rests real t).head? with
  | some (s :: im) => match P.parse (t.take (t.length - (im.length + 1))), P.parse im with
    | some re, some im => .ok (.complex re (if s = '-' then -im else im))
    | _, _ => .error .valueError
  | _ => .error .valueError

/-- the conversion of a value (`_filter_readers.py:228-236`) -/
def parseValue (P : Floats F) : Kind × List Char → Except ReadExc (Option (Number F))
  | (.real, t) => match P.parse t with
    | some x => .ok (some (.float x))
    | none => .error .valueError
  | (.complex, t) => (parseComplex P t).map some
  | (.parentheses, t) =>
    (parseComplex P (((t.dropWhile fun c => c == '(').rdropWhile fun c => c == ')').filter fun c => c != ' ')).map some
  | (.gnuplot, t) =>
    let g := (t.dropWhile fun c => c == '{').rdropWhile fun c => c == '}'
    match P.parse (strip (g.takeWhile fun c => c != ',')), P.parse (strip ((g.dropWhile fun c => c != ',').drop 1)) with
    | some re, some im => .ok (some (.complex re im))
    | _, _ => .error .valueError
  | (.nan, _) => .ok none

/-- a number of the line, the text of which has been interpreted -/
def toToken : Option (Number F) → Token F (Number F)
  | some y => .value y
  | none => .nan

/-- the numbers in a line of the file (`_filter_readers.py:208-236`); how they are added to the dictionaries, is modelled in
`textLines`. -/
def readLine (P : Floats F) (l : List Char) : Except ReadExc (List (Token F (Number F))) :=
  let line := clean l
  if line = [] then .ok []
  else if ¬ ((line.headD ' ').isDigit ∨ Re.rests nan line ≠ []) then .error .valueError
  else match tokens line with
    | [] => .error .attributeError
    | (.real, t) :: values => match P.parse t with
      | some f => (values.mapM (parseValue P)).map fun ys => .frequency f :: ys.map toToken
      | none => .error .valueError
    | (.nan, _) :: values => .ok (.nan :: values.map fun _ => .nan)
    | _ :: _ => .error .osError

end Write

end BandsText
end Filter
end Verif
