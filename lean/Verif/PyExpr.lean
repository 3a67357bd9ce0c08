import Mathlib.Data.List.Basic

/-
The texts of python expressions: `repr` of strings and sequences, and the part of the syntax of expressions, that is needed
by the function `eval` in `ReprReader` (`/repo/sumpf/_internal/_persistence/_filter_readers.py:97-122`): names, attributes,
calls, numbers, strings, signs, sums, differences, tuples, lists and dictionaries.

Simplifications: names consist of letters, digits and underscores of ASCII. Numbers must have a digit before the decimal
separator. Comments, operators with more than one character and other kinds of strings are not modelled. The limits of
python for the depth of nested expressions are not modelled.
-/

namespace Verif
namespace PyExpr

/-! ### the tokens -/

/-- a token -/
inductive Tok where
  | name (x : List Char)
  | num (t : List Char)
  | imag (t : List Char)
  | str (s : List Char)
  | sym (c : Char)
  deriving DecidableEq

/-- the first character of a name -/
def nameStart (c : Char) : Bool := c.isAlpha || c == '_'

/-- the other characters of a name -/
def nameChar (c : Char) : Bool := c.isAlphanum || c == '_'

/-- the value of a hexadecimal digit -/
def hexValue (c : Char) : Option Nat :=
  if c.isDigit then some (c.toNat - 48)
  else if 'a'.toNat ≤ c.toNat ∧ c.toNat ≤ 'f'.toNat then some (c.toNat - 87)
  else if 'A'.toNat ≤ c.toNat ∧ c.toNat ≤ 'F'.toNat then some (c.toNat - 55)
  else none

/-- the value of a sequence of hexadecimal digits -/
def hexNumber : Nat → List Char → Option Nat
  | k, [] => some k
  | k, c :: s => match hexValue c with
    | none => none
    | some d => hexNumber (16 * k + d) s

/-- an escape sequence: the number of its hexadecimal digits or the character -/
def escapeKind (c : Char) : Option (Nat ⊕ Char) :=
  if c = 'n' then some (.inr '\n')
  else if c = 'r' then some (.inr '\r')
  else if c = 't' then some (.inr '\t')
  else if c = '\\' ∨ c = '\'' ∨ c = '"' then some (.inr c)
  else if c = 'x' then some (.inl 2)
  else if c = 'u' then some (.inl 4)
  else if c = 'U' then some (.inl 8)
  else none

/-- the content of a string literal, that has been opened with the character `q`, and the remainder of the text. The first
parameter limits the number of characters, that are examined. -/
def lexString (q : Char) : Nat → List Char → Option (List Char × List Char)
  | 0, _ => none
  | _ + 1, [] => none
  | n + 1, c :: s =>
    if c = q then some ([], s)
    else if c = '\n' then none
    else if c = '\\' then
      match s with
      | [] => none
      | k :: s => match escapeKind k with
        | none => none
        | some (.inr d) => (lexString q n s).map fun p => (d :: p.1, p.2)
        | some (.inl m) => if s.length < m then none
          else match hexNumber 0 (s.take m) with
          | none => none
          | some v => (lexString q n (s.drop m)).map fun p => (Char.ofNat v :: p.1, p.2)
    else (lexString q n s).map fun p => (c :: p.1, p.2)

/-- the digits after a decimal separator -/
def lexFraction : List Char → List Char × List Char
  | '.' :: s => ('.' :: s.takeWhile Char.isDigit, s.dropWhile Char.isDigit)
  | s => ([], s)

/-- the exponent of a number -/
def lexExponent : List Char → List Char × List Char
  | e :: s =>
    if e = 'e' ∨ e = 'E' then
      match s with
      | c :: s =>
        if c.isDigit then (e :: c :: s.takeWhile Char.isDigit, s.dropWhile Char.isDigit)
        else if (c = '+' ∨ c = '-') ∧ (s.head?.map Char.isDigit).getD false then
          (e :: c :: s.takeWhile Char.isDigit, s.dropWhile Char.isDigit)
        else ([], e :: c :: s)
      | [] => ([], [e])
    else ([], e :: s)
  | [] => ([], [])

/-- the text of a number without sign and the remainder of the text -/
def lexNumber (s : List Char) : List Char × List Char :=
  let a := s.takeWhile Char.isDigit
  let f := lexFraction (s.dropWhile Char.isDigit)
  let e := lexExponent f.2
  (a ++ f.1 ++ e.1, e.2)

/-- the first token of a text, unless the text begins with white space, and the remainder of the text; `none` is a
`SyntaxError` -/
def lexStep : List Char → Option (Option Tok × List Char)
  | [] => none
  | c :: s =>
    if c = ' ' ∨ c = '\n' then some (none, s)
    else if nameStart c then some (some (.name (c :: s.takeWhile nameChar)), s.dropWhile nameChar)
    else if c.isDigit then
      let p := lexNumber (c :: s)
      match p.2 with
      | 'j' :: r => some (some (.imag p.1), r)
      | r => some (some (.num p.1), r)
    else if c = '\'' ∨ c = '"' then (lexString c (s.length + 1) s).map fun p => (some (.str p.1), p.2)
    else some (some (.sym c), s)

/-- the tokens of a text; the first parameter limits the number of tokens -/
def lexN : Nat → List Char → Option (List Tok)
  | _, [] => some []
  | 0, _ :: _ => none
  | n + 1, c :: s => match lexStep (c :: s) with
    | none => none
    | some (t, r) => (lexN n r).map (t.toList ++ ·)

/-- the tokens of a text -/
def lex (s : List Char) : Option (List Tok) := lexN s.length s

/-! ### the expressions -/

/-- an expression -/
inductive Ast where
  | name (x : List Char)
  | num (t : List Char)
  | imag (t : List Char)
  | str (s : List Char)
  | attr (a : Ast) (x : List Char)
  | neg (a : Ast)
  | add (a b : Ast)
  | sub (a b : Ast)
  | tuple (l : List Ast)
  | list (l : List Ast)
  | dict (l : List (Ast × Ast))
  | call (f : Ast) (args : List (Option (List Char) × Ast))

mutual

/-- a sum or a difference; the first parameter of the functions limits the depth of the recursion -/
def parseExpr : Nat → List Tok → Option (Ast × List Tok)
  | 0, _ => none
  | n + 1, ts => match parseUnary n ts with
    | none => none
    | some (a, r) => parseSum n a r

/-- the operands of a sum or a difference after the first one -/
def parseSum : Nat → Ast → List Tok → Option (Ast × List Tok)
  | 0, _, _ => none
  | n + 1, a, .sym '+' :: r => match parseUnary n r with
    | none => none
    | some (b, r) => parseSum n (.add a b) r
  | n + 1, a, .sym '-' :: r => match parseUnary n r with
    | none => none
    | some (b, r) => parseSum n (.sub a b) r
  | _ + 1, a, r => some (a, r)

/-- an expression with a sign -/
def parseUnary : Nat → List Tok → Option (Ast × List Tok)
  | 0, _ => none
  | n + 1, .sym '-' :: r => match parseUnary n r with
    | none => none
    | some (a, r) => some (.neg a, r)
  | n + 1, r => match parseAtom n r with
    | none => none
    | some (a, r) => parseTrailers n a r

/-- attributes and calls -/
def parseTrailers : Nat → Ast → List Tok → Option (Ast × List Tok)
  | 0, _, _ => none
  | n + 1, a, .sym '.' :: .name x :: r => parseTrailers n (.attr a x) r
  | n + 1, a, .sym '(' :: r => match parseArgs n r with
    | none => none
    | some (l, r) => parseTrailers n (.call a l) r
  | _ + 1, a, r => some (a, r)

/-- an expression without operators -/
def parseAtom : Nat → List Tok → Option (Ast × List Tok)
  | 0, _ => none
  | _ + 1, .name x :: r => some (.name x, r)
  | _ + 1, .num t :: r => some (.num t, r)
  | _ + 1, .imag t :: r => some (.imag t, r)
  | _ + 1, .str s :: r => some (.str s, r)
  | _ + 1, .sym '(' :: .sym ')' :: r => some (.tuple [], r)
  | n + 1, .sym '(' :: r => match parseExpr n r with
    | some (a, .sym ')' :: r) => some (a, r)
    | some (a, .sym ',' :: r) => match parseElements n ')' r with
      | none => none
      | some (l, r) => some (.tuple (a :: l), r)
    | _ => none
  | n + 1, .sym '[' :: r => match parseElements n ']' r with
    | none => none
    | some (l, r) => some (.list l, r)
  | n + 1, .sym '{' :: r => match parseItems n r with
    | none => none
    | some (l, r) => some (.dict l, r)
  | _ + 1, _ => none

/-- expressions, that are separated by commas, until the closing parenthesis or bracket -/
def parseElements : Nat → Char → List Tok → Option (List Ast × List Tok)
  | 0, _, _ => none
  | n + 1, c, ts => match ts with
    | [] => none
    | t :: r =>
      if t = .sym c then some ([], r)
      else match parseExpr n (t :: r) with
      | some (a, u :: r) =>
        if u = .sym c then some ([a], r)
        else if u = .sym ',' then match parseElements n c r with
          | none => none
          | some (l, r) => some (a :: l, r)
        else none
      | _ => none

/-- the items of a dictionary -/
def parseItems : Nat → List Tok → Option (List (Ast × Ast) × List Tok)
  | 0, _ => none
  | n + 1, ts => match ts with
    | [] => none
    | t :: r =>
      if t = .sym '}' then some ([], r)
      else match parseExpr n (t :: r) with
      | some (k, u :: r) =>
        if u = .sym ':' then match parseExpr n r with
          | some (v, u :: r) =>
            if u = .sym '}' then some ([(k, v)], r)
            else if u = .sym ',' then match parseItems n r with
              | none => none
              | some (l, r) => some ((k, v) :: l, r)
            else none
          | _ => none
        else none
      | _ => none

/-- the arguments of a call -/
def parseArgs : Nat → List Tok → Option (List (Option (List Char) × Ast) × List Tok)
  | 0, _ => none
  | _ + 1, .sym ')' :: r => some ([], r)
  | n + 1, .name k :: .sym '=' :: r => match parseExpr n r with
    | some (a, u :: r) =>
      if u = .sym ')' then some ([(some k, a)], r)
      else if u = .sym ',' then match parseArgs n r with
        | none => none
        | some (l, r) => some ((some k, a) :: l, r)
      else none
    | _ => none
  | n + 1, r => match parseExpr n r with
    | some (a, u :: r) =>
      if u = .sym ')' then some ([(none, a)], r)
      else if u = .sym ',' then match parseArgs n r with
        | none => none
        | some (l, r) => some ((none, a) :: l, r)
      else none
    | _ => none

end

/-- the expression of a complete text -/
def parse (s : List Char) : Option Ast :=
  match lex s with
  | none => none
  | some ts => match parseExpr (3 * ts.length + 3) ts with
    | some (a, []) => some a
    | _ => none

/-! ### `repr` -/

/-- a hexadecimal digit -/
def hexDigit (d : Nat) : Char := if d < 10 then Char.ofNat (48 + d) else Char.ofNat (87 + d)

/-- the last `m` hexadecimal digits of a number -/
def hexDigits : Nat → Nat → List Char
  | 0, _ => []
  | m + 1, k => hexDigits m (k / 16) ++ [hexDigit (k % 16)]

/-- a character in the `repr` of a string, that is enclosed in the character `q`. The parameter is the method
`isprintable`. -/
def reprChar (printable : Char → Bool) (q c : Char) : List Char :=
  if c = q ∨ c = '\\' then ['\\', c]
  else if c = '\t' then ['\\', 't']
  else if c = '\n' then ['\\', 'n']
  else if c = '\r' then ['\\', 'r']
  else if printable c then [c]
  else if c.toNat < 256 then '\\' :: 'x' :: hexDigits 2 c.toNat
  else if c.toNat < 65536 then '\\' :: 'u' :: hexDigits 4 c.toNat
  else '\\' :: 'U' :: hexDigits 8 c.toNat

/-- the character, that encloses the `repr` of a string -/
def quote (s : List Char) : Char := if '\'' ∈ s ∧ '"' ∉ s then '"' else '\''

/-- `repr` of a string -/
def reprStr (printable : Char → Bool) (s : List Char) : List Char :=
  quote s :: s.flatMap (reprChar printable (quote s)) ++ [quote s]

/-- `separator.join(l)` -/
def join (separator : List Char) : List (List Char) → List Char
  | [] => []
  | [x] => x
  | x :: l => x ++ separator ++ join separator l

/-- `repr` of a list, where the parameter contains the texts of the elements -/
def reprList (l : List (List Char)) : List Char := '[' :: join [',', ' '] l ++ [']']

/-- `repr` of a tuple, where the parameter contains the texts of the elements -/
def tupleText : List (List Char) → List Char
  | [x] => '(' :: x ++ [',', ')']
  | l => '(' :: join [',', ' '] l ++ [')']

/-- `repr` of a dictionary, where the parameter contains the texts of the keys and the values -/
def reprDict (l : List (List Char × List Char)) : List Char :=
  '{' :: join [',', ' '] (l.map fun p => p.1 ++ ':' :: ' ' :: p.2) ++ ['}']

/-- `repr` of a boolean -/
def reprBool (b : Bool) : List Char := if b then ['T', 'r', 'u', 'e'] else ['F', 'a', 'l', 's', 'e']

/-- `repr` of an integer number -/
def reprInt : Int → List Char
  | .ofNat n => Nat.toDigits 10 n
  | .negSucc n => '-' :: Nat.toDigits 10 (n + 1)

end PyExpr
end Verif
