/-
`sumpf._internal._text` (`/repo/sumpf/_internal/_text.py`).
-/

namespace Verif
namespace Text

/-- `str(number)` for an integer, as a list of characters -/
def str (number : Int) : List Char :=
  if number < 0 then '-' :: Nat.toDigits 10 number.natAbs else Nat.toDigits 10 number.natAbs

/-- `s.endswith(suffix)` -/
def endsWith (s suffix : List Char) : Bool := suffix.isSuffixOf s

/-- `counting_number` (`_text.py:22-37`) -/
def countingNumber (number : Int) : List Char :=
  let s := str number
  if endsWith s ['1'] && !endsWith s ['1', '1'] then s ++ ['s', 't']
  else if endsWith s ['2'] && !endsWith s ['1', '2'] then s ++ ['n', 'd']
  else if endsWith s ['3'] && !endsWith s ['1', '3'] then s ++ ['r', 'd']
  else s ++ ['t', 'h']

end Text
end Verif
