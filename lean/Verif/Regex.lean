import Mathlib.Data.List.Basic

/-
The part of python's regular expressions (module `re`, outside of the repository), that is used by
`/repo/sumpf/_internal/_persistence/_filter_readers.py`, with python's rules for backtracking: alternatives are tried from
left to right and repetitions are greedy.
-/

namespace Verif

/-- regular expressions -/
inductive Re where
  | chr (p : Char → Bool)
  | star (p : Char → Bool)
  | seq (a b : Re)
  | alt (a b : Re)
  | opt (a : Re)

namespace Re

/-- one or more characters -/
def plus (p : Char → Bool) : Re := .seq (.chr p) (.star p)

/-- one given character -/
def lit (c : Char) : Re := .chr fun d => d == c

/-- a sequence of expressions -/
def seqs : Re → List Re → Re
  | a, [] => a
  | a, b :: l => .seq a (seqs b l)

/-- the remainders of the text after the repetition of a class of characters, the longest match first -/
def starRests (p : Char → Bool) : List Char → List (List Char)
  | [] => [[]]
  | c :: s => if p c then starRests p s ++ [c :: s] else [c :: s]

/-- the remainders of the text after all possible matches at its begin, in the order, in which they are tried -/
def rests : Re → List Char → List (List Char)
  | .chr p, s => match s with
    | [] => []
    | c :: s => if p c then [s] else []
  | .star p, s => starRests p s
  | .seq a b, s => (rests a s).flatMap (rests b)
  | .alt a b, s => rests a s ++ rests b s
  | .opt a, s => rests a s ++ [s]

end Re
end Verif
