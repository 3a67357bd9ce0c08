import Verif.Signal
import Verif.Spectrum
import Verif.Spectrogram
import Verif.Indexing
import Verif.Jack
import Verif.Text

/-
The short descriptions of data sets, filters and xruns (`__str__`), as lists of characters, with exact rational numbers
instead of floats.
-/

namespace Verif
namespace Describe

open Indexing

/-- python's format specifier `.2f`; the sign of a negative number is kept, even if the number is rounded to zero -/
def fixed2 (q : ℚ) : List Char :=
  let n := (pyRound (|q| * 100)).toNat
  (if q < 0 then ['-'] else []) ++ Nat.toDigits 10 (n / 100) ++
    ['.', Nat.digitChar (n % 100 / 10), Nat.digitChar (n % 10)]

/-- python's format specifier `x` for the result of `id` -/
def hex (n : Nat) : List Char := Nat.toDigits 16 n

/-- `<{self.__module__}.{self.__class__.__name__} object (` -/
def head (module cls : String) : List Char := '<' :: module.toList ++ ['.'] ++ cls.toList ++ " object (".toList

/-- ` at 0x{id(self):x}>` -/
def tail (address : Nat) : List Char := " at 0x".toList ++ hex address ++ ['>']

/-- `str(shape)` for the shape of a three-dimensional array -/
def shape (a b c : Nat) : List Char :=
  ['('] ++ Text.str a ++ [',', ' '] ++ Text.str b ++ [',', ' '] ++ Text.str c ++ [')']

/-- `Signal.__str__` (`_signal.py:122-133`) -/
def signal {α : Type} (module cls : String) (address : Nat) (s : Signal α ℚ) : List Char :=
  head module cls ++ "length: ".toList ++ Text.str s.length ++ ", sampling rate: ".toList ++ fixed2 s.rate ++
    ", offset: ".toList ++ Text.str s.offset ++ ", channel count: ".toList ++ Text.str s.count ++ [')'] ++ tail address

/-- `Spectrum.__str__` (`_spectrum.py:108-118`) -/
def spectrum {α : Type} (module cls : String) (address : Nat) (s : Spectrum α ℚ) : List Char :=
  head module cls ++ "length: ".toList ++ Text.str s.channels.cols ++ ", resolution: ".toList ++ fixed2 s.resolution ++
    ", channel count: ".toList ++ Text.str s.channels.rows ++ [')'] ++ tail address

/-- `Spectrogram.__str__` (`_spectrogram.py:128-139`) -/
def spectrogram {α : Type} (module cls : String) (address : Nat) (s : Spectrogram α ℚ) : List Char :=
  head module cls ++ "shape: ".toList ++ shape s.channels.d0 s.channels.d1 s.channels.d2 ++ ", resolution: ".toList ++
    fixed2 s.resolution ++ ", sampling rate: ".toList ++ fixed2 s.rate ++ ", offset: ".toList ++ Text.str s.offset ++ [','] ++
    tail address

/-- `Filter.__str__` (`_filter.py:167-175`), for a filter with the given number of channels -/
def filter (module cls : String) (address : Nat) (count : Nat) : List Char :=
  head module cls ++ "channel count: ".toList ++ Text.str count ++ [')'] ++ tail address

/-- `XRun.__str__` (`_jack.py:499-500`), where the parameter is `str` for a float -/
def xrun {T : Type} (str : T → List Char) (x : Jack.XRun T) : List Char :=
  "xrun of ".toList ++ str x.delay ++ "s, that corrupted samples ".toList ++ Text.str x.start ++ ['-'] ++ Text.str x.stop

end Describe
end Verif
