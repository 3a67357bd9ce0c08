import Verif.Filter
import Verif.PyDict

/-
The class `Bands` (`/repo/sumpf/_data/_filters/_bands.py`). Integer numbers and flags of the `Interpolations`
enumeration are the same here.
-/

namespace Verif
namespace Filter

open Interpolation (Mode)

variable {α K : Type}

/-- a parameter, that is a sequence or a single value -/
inductive BandsParam (β : Type) where
  | single (x : β)
  | sequence (l : List β)

/-- `interpolations` and `extrapolations` as sequences (`_bands.py:63-70`) -/
def BandsParam.fill {β : Type} (n : Nat) : BandsParam β → Py (List β)
  | .single x => .ok (List.replicate n x)
  | .sequence l =>
    if l.length < n then
      match l.getLast? with
      | none => .error .indexError
      | some x => .ok (l ++ List.replicate (n - l.length) x)
    else .ok l

/-- `labels` as a sequence (`_bands.py:71-74`) -/
def BandsParam.fillLabels (n : Nat) : BandsParam String → List String
  | .single x => List.replicate n x
  | .sequence l => if l.length < n then l ++ List.replicate (n - l.length) (l.headD "Bands") else l

/-- an instance of `Bands` -/
structure BandsFilter (α K : Type) where
  filter : Channels α K
  bands : List (Dict α K)
  interpolations : List Mode
  extrapolations : List Mode

section New

variable [LinearOrder α]

/-- `numpy.array(sorted(b.keys()))` (`_bands.py:78`) -/
def sortedKeys (b : Dict α K) : List α := b.keys.insertionSort (· ≤ ·)

/-- `numpy.array([b[x] for x in fs])` (`_bands.py:80`) -/
def valuesAt (b : Dict α K) (fs : List α) : List K := fs.filterMap b.get?

/-- the transfer function of a channel (`_bands.py:78-82`) -/
def bandsTerm (b : Dict α K) (interpolation extrapolation : Mode) : Term α K :=
  mkBands (sortedKeys b) (valuesAt b (sortedKeys b)) interpolation extrapolation

/-- the loop over `zip(bands, interpolations, extrapolations)` (`_bands.py:77-83`) -/
def bandsTerms : List (Dict α K) → List Mode → List Mode → List (Term α K)
  | b :: bs, i :: is, e :: es => bandsTerm b i e :: bandsTerms bs is es
  | _, _, _ => []

/-- `Bands.__init__` (`_bands.py:37-91`) for a sequence of dictionaries; a single dictionary is a sequence with one
element -/
def BandsFilter.new (bands : List (Dict α K)) (interpolations extrapolations : BandsParam Mode) (labels : BandsParam String) :
    Py (BandsFilter α K) :=
  interpolations.fill bands.length >>= fun is => extrapolations.fill bands.length >>= fun es =>
    let tfs := bandsTerms bands is es
    .ok ⟨Channels.new tfs (labels.fillLabels bands.length), bands, is.take tfs.length, es.take tfs.length⟩

end New

section Decibels

variable [Field K] [DecidableEq K] [LinearOrder α]

/-- the functions, with which decibels are computed: `numpy.log10`, where `none` is a result, that is not finite, and
the powers of ten -/
structure Decibels (K : Type) where
  log10 : K → Option K
  pow10 : K → K

/-- the conversion of the values of a dictionary with a function, that may raise exceptions -/
def convert (g : K → Py K) : Dict α K → Py (Dict α K)
  | [] => .ok []
  | p :: d => g p.2 >>= fun y => convert g d >>= fun r => .ok ((p.1, y) :: r)

/-- `factor * numpy.log10(y / reference)` (`_bands.py:140`). Logarithms, that are not finite, are no values here, so they
are modelled as an exception. -/
def toDecibels (D : Decibels K) (reference factor y : K) : Py K :=
  if reference = 0 then .error .zeroDivisionError
  else match D.log10 (y / reference) with
    | none => .error .valueError
    | some x => .ok (factor * x)

/-- `reference * 10.0 ** (y / factor)` (`_bands.py:159`) -/
def fromDecibels (D : Decibels K) (reference factor y : K) : Py K :=
  if factor = 0 then .error .zeroDivisionError else .ok (reference * D.pow10 (y / factor))

/-- the creation of a filter with converted values in `Bands.to_db` and `Bands.from_db` (`_bands.py:140-143,159-162`) -/
def BandsFilter.converted (a : BandsFilter α K) (g : K → Py K) : Py (BandsFilter α K) :=
  a.bands.mapM (convert g) >>= fun bands =>
    BandsFilter.new bands (.sequence a.interpolations) (.sequence a.extrapolations) (.sequence a.filter.labels)

/-- `Bands.to_db` (`_bands.py:121-143`) -/
def BandsFilter.toDb (D : Decibels K) (a : BandsFilter α K) (reference factor : K) : Py (BandsFilter α K) :=
  a.converted (toDecibels D reference factor)

/-- `Bands.from_db` (`_bands.py:145-162`) -/
def BandsFilter.fromDb (D : Decibels K) (a : BandsFilter α K) (reference factor : K) : Py (BandsFilter α K) :=
  a.converted (fromDecibels D reference factor)

end Decibels

end Filter
end Verif
