import Verif.Signal

/-
`sumpf.Fade` (`/repo/sumpf/_data/_signals/_fade.py`).
-/

namespace Verif
namespace Fade

open Indexing

variable {α R : Type}

/-- `function(n)`: the window function is a parameter. It is described by the value of the sample `i` of the window
with the length `n`. For negative lengths, numpy's window functions return an empty array. -/
def window (function : Nat → Nat → α) (n : Int) : Mat α := ⟨1, n.toNat, fun _ i => function n.toNat i⟩

/-- an element-wise operator on two one-dimensional arrays (with one row in the model) -/
def binary (f : α → α → α) (A B : Mat α) : Py (Mat α) :=
  if A.cols = B.cols then .ok ⟨1, A.cols, fun _ j => f (A.get 0 j) (B.get 0 j)⟩
  else if A.cols = 1 then .ok ⟨1, B.cols, fun _ j => f (A.get 0 0) (B.get 0 j)⟩
  else if B.cols = 1 then .ok ⟨1, A.cols, fun _ j => f (A.get 0 j) (B.get 0 0)⟩
  else .error .valueError

/-- the part of `fade_in_out` after the slopes have been computed (`_fade.py:164-178`) -/
def placeInOut [Zero α] [One α] [Mul α] (fadeIn fadeOut : Mat α) (riseStop fallStart fallLength : Int)
    (out : Mat α) : Py (Mat α) :=
  if riseStop ≤ fallStart then do
    let out ← out.assign .all (.range 0 riseStop) fadeIn
    let out ← out.assign .all (.range riseStop fallStart) (.scalar 1)
    out.assign .all (.drop fallStart) fadeOut
  else
    let fallStop := fallStart + fallLength
    (out.assign .all (.range 0 fallStart) (fadeIn.slice .all (.range 0 fallStart))) >>= fun out =>
    if fallStop ≥ out.cols then do
      let overlapLength := riseStop - fallStart
      let product ← binary (· * ·) (fadeIn.slice .all (.range fallStart riseStop))
        (fadeOut.slice .all (.range 0 overlapLength))
      let out ← out.assign .all (.range fallStart riseStop) product
      out.assign .all (.drop riseStop) (fadeOut.slice .all (.drop overlapLength))
    else do
      let product ← binary (· * ·) (fadeIn.slice .all (.range fallStart fallStop)) fadeOut
      let out ← out.assign .all (.range fallStart fallStop) product
      out.assign .all (.drop fallStop) (.scalar 0)

/-- the second half of a window (`function(2 * n)[n:]`) -/
def lastHalf (function : Nat → Nat → α) (n : Int) : Mat α := (window function (2 * n)).slice .all (.drop n)

/-- the first half of a window (`function(2 * n)[0:n]`) -/
def firstHalf (function : Nat → Nat → α) (n : Int) : Mat α := (window function (2 * n)).slice .all (.range 0 n)

/-- `fade_in_out` (`_fade.py:147-178`); `out` is a view of the part of the channel -/
def fadeInOut [Zero α] [One α] [Mul α] (function : Nat → Nat → α) (riseStop fallStart fallLength : Int)
    (out : Mat α) : Py (Mat α) :=
  if riseStop = fallStart then
    if riseStop = fallLength then out.assign .all .all (window function out.cols)
    else do
      let out ← out.assign .all (.range 0 riseStop) (firstHalf function riseStop)
      out.assign .all (.drop fallStart) (lastHalf function fallLength)
  else
    if riseStop = fallLength then
      let fade := window function (riseStop + fallLength)
      placeInOut (fade.slice .all (.range 0 riseStop)) (fade.slice .all (.drop riseStop))
        riseStop fallStart fallLength out
    else placeInOut (firstHalf function riseStop) (lastHalf function fallLength) riseStop fallStart fallLength out

/-- the part of `fade_out_in` after the slopes have been computed (`_fade.py:190-204`) -/
def placeOutIn [Zero α] [One α] [Add α] (fadeOut fadeIn : Mat α) (fallStop riseStart riseLength : Int)
    (out : Mat α) : Py (Mat α) :=
  if fallStop ≤ riseStart then do
    let out ← out.assign .all (.range 0 fallStop) fadeOut
    let out ← out.assign .all (.range fallStop riseStart) (.scalar 0)
    out.assign .all (.drop riseStart) fadeIn
  else
    let riseStop := riseStart + riseLength
    (out.assign .all (.range 0 riseStart) (fadeOut.slice .all (.range 0 riseStart))) >>= fun out =>
    if riseStop ≥ out.cols then do
      let overlapLength := fallStop - riseStart
      let sum ← binary (· + ·) (fadeOut.slice .all (.range riseStart fallStop))
        (fadeIn.slice .all (.range 0 overlapLength))
      let out ← out.assign .all (.range riseStart fallStop) sum
      out.assign .all (.drop fallStop) (fadeIn.slice .all (.drop overlapLength))
    else do
      let sum ← binary (· + ·) (fadeOut.slice .all (.range riseStart riseStop)) fadeIn
      let out ← out.assign .all (.range riseStart riseStop) sum
      out.assign .all (.drop riseStop) ((fadeOut.slice .all (.drop riseStop)).map (· + 1))

/-- `fade_out_in` (`_fade.py:181-204`) -/
def fadeOutIn [Zero α] [One α] [Add α] (function : Nat → Nat → α) (fallStop riseStart riseLength : Int)
    (out : Mat α) : Py (Mat α) :=
  if fallStop = riseLength then
    let fade := window function (fallStop + riseLength)
    placeOutIn (fade.slice .all (.drop fallStop)) (fade.slice .all (.range 0 riseLength))
      fallStop riseStart riseLength out
  else placeOutIn (lastHalf function fallStop) (firstHalf function riseLength) fallStop riseStart riseLength out

/-- the parameters `rise_interval` and `fall_interval` -/
inductive Interval where
  | none
  | single (i : Idx)
  | pair (i j : Idx)

/-- parsing of the rise interval (`_fade.py:88-93`); the outer `Option` is `none`, if `index` does not terminate -/
def parseRise (length : Nat) : Interval → Option (Option (Int × Int))
  | .none => some none
  | .pair i j => do return some (← index length i, ← index length j)
  | .single i => do return some (0, ← index length i)

/-- parsing of the fall interval (`_fade.py:94-99`) -/
def parseFall (length : Nat) : Interval → Option (Option (Int × Int))
  | .none => some none
  | .pair i j => do return some (← index length i, ← index length j)
  | .single i => do return some (← index length i, (length : Int))

/-- the samples and the label of the fade signal, after the intervals have been parsed (`_fade.py:100-139`) -/
def samples [Zero α] [One α] [Add α] [Mul α] (function : Nat → Nat → α) (rise fall : Option (Int × Int))
    (channel : Mat α) : Py (Mat α × String) :=
  match rise, fall with
  | none, none => do
    let channel ← channel.assign .all .all (.scalar 1)
    return (channel, "Fade")
  | none, some (a, b) => do
    let channel ← channel.assign .all (.range 0 a) (.scalar 1)
    let channel ← channel.assign .all (.range a b) (lastHalf function (b - a))
    let channel ← channel.assign .all (.drop b) (.scalar 0)
    return (channel, "Fade out")
  | some (a, b), none => do
    let channel ← channel.assign .all (.range 0 a) (.scalar 0)
    let channel ← channel.assign .all (.range a b) (firstHalf function (b - a))
    let channel ← channel.assign .all (.drop b) (.scalar 1)
    return (channel, "Fade in")
  | some (r0, r1), some (f0, f1) =>
    if r0 < f0 ∨ (r0 = r1 ∧ r1 = f0 ∧ f0 ≠ f1) then do
      let start := min r0 f0
      let stop := max r1 f1
      let channel ← channel.assign .all (.range 0 start) (.scalar 0)
      let out ← fadeInOut function (r1 - start) (f0 - start) (f1 - f0) (channel.slice .all (.range start stop))
      let channel ← channel.assign .all (.range start stop) out
      let channel ← channel.assign .all (.drop stop) (.scalar 0)
      return (channel, "Fade in-out")
    else do
      let start := min f0 r0
      let stop := max f1 r1
      let channel ← channel.assign .all (.range 0 start) (.scalar 1)
      let out ← fadeOutIn function (f1 - f0) (r0 - f0) (r1 - r0) (channel.slice .all (.range start stop))
      let channel ← channel.assign .all (.range start stop) out
      let channel ← channel.assign .all (.drop stop) (.scalar 1)
      return (channel, "Fade out-in")

/-- `Fade.__init__` (`_fade.py:84-141`); `none`: an index can not be computed, because the loop in `index` does not
terminate -/
def new [Zero α] [One α] [Add α] [Mul α] (mem : Nat → Nat → α) (function : Nat → Nat → α) (rise fall : Interval)
    (rate : R) (length : Nat) : Option (Py (Signal α R)) := do
  let rise ← parseRise length rise
  let fall ← parseFall length fall
  return do
    let (channel, label) ← samples function rise fall (alloc mem 1 length)
    return Signal.new channel rate 0 (some [label])

end Fade
end Verif
