import Verif.Sweep
import Verif.Stft
import Verif.Text

/-
Model of `BaseExponentialSweep.harmonic_impulse_response` (`/repo/sumpf/_data/_signals/_sweep.py:69-81, 169-237`). The sliced
channels are a view of the given impulse response's samples, so the model returns these samples after the call, too.
-/

namespace Verif
namespace Harmonic

open Dft

/-- `numpy.linspace(0.0, stop, n)[k]` -/
noncomputable def axis (stop : ℝ) (n k : Nat) : ℝ := Sweep.linspace 0 stop n k

/-- the delayed signal in `apply_delay` (`_sweep.py:74-77`) -/
noncomputable def delayed (channels : Mat ℝ) (rate delay : ℝ) : Mat ℝ :=
  ⟨channels.rows, channels.cols, fun c n => Stft.irfftAt channels.cols (fun k =>
    dft channels.cols (channels.get c) k *
      Complex.exp (2 * Complex.I * (Real.pi : ℂ) * (axis (rate / 2) (channels.cols / 2 + 1) k : ℂ) * (delay : ℂ))) n⟩

/-- `apply_delay` (`_sweep.py:69-81`); the result is the array `out` after the call -/
noncomputable def applyDelay (channels : Mat ℝ) (rate delay : ℝ) (out : Mat ℝ) : Py (Mat ℝ) :=
  if channels.rows * channels.cols ≠ 0 then
    let signal := delayed channels rate delay
    out.assign .all (.range 0 signal.cols) (signal.slice .all (.range 0 out.cols))
  else out.assign .all .all channels

/-- the index of the sample behind the harmonic impulse response (`_sweep.py:197-200`) -/
noncomputable def stopIndex (s : Signal ℝ ℝ) (l : ℝ) (harmonic : Int) : Py Int :=
  if harmonic = 2 then .ok (-s.offset)
  else do
    let logarithm ← Sweep.log ((harmonic : ℝ) - 1)
    .ok (-⌊logarithm * l * s.rate⌋ - s.offset)

/-- the slice, that is cut out, and the remaining delay (`_sweep.py:188-203`) -/
noncomputable def cut (s : Signal ℝ ℝ) (l : ℝ) (harmonic : Int) : Py (PySlice × Option ℝ) :=
  if harmonic = 1 then .ok (.drop (-s.offset), none)
  else do
    let logarithm ← Sweep.log harmonic
    let delay := logarithm * l
    let shift := ⌈delay * s.rate⌉
    let start := -shift - s.offset
    let quotient ← Sweep.div shift s.rate
    let stop ← stopIndex s l harmonic
    .ok (if stop = 0 ∨ (start < 0 ∧ 0 ≤ stop) then .drop start else .range start stop, some (quotient - delay))

/-- the call of `apply_delay` for the zero padded channels, if there is a remaining delay (`_sweep.py:211-215`) -/
noncomputable def padded (new : Mat ℝ) (rate : ℝ) : Option ℝ → Py (Mat ℝ)
  | some delay => applyDelay new rate delay new
  | none => .ok new

/-- the harmonic impulse response's channels and the samples of the given impulse response after the call
(`_sweep.py:203-231`) -/
noncomputable def resized (mem : Nat → Nat → ℝ) (s : Signal ℝ ℝ) (slice : PySlice) (remaining : Option ℝ)
    (length : Option Nat) : Py (Mat ℝ × Mat ℝ) :=
  let channels := s.channels.slice .all slice
  match length with
  | some length =>
    if channels.cols < length then do
      let new ← (alloc mem channels.rows length).assign .all (.range 0 channels.cols) channels
      let new ← new.assign .all (.drop channels.cols) (.scalar 0)
      let new ← padded new s.rate remaining
      .ok (new, s.channels)
    else if channels.cols > channels.rows then
      match remaining with
      | some delay => do
        let new ← applyDelay channels s.rate delay (alloc mem channels.rows length)
        .ok (new, s.channels)
      | none => .ok (channels.slice .all (.range 0 length), s.channels)
    else .ok (channels, s.channels)
  | none =>
    match remaining with
    | some delay => do
      let new ← applyDelay channels s.rate delay channels
      let after ← s.channels.assign .all slice new
      .ok (new, after)
    | none => .ok (channels, s.channels)

/-- the result of the method and the samples of the given impulse response after the call -/
structure Outcome where
  result : Signal ℝ ℝ
  impulse : Mat ℝ

/-- `BaseExponentialSweep.harmonic_impulse_response` (`_sweep.py:169-237`); `l` is the attribute of the sweep -/
noncomputable def harmonicImpulseResponse (mem : Nat → Nat → ℝ) (l : ℝ) (s : Signal ℝ ℝ) (harmonic : Int)
    (length : Option Nat) : Py Outcome := do
  let (slice, remaining) ← cut s l harmonic
  let (channels, impulse) ← resized mem s slice remaining length
  let labels := s.labels.map fun label => label ++ " (" ++ String.ofList (Text.countingNumber harmonic) ++ " harmonic)"
  .ok ⟨Signal.new channels s.rate 0 (some labels), impulse⟩

end Harmonic
end Verif
