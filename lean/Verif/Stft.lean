import Verif.Blockwise
import Verif.Spectrogram

/-
Model of the short time Fourier transform of signals (`/repo/sumpf/_data/_signals/_signal.py:503-571`) and of the inverse
transform of spectrograms (`/repo/sumpf/_data/_spectrograms/_spectrogram.py:408-458`) in exact arithmetic. The functions
`scipy.signal.stft` and `scipy.signal.istft` are modelled by what they compute for the parameters that are used here.
-/

namespace Verif
namespace Stft

open Indexing Finset Dft

/-! ### The functions of scipy -/

/-- the number of zeros, that `scipy.signal.stft` adds before and behind the signal: `boundary="zeros"` or `None` -/
def border (W : Nat) (pad : Bool) : Nat := if pad then W / 2 else 0

/-- the number of zeros, that are added because of `padded=True`:
`(-(length - nperseg) % step) % nperseg`, where `length` includes the borders -/
def added (L W step : Nat) (pad : Bool) : Nat :=
  if pad then ((-((L : Int) + 2 * (W / 2 : Nat) - W)) % step % W).toNat else 0

/-- the number of segments -/
def frames (L W step : Nat) (pad : Bool) : Nat := (L + 2 * border W pad + added L W step pad - W) / step + 1

/-- the samples of a signal, which is extended with zeros -/
noncomputable def extended (x : Mat ℝ) (c : Nat) (n : Int) : ℝ := if 0 ≤ n ∧ n < x.cols then x.get c n.toNat else 0

/-- the sum of the window's samples -/
noncomputable def windowSum (w : Nat → ℝ) (W : Nat) : ℝ := ∑ j ∈ range W, w j

/-- `scipy.signal.stft(x, window=w, nperseg=W, noverlap=overlap, boundary="zeros" if pad else None, padded=pad)[2]`, where
`w` is an array with `W` samples. Simplification: the result for arrays without samples is not modelled. -/
noncomputable def scipyStft (x : Mat ℝ) (w : Nat → ℝ) (W : Nat) (overlap : Int) (pad : Bool) : Py (Cube ℂ) :=
  if W = 0 ∨ x.cols < W ∨ (W : Int) ≤ overlap then .error .valueError
  else
    let step := ((W : Int) - overlap).toNat
    .ok
      { d0 := x.rows
        d1 := W / 2 + 1
        d2 := frames x.cols W step pad
        get := fun c k m => ((1 / |windowSum w W| : ℝ) : ℂ) *
          dft W (fun j => extended x c ((m * step : Nat) - (border W pad : Nat) + j) * w j) k }

/-- the spectrum, that is transformed back by `numpy.fft.irfft(X, n=N)` with `N // 2 + 1` given bins -/
noncomputable def symmetric (N : Nat) (X : Nat → ℂ) (k : Nat) : ℂ :=
  if k = 0 ∨ 2 * k = N then ((X k).re : ℂ) else if 2 * k < N then X k else (starRingEnd ℂ) (X (N - k))

/-- `numpy.fft.irfft(X, n=N)[n]` -/
noncomputable def irfftAt (N : Nat) (X : Nat → ℂ) (n : Nat) : ℝ :=
  ((1 / (N : ℂ)) * ∑ k ∈ range N, symmetric N X k * omega N ^ ((k : ℤ) * n)).re

/-- the sum of the values `f m j`, for which the `j`-th sample of the segment `m` is the sample `n` -/
noncomputable def overlapAdd (f : Nat → Nat → ℝ) (W step F n : Nat) : ℝ :=
  ∑ m ∈ range F, if m * step ≤ n ∧ n < m * step + W then f m (n - m * step) else 0

/-- the removal of the zeros, that have been added before and behind the signal, in `scipy.signal.istft` -/
def crop (W : Nat) (pad : Bool) (A : Mat ℝ) : Mat ℝ :=
  if pad then A.slice .all (.range (W / 2 : Nat) (-(W / 2 : Nat))) else A

/-- `scipy.signal.istft(X, window=w, nperseg=W, noverlap=overlap, boundary=pad)[1]`. Simplification: the result for arrays
without segments is not modelled. -/
noncomputable def scipyIstft (X : Cube ℂ) (w : Nat → ℝ) (W : Nat) (overlap : Int) (pad : Bool) : Py (Mat ℝ) :=
  let N := if W = 2 * (X.d1 - 1) + 1 then W else 2 * (X.d1 - 1)
  if W = 0 ∨ N < W ∨ (W : Int) ≤ overlap then .error .valueError
  else
    let step := ((W : Int) - overlap).toNat
    let length := W + (X.d2 - 1) * step
    let x := crop W pad ⟨X.d0, length, fun c n => overlapAdd (fun m j =>
      irfftAt N (fun k => X.get c k m) j * windowSum w W * w j) W step X.d2 n⟩
    let norm := crop W pad ⟨1, length, fun _ n => overlapAdd (fun _ j => w j * w j) W step X.d2 n⟩
    .ok ⟨x.rows, x.cols, fun c n => x.get c n / if 1 / 10 ^ 10 < norm.get 0 n then norm.get 0 n else 1⟩

/-! ### The methods -/

/-- the results of a loop over the channels of the data and those of the window, as one array
(`_signal.py:546-554`, `_spectrogram.py:444-451`). Simplification: the array without channels has three dimensions. -/
def stackCubes {α : Type} [Inhabited α] (l : List (Cube α)) (d1 d2 : Nat) : Cube α :=
  ⟨l.length, d1, d2, fun c k m => match l[c]? with | some A => A.get 0 k m | none => default⟩

/-- the same for two-dimensional arrays -/
def stackMats {α : Type} [Inhabited α] (l : List (Mat α)) (cols : Nat) : Mat α :=
  ⟨l.length, cols, fun c n => match l[c]? with | some A => A.get 0 n | none => default⟩

/-- the call of `scipy.signal.stft` (`_signal.py:537-554`) -/
noncomputable def transformed (s : Signal ℝ ℝ) (w : Mat ℝ) (overlap : Int) (pad : Bool) : Py (Cube ℂ) :=
  if w.rows = 1 then scipyStft s.channels (w.get 0) w.cols overlap pad
  else do
    let l ← (List.range (min s.count w.rows)).mapM fun c => scipyStft (s.channels.row c) (w.get c) w.cols overlap pad
    .ok (stackCubes l (w.cols / 2 + 1) (frames s.length w.cols ((w.cols : Int) - overlap).toNat pad))

/-- the compensation of the offset's remainder (`_signal.py:560-563`) -/
noncomputable def compensation (W : Nat) (resolution rate : ℝ) (remainder : Int) (k : Nat) : ℂ :=
  Complex.exp (Fourier.clinspace (((W : ℂ) - 1) * (resolution : ℂ)) (W / 2 + 1) k *
    (-Complex.I * 2 * (Real.pi : ℂ) * (((remainder : ℝ) / rate : ℝ) : ℂ)))

/-- `Signal.short_time_fourier_transform` (`_signal.py:503-571`) after the call of `get_window`; an overlap, that is not
smaller than the length of the window, leads to an exception in the function of scipy. -/
noncomputable def stftWith (s window : Signal ℝ ℝ) (overlap : Idx) (pad : Bool) : Option (Py (Spectrogram ℂ ℝ)) := do
  let W := window.length
  let overlap ← index W overlap
  return do
    let step := (W : Int) - overlap
    let channels ← transformed s window.channels overlap pad
    let resolution := s.rate / W
    let offset := pyRound ((s.offset : ℚ) / step)
    let remainder := s.offset - offset * step
    if remainder = 0 then .ok (Spectrogram.new channels resolution (s.rate / step) offset (some s.labels))
    else if s.rate = 0 then .error .zeroDivisionError
    else
      let compensated : Cube ℂ := ⟨channels.d0, channels.d1, channels.d2, fun c k m =>
        channels.get c k m * compensation W resolution s.rate remainder k⟩
      .ok (Spectrogram.new compensated resolution (s.rate / step) offset (some s.labels))

/-- `Signal.short_time_fourier_transform` (`_signal.py:503-571`) -/
noncomputable def stft (mem : Nat → Nat → ℝ) (s : Signal ℝ ℝ) (window : Blockwise.WindowArg) (overlap : Idx) (pad : Bool) :
    Option (Py (Spectrogram ℂ ℝ)) := do
  let w ← Blockwise.getWindow mem window overlap false s.rate
  match w with
  | .error e => return .error e
  | .ok w => stftWith s w overlap pad

/-- the call of `scipy.signal.istft` (`_spectrogram.py:436-451`) -/
noncomputable def inverted (s : Spectrogram ℂ ℝ) (w : Mat ℝ) (overlap : Int) (pad : Bool) : Py (Mat ℝ) :=
  if w.rows = 1 then scipyIstft s.channels (w.get 0) w.cols overlap pad
  else do
    let l ← (List.range (min s.count w.rows)).mapM fun c => scipyIstft (s.channels.row c) (w.get c) w.cols overlap pad
    .ok (stackMats l ((l.headD ⟨0, 0, fun _ _ => 0⟩).cols))

/-- `Spectrogram.inverse_short_time_fourier_transform` (`_spectrogram.py:408-458`) after the call of `get_window` -/
noncomputable def istftWith (s : Spectrogram ℂ ℝ) (window : Signal ℝ ℝ) (overlap : Idx) (pad : Bool) :
    Option (Py (Signal ℝ ℝ)) := do
  let W := window.length
  let overlap ← index W overlap
  let step := (W : Int) - overlap
  return do
    let channels ← inverted s window.channels overlap pad
    .ok (Signal.new channels (s.rate * step) (s.offset * step) (some s.labels))

/-- `Spectrogram.inverse_short_time_fourier_transform` (`_spectrogram.py:408-458`) -/
noncomputable def istft (mem : Nat → Nat → ℝ) (s : Spectrogram ℂ ℝ) (window : Blockwise.WindowArg) (overlap : Idx)
    (pad : Bool) : Option (Py (Signal ℝ ℝ)) := do
  let w ← Blockwise.getWindow mem window overlap false s.rate
  match w with
  | .error e => return .error e
  | .ok w => istftWith s w overlap pad

end Stft
end Verif
