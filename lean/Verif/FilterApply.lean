import Verif.Filter
import Verif.Fourier
import Verif.SpectrogramMixed

/-
Model of applying filters to spectrums, signals and spectrograms: the last branches of `Filter.__mul__`
(`sumpf/_data/_filters/_base/_filter.py:322-333`), in exact arithmetic. Where a transfer function has no finite value, its
sample is `none`.
-/

namespace Verif
namespace FilterApply

open Verif.Filter

/-- `numpy.multiply` for one element -/
def multiply (x y : Option ℂ) : Option ℂ := x.bind fun x => y.map fun y => x * y

/-- `Filter.spectrum` (`_filter.py:406-420`) -/
noncomputable def sampled (E : Env ℝ ℂ) (memS : ℂ) (a : Channels ℝ ℂ) (resolution : ℝ) (length : Nat) :
    Spectrum (Option ℂ) ℝ :=
  Spectrum.new (a.spectrum E memS resolution length) resolution (some a.labels)

/-- the samples of a spectrum as operands -/
def liftSpectrum (o : Spectrum ℂ ℝ) : Spectrum (Option ℂ) ℝ := ⟨o.channels.map some, o.resolution, o.labels⟩

/-- `filter * spectrum` (`_filter.py:322-325`, `_sampled_data.py:115-117`) -/
noncomputable def applySpectrum (E : Env ℝ ℂ) (memS : ℂ) (mem : Nat → Nat → Option ℂ) (a : Channels ℝ ℂ)
    (o : Spectrum ℂ ℝ) : Py (Spectrum (Option ℂ) ℝ) :=
  let filter := sampled E memS a o.resolution o.length
  Spectrum.algebra mem multiply none "Product" filter (liftSpectrum o)

/-- `numpy.fft.irfft(A, n)` as in `Fourier.irfftN`, where all samples of a channel are `nan`, if one of its bins is not
finite -/
noncomputable def irfftN (A : Mat (Option ℂ)) : Py (Mat (Option ℝ)) := do
  let samples ← Fourier.irfftN (A.map fun x => x.getD 0)
  return ⟨samples.rows, samples.cols, fun i n =>
    if (List.range A.cols).all fun k => (A.get i k).isSome then some (samples.get i n) else none⟩

/-- `Spectrum.inverse_fourier_transform` (`_spectrum.py:350-367`) -/
noncomputable def inverseFourierTransform (mem : Nat → Nat → Option ℝ) (s : Spectrum (Option ℂ) ℝ) :
    Py (Signal (Option ℝ) ℝ) :=
  if s.length = 0 then .ok (Signal.new ⟨s.count, 0, mem⟩ 0 0 (some s.labels))
  else do
    let length := max 1 ((s.length - 1) * 2)
    let rate := s.resolution * length
    let samples ← irfftN s.channels
    let channels ← (alloc mem s.count length).assign .all .all samples
    .ok (Signal.new channels rate 0 (some s.labels))

/-- the contents of the memory, that is allocated while a signal is filtered -/
structure Memory where
  transform : Nat → Nat → ℂ
  s : ℂ
  product : Nat → Nat → Option ℂ
  signal : Nat → Nat → Option ℝ

/-- `filter * signal` (`_filter.py:326-329`) -/
noncomputable def applySignal (E : Env ℝ ℂ) (mem : Memory) (a : Channels ℝ ℂ) (o : Signal ℝ ℝ) :
    Py (Signal (Option ℝ) ℝ) := do
  let spectrum ← Fourier.fourierTransform mem.transform o
  let filtered ← applySpectrum E mem.s mem.product a spectrum
  inverseFourierTransform mem.signal filtered

/-- the samples of a spectrogram as operands -/
def liftSpectrogram (o : Spectrogram ℂ ℝ) : Spectrogram (Option ℂ) ℝ :=
  ⟨⟨o.channels.d0, o.channels.d1, o.channels.d2, fun c k t => some (o.channels.get c k t)⟩, o.resolution, o.rate, o.offset,
    o.labels⟩

/-- `filter * spectrogram` (`_filter.py:330-333`) -/
noncomputable def applySpectrogram (E : Env ℝ ℂ) (memS : ℂ) (mem : Nat → Nat → Nat → Option ℂ) (a : Channels ℝ ℂ)
    (o : Spectrogram ℂ ℝ) : Py (Spectrogram (Option ℂ) ℝ) :=
  let filter := sampled E memS a o.resolution o.freqs
  Spectrogram.algebraSpectrum mem multiply none "Product" (liftSpectrogram o) filter

end FilterApply
end Verif
