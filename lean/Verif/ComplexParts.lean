import Verif.SpectrogramMore
import Mathlib.Analysis.SpecialFunctions.Complex.Arg

/-
Model of the methods, which return parts of the complex samples of spectrums and spectrograms
(`_spectrum.py:274-303, 337-344`, `_spectrogram.py:255-284, 391-402`) and of the operators `abs` and `-`.
-/

namespace Verif

namespace Spectrum

/-- `spectrum.magnitude()` (`_spectrum.py:274-282`) -/
noncomputable def magnitude (s : Spectrum ℂ ℝ) : Mat ℝ := s.channels.map fun z => ‖z‖

/-- `spectrum.phase()` (`_spectrum.py:284-289`); `numpy.angle` is the argument in the interval from -π to π. -/
noncomputable def phase (s : Spectrum ℂ ℝ) : Mat ℝ := s.channels.map Complex.arg

/-- `spectrum.real()` (`_spectrum.py:291-296`) -/
def real (s : Spectrum ℂ ℝ) : Mat ℝ := s.channels.map Complex.re

/-- `spectrum.imaginary()` (`_spectrum.py:298-303`) -/
def imaginary (s : Spectrum ℂ ℝ) : Mat ℝ := s.channels.map Complex.im

/-- `abs(spectrum)` (`_spectrum.py:150-158`) -/
noncomputable def abs (s : Spectrum ℂ ℝ) : Spectrum ℝ ℝ := s.mapSamples fun z => ‖z‖

/-- `-spectrum` (`_spectrum.py:160-168`) -/
def neg (s : Spectrum ℂ ℝ) : Spectrum ℂ ℝ := s.mapSamples fun z => -z

/-- `spectrum.conjugate()` (`_spectrum.py:337-344`) -/
def conjugate (s : Spectrum ℂ ℝ) : Spectrum ℂ ℝ := s.mapSamples (starRingEnd ℂ)

end Spectrum

namespace Spectrogram

/-- `spectrogram.magnitude()` (`_spectrogram.py:255-263`) -/
noncomputable def magnitude (s : Spectrogram ℂ ℝ) : Cube ℝ := s.channels.map fun z => ‖z‖

/-- `spectrogram.phase()` (`_spectrogram.py:265-270`) -/
noncomputable def phase (s : Spectrogram ℂ ℝ) : Cube ℝ := s.channels.map Complex.arg

/-- `spectrogram.real()` (`_spectrogram.py:272-277`) -/
def real (s : Spectrogram ℂ ℝ) : Cube ℝ := s.channels.map Complex.re

/-- `spectrogram.imaginary()` (`_spectrogram.py:279-284`) -/
def imaginary (s : Spectrogram ℂ ℝ) : Cube ℝ := s.channels.map Complex.im

/-- `abs(spectrogram)` (`_spectrogram.py:177-187`) -/
noncomputable def abs (s : Spectrogram ℂ ℝ) : Spectrogram ℝ ℝ := s.mapSamples fun z => ‖z‖

/-- `-spectrogram` (`_spectrogram.py:189-200`) -/
def neg (s : Spectrogram ℂ ℝ) : Spectrogram ℂ ℝ := s.mapSamples fun z => -z

/-- `spectrogram.conjugate()` (`_spectrogram.py:391-402`) -/
def conjugate (s : Spectrogram ℂ ℝ) : Spectrogram ℂ ℝ := s.mapSamples (starRingEnd ℂ)

end Spectrogram
end Verif
