import Verif.Indexing

/-
The sampling rates in audio files: `/repo/sumpf/_internal/_persistence/_signal_writers.py:262, 346-404`. The sampling rates of
signals are exact rational numbers.
-/

namespace Verif
namespace AudioFile

/-- the formats of the files, that are written by the class `SoundfileWriter` (`_signal_writers.py:346-366`), without the
formats of the samples -/
inductive Container where
  | wav
  | aiff
  | flac
  | ogg
  deriving DecidableEq

/-- `SoundfileWriter.__int_greater_zero` (`_signal_writers.py:385-389`) and the frame rate of the class `WaveWriter`
(`_signal_writers.py:262`) -/
def intGreaterZero (rate : ℚ) : ℤ := max 1 (pyRound rate)

/-- `SoundfileWriter.__flac` (`_signal_writers.py:391-398`). `round(sampling_rate, -1)` rounds to multiples of ten. -/
def flacRate (rate : ℚ) : ℤ :=
  if rate < 131071 / 2 then max 1 (pyRound rate) else min (10 * pyRound (rate / 10)) 655350

/-- `SoundfileWriter.__vorbis` (`_signal_writers.py:400-404`) -/
def vorbisRate (rate : ℚ) : ℤ := max 1000 (min (pyRound rate) 200000)

/-- the `samplerate` parameter of `soundfile.write` (`_signal_writers.py:346-370, 381`) -/
def fileRate : Container → ℚ → ℤ
  | .wav => intGreaterZero
  | .aiff => intGreaterZero
  | .flac => flacRate
  | .ogg => vorbisRate

end AudioFile
end Verif
