import Verif.Persistence
import Verif.Container
import Verif.AudioFile

/-
Model of the classes of readers and writers for signals, spectrums and spectrograms: which file formats and extensions they
are registered for and in which order (`sumpf/_internal/_persistence/_signal_readers.py`, `_signal_writers.py`,
`_spectrum_readers.py`, `_spectrum_writers.py`, `_spectrogram_readers.py` and `_spectrogram_writers.py`).

The algorithms, that select a reader or a writer, are those of `Verif.Persistence`, the contents of the files those of
`Verif.Table`, `Verif.Container` and `Verif.AudioFile`.

Simplifications: A file is identified with its content and its name. Files, which do not have the structure, that is
expected by a reader, cause a `ValueError` (the actual exceptions are irrelevant, because `read_file` catches all of them).
The library `soundfile` is not a part of the repository, it is a parameter.
-/

namespace Verif
namespace Files

open Persistence

/-! ### signals -/

/-- `Formats` without `AUTO` (`_signal_writers.py:33-69`) -/
inductive SignalFormat where
  | textCsv | textJson
  | numpyNpz | numpyNpy | pythonPickle
  | wavUint8 | wavInt16 | wavInt24 | wavInt32 | wavFloat32 | wavFloat64 | wavUlaw | wavAlaw
  | aiffUint8 | aiffInt8 | aiffInt16 | aiffInt24 | aiffInt32 | aiffFloat32 | aiffFloat64 | aiffUlaw | aiffAlaw
  | flacInt8 | flacInt16 | flacInt24
  | oggVorbis
  deriving DecidableEq, Repr

/-- `_aiff` (`_signal_writers.py:73`) -/
def aiffFormats : List SignalFormat :=
  [.aiffFloat32, .aiffInt32, .aiffInt24, .aiffInt16, .aiffFloat64, .aiffInt8, .aiffUint8, .aiffUlaw, .aiffAlaw]

/-- `file_extension_mapping` (`_signal_writers.py:75-87`) -/
def signalMapping : Dict String (List SignalFormat) :=
  [(".csv", [.textCsv]),
   (".json", [.textJson]),
   (".js", [.textJson]),
   (".npz", [.numpyNpz]),
   (".npy", [.numpyNpy]),
   (".pickle", [.pythonPickle]),
   (".wav", [.wavFloat32, .wavInt32, .wavInt24, .wavInt16, .wavFloat64, .wavUint8, .wavUlaw, .wavAlaw]),
   (".aiff", aiffFormats),
   (".aifc", aiffFormats),
   (".aif", aiffFormats),
   (".flac", [.flacInt24, .flacInt16, .flacInt8]),
   (".ogg", [.oggVorbis]),
   (".oga", [.oggVorbis])]

/-- the content of an NPZ file with a signal (`_signal_writers.py:196-200`) -/
structure SignalArrays where
  channels : Mat ℚ
  rate : ℚ
  offset : Int
  labels : List String

/-- the content of a file; `X` are the contents of the files, that are written by the library `soundfile` -/
inductive SignalFile (X : Type) where
  | csv (lines : List (List (Table.Cell ℚ)))
  | json (dictionary : Container.SignalDict ℚ)
  | npy (array : Table.NpyArray ℚ)
  | npz (arrays : SignalArrays)
  | pickle (signal : Signal ℚ ℚ)
  | wave (file : Audio.File)
  | aifc (file : Audio.File)
  | soundfile (content : X)

/-- the library `soundfile`: whether it can be imported, the function `soundfile.write` with the parameters for a format
and the class `soundfile.SoundFile` with the creation of the signal (`_signal_readers.py:279-286`) -/
structure Soundfile (X : Type) where
  available : Bool
  write : SignalFormat → Signal ℚ ℚ → Py X
  read : SignalFile X → String → Py (Signal ℚ ℚ)

/-- the formats of `WaveWriter` and `AifcWriter` (`_signal_writers.py:303-308, 322-327`) -/
def audioFormat : SignalFormat → Option Audio.Format
  | .wavInt32 => some .wavInt32
  | .wavInt16 => some .wavInt16
  | .wavUint8 => some .wavUint8
  | .aiffInt32 => some .aiffInt32
  | .aiffInt16 => some .aiffInt16
  | .aiffInt8 => some .aiffInt8
  | _ => none

/-- `StandardLibraryWriter.__call__` (`_signal_writers.py:247-287`) for a format of its sub-classes. Instances for other formats
are not created. -/
def standardWrite {X : Type} (mem : Nat → ℚ) (f : SignalFormat) (s : Signal ℚ ℚ) : Py (SignalFile X) :=
  match audioFormat f with
  | none => .error .attributeError
  | some a => (Audio.write mem a s).map fun file => match a.module' with
    | .wave => .wave file
    | .aifc => .aifc file

/-- the sub-classes of `Writer` in the order of their definition (`_signal_writers.py:130-383`) -/
def signalWriters {X : Type} (mem : Nat → ℚ) (sf : Soundfile X) :
    List (WriterClass SignalFormat (Signal ℚ ℚ) String (SignalFile X)) :=
  [⟨[.textCsv], fun _ => .ok (), fun _ s _ => (Table.signalCsvWrite s).map .csv⟩,
   ⟨[.textJson], fun _ => .ok (), fun _ s _ => .ok (.json (Container.signalAsDict s))⟩,
   ⟨[.numpyNpy], fun _ => .ok (), fun _ s _ => (Table.signalNpyWrite s).map .npy⟩,
   ⟨[.numpyNpz], fun _ => .ok (), fun _ s _ => .ok (.npz ⟨s.channels, s.rate, s.offset, s.labels⟩)⟩,
   ⟨[.pythonPickle], fun _ => .ok (), fun _ s _ => .ok (.pickle s)⟩,
   ⟨[.wavInt32, .wavInt16, .wavUint8], fun _ => .ok (), fun f s _ => standardWrite mem f s⟩,
   ⟨[.aiffInt32, .aiffInt16, .aiffInt8], fun _ => .ok (), fun f s _ => standardWrite mem f s⟩,
   ⟨[.wavUint8, .wavInt16, .wavInt24, .wavInt32, .wavFloat32, .wavFloat64, .wavUlaw, .wavAlaw,
     .aiffUint8, .aiffInt8, .aiffInt16, .aiffInt24, .aiffInt32, .aiffFloat32, .aiffFloat64, .aiffUlaw, .aiffAlaw,
     .flacInt8, .flacInt16, .flacInt24,
     .oggVorbis],
    fun _ => if sf.available then .ok () else .error .importError, fun f s _ => (sf.write f s).map .soundfile⟩]

/-- the sub-classes of `Reader` in the order of their definition (`_signal_readers.py:96-286`), `mem` is the content of
uninitialised arrays. A file is given by its content and its name. -/
def signalReaders {X : Type} (mem : Nat → Nat → ℚ) (sf : Soundfile X) :
    List (ReaderClass (SignalFile X × String) (Signal ℚ ℚ)) :=
  [⟨[".csv"], .ok (), fun p => match p.1 with
      | .csv lines => Table.signalCsvRead mem lines
      | _ => .error .valueError⟩,
   ⟨[".json", ".js"], .ok (), fun p => match p.1 with
      | .json dictionary => Container.signalFromDict mem dictionary
      | _ => .error .valueError⟩,
   ⟨[".npz", ".npy"], .ok (), fun p => match p.1 with
      | .npz a => (Container.PySignal.throughNpz mem ⟨a.channels, .number a.rate, .number a.offset, a.labels⟩).map
          Container.PySignal.signal
      | .npy array => Table.signalNpyRead mem p.2 array
      | _ => .error .valueError⟩,
   ⟨[".pickle"], .ok (), fun p => match p.1 with
      | .pickle signal => .ok signal
      | _ => .error .valueError⟩,
   ⟨[".wav"], .ok (), fun p => match p.1 with
      | .wave file => Audio.read mem .wave p.2 file
      | _ => .error .valueError⟩,
   ⟨[".wav"], .ok (), fun p => match p.1 with
      | .aifc file => Audio.read mem .aifc p.2 file
      | _ => .error .valueError⟩,
   ⟨[".wav", ".aiff", ".aifc", ".aif", ".flac", ".ogg", ".oga"], if sf.available then .ok () else .error .importError,
    fun p => sf.read p.1 p.2⟩]

/-- `Signal.save` (`_signal.py:820-837`), `none` is the format `AUTO` -/
def saveSignal {X : Type} (mem : Nat → ℚ) (sf : Soundfile X) (state : SaveState SignalFormat) (format : Option SignalFormat)
    (extension : String) (s : Signal ℚ ℚ) (name : String) : Py (SignalFile X) × SaveState SignalFormat :=
  save (signalWriters mem sf) signalMapping state format extension s name

/-- `Signal.load` (`_signal.py:808-818`) -/
def loadSignal {X : Type} (mem : Nat → Nat → ℚ) (sf : Soundfile X) (readers : Dict String (List Nat)) (extension : String)
    (file : SignalFile X) (name : String) : Py (Signal ℚ ℚ) × Dict String (List Nat) :=
  readFile (signalReaders mem sf) readers extension (file, name)

/-! ### spectrums -/

/-- `Formats` without `AUTO` (`_spectrum_writers.py:29-39`) -/
inductive SpectrumFormat where
  | textCsv | textJson | numpyNpz | numpyNpy | pythonPickle
  deriving DecidableEq, Repr

/-- `file_extension_mapping` (`_spectrum_writers.py:43-48`) -/
def spectrumMapping : Dict String (List SpectrumFormat) :=
  [(".csv", [.textCsv]),
   (".json", [.textJson]),
   (".js", [.textJson]),
   (".npz", [.numpyNpz]),
   (".npy", [.numpyNpy]),
   (".pickle", [.pythonPickle])]

/-- the content of an NPZ file with a spectrum (`_spectrum_writers.py:160-163`) -/
structure SpectrumArrays where
  channels : Mat ℂ
  resolution : ℚ
  labels : List String

/-- the content of a file -/
inductive SpectrumFile where
  | csv (lines : List (List (Table.Cell ℂ)))
  | json (dictionary : Container.SpectrumDict)
  | npy (array : Table.NpyArray ℂ)
  | npz (arrays : SpectrumArrays)
  | pickle (spectrum : Spectrum ℂ ℚ)

/-- the sub-classes of `Writer` in the order of their definition (`_spectrum_writers.py:94-185`) -/
noncomputable def spectrumWriters : List (WriterClass SpectrumFormat (Spectrum ℂ ℚ) String SpectrumFile) :=
  [⟨[.textCsv], fun _ => .ok (), fun _ s _ => .ok (.csv (Table.spectrumCsvWrite s))⟩,
   ⟨[.textJson], fun _ => .ok (), fun _ s _ => .ok (.json (Container.spectrumAsDict s))⟩,
   ⟨[.numpyNpy], fun _ => .ok (), fun _ s _ => .ok (.npy (Table.spectrumNpyWrite s))⟩,
   ⟨[.numpyNpz], fun _ => .ok (), fun _ s _ => .ok (.npz ⟨s.channels, s.resolution, s.labels⟩)⟩,
   ⟨[.pythonPickle], fun _ => .ok (), fun _ s _ => .ok (.pickle s)⟩]

/-- the sub-classes of `Reader` in the order of their definition (`_spectrum_readers.py:101-209`). The order of complex numbers
is NumPy's one. -/
noncomputable def spectrumReaders [LinearOrder ℂ] (mem : Nat → Nat → ℂ) :
    List (ReaderClass (SpectrumFile × String) (Spectrum ℂ ℚ)) :=
  [⟨[".csv"], .ok (), fun p => match p.1 with
      | .csv lines => Table.spectrumCsvRead mem p.2 lines
      | _ => .error .valueError⟩,
   ⟨[".json", ".js"], .ok (), fun p => match p.1 with
      | .json dictionary => Container.spectrumFromJson mem dictionary
      | _ => .error .valueError⟩,
   ⟨[".npz", ".npy"], .ok (), fun p => match p.1 with
      | .npz a => (Container.PySpectrum.throughNpz mem ⟨a.channels, .number a.resolution, a.labels⟩).map
          fun s => ⟨s.channels, s.resolution.value, s.labels⟩
      | .npy array => Table.spectrumNpyRead mem p.2 array
      | _ => .error .valueError⟩,
   ⟨[".pickle"], .ok (), fun p => match p.1 with
      | .pickle spectrum => .ok spectrum
      | _ => .error .valueError⟩]

/-- `Spectrum.save` (`_spectrum.py:404-420`), `none` is the format `AUTO` -/
noncomputable def saveSpectrum (state : SaveState SpectrumFormat) (format : Option SpectrumFormat) (extension : String)
    (s : Spectrum ℂ ℚ) (name : String) : Py SpectrumFile × SaveState SpectrumFormat :=
  save spectrumWriters spectrumMapping state format extension s name

/-- `Spectrum.load` (`_spectrum.py:394-402`) -/
noncomputable def loadSpectrum [LinearOrder ℂ] (mem : Nat → Nat → ℂ) (readers : Dict String (List Nat)) (extension : String)
    (file : SpectrumFile) (name : String) : Py (Spectrum ℂ ℚ) × Dict String (List Nat) :=
  readFile (spectrumReaders mem) readers extension (file, name)

/-! ### spectrograms -/

/-- `Formats` without `AUTO` (`_spectrogram_writers.py:28-36`) -/
inductive SpectrogramFormat where
  | textJson | numpyNpz | pythonPickle
  deriving DecidableEq, Repr

/-- `file_extension_mapping` (`_spectrogram_writers.py:40-43`) -/
def spectrogramMapping : Dict String (List SpectrogramFormat) :=
  [(".json", [.textJson]),
   (".js", [.textJson]),
   (".npz", [.numpyNpz]),
   (".pickle", [.pythonPickle])]

/-- the content of an NPZ file with a spectrogram (`_spectrogram_writers.py:119-124`) -/
structure SpectrogramArrays where
  channels : Cube ℂ
  resolution : ℚ
  rate : ℚ
  offset : Int
  labels : List String

/-- the content of a file -/
inductive SpectrogramFile where
  | json (dictionary : Container.SpectrogramDict)
  | npz (arrays : SpectrogramArrays)
  | pickle (spectrogram : Spectrogram ℂ ℚ)

/-- the sub-classes of `Writer` in the order of their definition (`_spectrogram_writers.py:94-147`) -/
noncomputable def spectrogramWriters : List (WriterClass SpectrogramFormat (Spectrogram ℂ ℚ) String SpectrogramFile) :=
  [⟨[.textJson], fun _ => .ok (), fun _ s _ => .ok (.json (Container.spectrogramAsDict s))⟩,
   ⟨[.numpyNpz], fun _ => .ok (), fun _ s _ => .ok (.npz ⟨s.channels, s.resolution, s.rate, s.offset, s.labels⟩)⟩,
   ⟨[.pythonPickle], fun _ => .ok (), fun _ s _ => .ok (.pickle s)⟩]

/-- the sub-classes of `Reader` in the order of their definition (`_spectrogram_readers.py:49-123`). The statement
`channels[:] = data["channels"]` copies all samples to an array with the same shape, so the array is the loaded one. -/
noncomputable def spectrogramReaders (mem : Nat → Nat → ℂ) (mem' : Nat → Nat → Nat → ℂ) :
    List (ReaderClass (SpectrogramFile × String) Container.LoadedSpectrogram) :=
  [⟨[".json", ".js"], .ok (), fun p => match p.1 with
      | .json dictionary => Container.spectrogramFromJson mem mem' dictionary
      | _ => .error .valueError⟩,
   ⟨[".npz"], .ok (), fun p => match p.1 with
      | .npz a => .ok (.proper (Spectrogram.new a.channels a.resolution a.rate a.offset (some a.labels)))
      | _ => .error .valueError⟩,
   ⟨[".pickle"], .ok (), fun p => match p.1 with
      | .pickle spectrogram => .ok (.proper spectrogram)
      | _ => .error .valueError⟩]

/-- `Spectrogram.save` (`_spectrogram.py:475-491`), `none` is the format `AUTO` -/
noncomputable def saveSpectrogram (state : SaveState SpectrogramFormat) (format : Option SpectrogramFormat)
    (extension : String) (s : Spectrogram ℂ ℚ) (name : String) : Py SpectrogramFile × SaveState SpectrogramFormat :=
  save spectrogramWriters spectrogramMapping state format extension s name

/-- `Spectrogram.load` (`_spectrogram.py:465-473`) -/
noncomputable def loadSpectrogram (mem : Nat → Nat → ℂ) (mem' : Nat → Nat → Nat → ℂ) (readers : Dict String (List Nat))
    (extension : String) (file : SpectrogramFile) (name : String) :
    Py Container.LoadedSpectrogram × Dict String (List Nat) :=
  readFile (spectrogramReaders mem mem') readers extension (file, name)

end Files
end Verif
