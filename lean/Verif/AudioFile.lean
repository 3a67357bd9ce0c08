import Verif.Signal
import Verif.Indexing

/-
Model of the reading and writing of audio files with integer samples by means of the modules `wave` and `aifc`
(`StandardLibraryReader`, `_signal_readers.py:185-239`, and `StandardLibraryWriter`, `_signal_writers.py:225-287`).

Samples are exact rational numbers. The files are modelled with their parameters and the bytes of their samples, while the
encoding of the parameters in the header is not modelled.
-/

namespace Verif
namespace Audio

/-! ### `struct.pack` and `struct.unpack` -/

/-- the format of the integers: number of bytes, signedness and order of the bytes -/
structure IntFormat where
  width : Nat
  signed : Bool
  bigEndian : Bool
  deriving DecidableEq, Repr

namespace IntFormat

/-- the integers, that can be represented -/
def InRange (f : IntFormat) (i : Int) : Prop :=
  if f.signed then -(2 ^ (8 * f.width - 1) : Int) ≤ i ∧ i < 2 ^ (8 * f.width - 1) else 0 ≤ i ∧ i < 2 ^ (8 * f.width)

instance (f : IntFormat) (i : Int) : Decidable (f.InRange i) := by
  unfold InRange
  infer_instance

/-- the bytes of an integer in two's complement -/
def encode (f : IntFormat) (i : Int) : List Nat :=
  let bytes := (List.range f.width).map fun k => (i % 256 ^ f.width).toNat / 256 ^ k % 256
  if f.bigEndian then bytes.reverse else bytes

/-- the integer, that is stored in bytes -/
def decode (f : IntFormat) (bytes : List Nat) : Int :=
  let bytes := if f.bigEndian then bytes.reverse else bytes
  let n : Int := ((bytes.foldr (fun b n => b + 256 * n) 0 : Nat) : Int)
  if f.signed ∧ 2 ^ (8 * f.width - 1) ≤ n then n - 256 ^ f.width else n

end IntFormat

/-- `struct.pack` with a format for `len(ints)` integers -/
def structPack (f : IntFormat) (ints : List Int) : Py (List Nat) :=
  if ∀ i ∈ ints, f.InRange i then .ok (ints.flatMap f.encode) else .error .structError

/-- `struct.unpack` with a format for `count` integers -/
def structUnpack (f : IntFormat) (count : Nat) (bytes : List Nat) : Py (List Int) :=
  if bytes.length = count * f.width then
    .ok ((List.range count).map fun k => f.decode ((bytes.drop (k * f.width)).take f.width))
  else .error .structError

/-! ### files -/

/-- the modules for the files -/
inductive Module where
  | wave
  | aifc
  deriving DecidableEq, Repr

/-- an audio file -/
structure File where
  channels : Nat
  width : Nat
  framerate : Int
  data : List Nat
  deriving DecidableEq, Repr

/-- the formats of the integers, that can be written by `WaveWriter` and `AifcWriter` (`_signal_writers.py:290-325`). -/
inductive Format where
  | wavInt32
  | wavInt16
  | wavUint8
  | aiffInt32
  | aiffInt16
  | aiffInt8
  deriving DecidableEq, Repr

namespace Format

/-- the parameter `module` of the constructor -/
def module' : Format → Module
  | .wavInt32 | .wavInt16 | .wavUint8 => .wave
  | .aiffInt32 | .aiffInt16 | .aiffInt8 => .aifc

/-- the parameter `bits` of the constructor -/
def bits : Format → Nat
  | .wavInt32 | .aiffInt32 => 32
  | .wavInt16 | .aiffInt16 => 16
  | .wavUint8 | .aiffInt8 => 8

/-- the parameter `signed` of the constructor -/
def signed : Format → Bool
  | .wavUint8 => false
  | _ => true

/-- the format of the integers (`_signal_writers.py:231-245`). The factor `int(math.ceil(bits / 8))` is the number of bytes. -/
def intFormat (f : Format) : IntFormat := ⟨(f.bits + 7) / 8, f.signed, f.module' = .aifc⟩

end Format

/-! ### the writer -/

/-- `array[c:None:n] = values` -/
def assignStride (array : Nat → ℚ) (c n : Nat) (values : Nat → ℚ) : Nat → ℚ :=
  fun j => if c ≤ j ∧ (j - c) % n = 0 then values ((j - c) / n) else array j

/-- the loop over the channels (`_signal_writers.py:265-266`) -/
def interleave (n : Nat) (channels : Nat → Nat → ℚ) (i : Nat) (array : Nat → ℚ) : Nat → ℚ :=
  (List.range n).foldl (fun a c => assignStride a c n fun k => channels c (i + k)) array

/-- `array += 1.0`, if the integers are unsigned, and `array *= factor` -/
def scale (signed : Bool) (factor : ℚ) (array : Nat → ℚ) : Nat → ℚ :=
  fun j => (if signed then array j else array j + 1) * factor

/-- `numpy.round(array).astype(int)` for an array with the given size -/
def quantize (size : Nat) (array : Nat → ℚ) : List Int := (List.range size).map fun j => pyRound (array j)

/-- the number of samples, that are processed at once -/
def chunkSize : Nat := 2048

/-- the loop over the chunks (`_signal_writers.py:264-272`) with the bytes, that have been written so far: the bytes, the
position of the first sample, that has not been written, and the array -/
def writeChunks (f : IntFormat) (factor : ℚ) (n length : Nat) (channels : Nat → Nat → ℚ) (i : Nat) (array : Nat → ℚ)
    (data : List Nat) : Py (List Nat × Nat × (Nat → ℚ)) :=
  if i + chunkSize ≤ length then
    let array := scale f.signed factor (interleave n channels i array)
    structPack f (quantize (n * chunkSize) array) >>= fun chunk =>
      writeChunks f factor n length channels (i + chunkSize) array (data ++ chunk)
  else .ok (data, i, array)
  termination_by length - i
  decreasing_by unfold chunkSize at *; omega

/-- `StandardLibraryWriter.__call__` (`_signal_writers.py:247-287`). The content of the uninitialised array is `mem`.
Files without channels are refused by the modules. -/
def write (mem : Nat → ℚ) (format : Format) (a : Signal ℚ ℚ) : Py File :=
  let f := format.intFormat
  let factor : ℚ := 2 ^ (format.bits - 1)
  let n := a.channels.rows
  let length := a.channels.cols
  if n = 0 then .error .runtimeError else
  writeChunks f factor n length a.channels.get 0 mem [] >>= fun r =>
    let remaining := length - r.2.1
    let file (data : List Nat) : File := ⟨n, f.width, max 1 (pyRound a.rate), data⟩
    if remaining ≠ 0 then
      let array := if n * chunkSize < n * remaining then mem else r.2.2
      let array := scale f.signed factor (interleave n a.channels.get r.2.1 array)
      structPack f (quantize (n * remaining) array) >>= fun chunk => .ok (file (r.1 ++ chunk))
    else .ok (file r.1)

/-! ### the reader -/

/-- `self.__sample_width_mapping[f.getsampwidth()]` with the order of the bytes (`_signal_readers.py:242-261`) -/
def readerFormat (m : Module) (width : Nat) : Py IntFormat :=
  match m with
  | .wave => if width = 1 then .ok ⟨1, false, false⟩ else if width = 2 then .ok ⟨2, true, false⟩ else
    if width = 4 then .ok ⟨4, true, false⟩ else .error .keyError
  | .aifc => if width = 1 then .ok ⟨1, true, true⟩ else if width = 2 then .ok ⟨2, true, true⟩ else
    if width = 4 then .ok ⟨4, true, true⟩ else .error .keyError

/-- `channels[c, i:stop] = decoded[c:None:number_of_channels]` for all channels (`_signal_readers.py:222-223`), where
`decoded` are the given integers times the factor -/
def deinterleave (n : Nat) (factor : ℚ) (ints : List Int) (i stop : Nat) (channels : Nat → Nat → ℚ) : Nat → Nat → ℚ :=
  fun c j => if c < n ∧ i ≤ j ∧ j < stop then (ints.getD (c + (j - i) * n) 0 : ℚ) * factor else channels c j

/-- the loop over the chunks (`_signal_readers.py:219-224`): the position after the last chunk, the remaining bytes and
the channels -/
def readChunks (f : IntFormat) (factor : ℚ) (n samples : Nat) (i : Nat) (data : List Nat) (channels : Nat → Nat → ℚ) :
    Py (Nat × List Nat × (Nat → Nat → ℚ)) :=
  if i + chunkSize < samples then
    structUnpack f (n * chunkSize) (data.take (chunkSize * n * f.width)) >>= fun chunk =>
      readChunks f factor n samples (i + chunkSize) (data.drop (chunkSize * n * f.width))
        (deinterleave n factor chunk i (i + chunkSize) channels)
  else .ok (i, data, channels)
  termination_by samples - i
  decreasing_by unfold chunkSize at *; omega

/-- `StandardLibraryReader.__call__` (`_signal_readers.py:201-239`). The content of the uninitialised array is `mem`. The
number of frames in the header is the one of the data. -/
def read (mem : Nat → Nat → ℚ) (m : Module) (filename : String) (file : File) : Py (Signal ℚ ℚ) :=
  let n := file.channels
  let samples := file.data.length / (n * file.width)
  readerFormat m file.width >>= fun f =>
    let factor : ℚ := 1 / 2 ^ (8 * file.width - 1)
    readChunks f factor n samples 0 file.data mem >>= fun r =>
      let remaining := samples - r.1
      let result (channels : Nat → Nat → ℚ) : Signal ℚ ℚ :=
        Signal.new ⟨n, samples, fun c i => if f.signed then channels c i else channels c i - 1⟩ file.framerate 0
          (some ((List.range n).map fun k => filename ++ " " ++ toString (k + 1)))
      if remaining ≠ 0 then
        structUnpack f (n * remaining) (r.2.1.take (remaining * n * f.width)) >>= fun chunk =>
          .ok (result (deinterleave n factor chunk r.1 samples r.2.2))
      else .ok (result r.2.2)

end Audio
end Verif
