import Verif.Memory
import Verif.SpectrogramMore

/-
Spectrums, whose channels are arrays in memory, see `Memory.lean`. The methods are those of `Spectrum.lean`,
`SpectrogramMore.lean` and `Merge.lean`.
-/

namespace Verif
namespace Memory

variable {α R : Type}

/-- `sumpf.Spectrum` (`_spectrum.py:79-86`, `_sampled_data.py:26-33`) with an array in the memory. The array is not copied by
the constructor. -/
structure MSpectrum (R : Type) where
  channels : View
  resolution : R
  labels : List String

namespace MSpectrum

/-- the constructor (`_spectrum.py:79-86`) -/
def new (channels : View) (resolution : R) (labels : Option (List String)) : MSpectrum R :=
  ⟨channels, resolution, sanitizeLabels labels channels.rows⟩

/-- `len(spectrum)` -/
def count (s : MSpectrum R) : Nat := s.channels.rows

/-- `spectrum.length()` -/
def length (s : MSpectrum R) : Nat := s.channels.cols

/-- `spectrum[k]` for a single key (`_spectrum.py:92-106`) -/
def getChannels (s : MSpectrum R) (k : Indexing.Key) : Option (MSpectrum R) :=
  (Indexing.keyToSlice s.count k).map fun c => new (s.channels.slice c .all) s.resolution (some (sliceList s.labels c))

/-- `spectrum[k0, k1]` (`_spectrum.py:92-106`) -/
def getItem (s : MSpectrum R) (k0 k1 : Indexing.Key) : Option (MSpectrum R) :=
  match Indexing.keyToSlice s.count k0, Indexing.keyToSlice s.length k1 with
  | some c, some f => some (new (s.channels.slice c f) s.resolution (some (sliceList s.labels c)))
  | _, _ => none

/-- `abs(spectrum)`, `-spectrum` and `spectrum.conjugate()` (`_spectrum.py:150-168, 337-344`), with the element-wise function
`f`. Simplification: the array of the absolute values has the same type of elements. -/
def mapSamples (f : α → α) (s : MSpectrum R) : Mem α (MSpectrum R) := do
  let channels ← allocate s.count s.length
  fun σ => setItem channels .all .all ((σ.read s.channels).map f) σ
  return new channels s.resolution (some s.labels)

/-- `spectrum.pad(length, value)` (`_spectrum.py:316-335`) -/
def pad (s : MSpectrum R) (length : Nat) (value : α) : Mem α (MSpectrum R) :=
  if length = s.length then return s
  else do
    let channels ← allocate s.count length
    if length < s.length then
      copy channels .all .all (s.channels.slice .all (.range 0 length))
    else do
      copy channels .all (.range 0 s.length) s.channels
      setItem channels .all (.drop s.length) (.scalar value)
    return new channels s.resolution (some s.labels)

/-- the branches of `_algebra_function` for two spectrums after the allocation (`_spectrum.py:188-204`) -/
def compute (f : α → α → α) (pivot : Option α) (s o : MSpectrum R) (channels : View) : Mem α Unit :=
  if s.count = 1 then ufuncViews f (s.channels.row 0) o.channels channels .all .all
  else if o.count = 1 then ufuncViews f s.channels (o.channels.row 0) channels .all .all
  else if s.count < o.count then do
    ufuncViews f s.channels (o.channels.slice (.range 0 s.count) .all) channels (.range 0 s.count) .all
    match pivot with
    | none => copy channels (.drop s.count) .all (o.channels.slice (.drop s.count) .all)
    | some p => (fun σ =>
      ufunc2 f (.scalar p) (σ.read (o.channels.slice (.drop s.count) .all)) channels (.drop s.count) .all σ)
  else do
    ufuncViews f (s.channels.slice (.range 0 o.count) .all) o.channels channels (.range 0 o.count) .all
    copy channels (.drop o.count) .all (s.channels.slice (.drop o.count) .all)

/-- the number of channels of the array, that is allocated by `_algebra_function` (`_spectrum.py:189, 192, 195, 202`) -/
def computedRows (s o : MSpectrum R) : Nat :=
  if s.count = 1 then o.count else if o.count = 1 then s.count else if s.count < o.count then o.count else s.count

/-- `_algebra_function` for two spectrums (`_spectrum.py:174-205`) -/
def algebra (f : α → α → α) (pivot : Option α) (label : String) (s o : MSpectrum R) : Mem α (MSpectrum R) := do
  let channels ← allocate (computedRows s o) s.length
  compute f pivot s o channels
  return new channels s.resolution (some (List.replicate channels.rows label))

/-- `_algebra_function` for an array in the memory (`_spectrum.py:208-216`) -/
def algebraArray (f : α → α → α) (s : MSpectrum R) (other : View) : Mem α (MSpectrum R) := do
  let channels ← allocate s.count s.length
  ufuncViews f s.channels other channels .all .all
  return new channels s.resolution (some s.labels)

/-- `_algebra_function_right` for an array in the memory (`_spectrum.py:218-234`) -/
def algebraArrayRight (f : α → α → α) (s : MSpectrum R) (other : View) : Mem α (MSpectrum R) := do
  let channels ← allocate s.count s.length
  ufuncViews f other s.channels channels .all .all
  return new channels s.resolution (some s.labels)

/-- the body of the loop of `Merge.output` over the spectrums' channels (`_merge.py:95-97`) -/
def placeSpectrum [Zero α] (channels : View) (labels : List String) (item : Nat × View × String) : Mem α (List String) := do
  let (index, channel, label) := item
  copyRow channels index (.range 0 channel.cols) channel
  setRow channels index (.drop channel.cols) (.scalar 0)
  match Verif.setItem labels index label with
  | .ok labels => return labels
  | .error e => raise e

/-- the iterable of the loop (`_merge.py:92-94`) -/
def spectrumItems (indices : List Nat) (data : List (MSpectrum R)) : List (Nat × View × String) :=
  indices.zip <|
    (data.flatMap fun d => (List.range d.count).map d.channels.row).zip <|
    data.flatMap fun d => d.labels

/-- `Merge.output` for spectrums (`_merge.py:58-68, 89-100`) -/
def merge [Zero α] (mode : MergeMode) : List (MSpectrum R) → Mem α (MSpectrum R)
  | [] => raise .runtimeError
  | [s] => return s
  | first :: second :: rest => do
    let data := first :: second :: rest
    let number := (data.map fun s => s.count).sum
    let length := data.foldl (fun m s => max m s.length) first.length
    let channels ← allocate number length
    match Merge.indices mode (data.map fun s => s.count) with
    | .error e => raise e
    | .ok indices =>
      let labels ← (spectrumItems indices data).foldlM (placeSpectrum channels) (List.replicate number "")
      return new channels first.resolution (some labels)

end MSpectrum

/-! ### Programs -/

/-- A statement of a program, that computes a new spectrum from the spectrums, that have been computed before, which are given
by their numbers. -/
inductive SpectrumStmt (α : Type) where
  | getChannels (i : Nat) (k : Indexing.Key)
  | getItem (i : Nat) (k0 k1 : Indexing.Key)
  | mapSamples (f : α → α) (i : Nat)
  | pad (i : Nat) (length : Nat) (value : α)
  | algebra (f : α → α → α) (pivot : Option α) (label : String) (i j : Nat)
  | algebraArray (f : α → α → α) (i j : Nat)
  | algebraArrayRight (f : α → α → α) (i j : Nat)
  | merge (mode : MergeMode) (l : List Nat)

/-- a statement, that is executed with arrays in the memory, see `Stmt.run` -/
def SpectrumStmt.run [Zero α] (env : List (MSpectrum R)) : SpectrumStmt α → Option (Mem α (MSpectrum R))
  | .getChannels i k => env[i]? >>= fun s => (s.getChannels k).map pure
  | .getItem i k0 k1 => env[i]? >>= fun s => (s.getItem k0 k1).map pure
  | .mapSamples f i => env[i]?.map fun s => s.mapSamples f
  | .pad i length value => env[i]?.map fun s => s.pad length value
  | .algebra f pivot label i j => env[i]? >>= fun s => env[j]?.map fun o => MSpectrum.algebra f pivot label s o
  | .algebraArray f i j => env[i]? >>= fun s => env[j]?.map fun o => MSpectrum.algebraArray f s o.channels
  | .algebraArrayRight f i j => env[i]? >>= fun s => env[j]?.map fun o => MSpectrum.algebraArrayRight f s o.channels
  | .merge mode l => (lookup env l).map fun data => MSpectrum.merge mode data

/-- a program, that is executed with arrays in the memory, see `run` -/
def runSpectrums [Zero α] :
    List (SpectrumStmt α) → List (MSpectrum R) → Heap α → Option (Py (List (MSpectrum R)) × Heap α)
  | [], env, σ => some (.ok env, σ)
  | st :: rest, env, σ => do
    let m ← st.run env
    match m σ with
    | (.ok s, σ') => runSpectrums rest (env ++ [s]) σ'
    | (.error e, σ') => some (.error e, σ')

end Memory
end Verif
