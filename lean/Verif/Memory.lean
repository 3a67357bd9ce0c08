import Verif.Concatenate
import Verif.EnergyDecay
import Verif.Merge
import Verif.SignalAlgebra

/-
Signals, whose channels are arrays in memory.

The other files model arrays as values. Here, an array is a view of a buffer in memory as in numpy, so that different
signals can share the samples in a buffer (`signal[…]`, `reversed(signal)`, `signal.shift(n)`), and the methods write
to the elements of an array one after the other. The methods are those of `Signal.lean`, `SignalAlgebra.lean`,
`Merge.lean`, `Concatenate.lean` and `EnergyDecay.lean`.
-/

namespace Verif
namespace Memory

variable {α β γ R : Type}

/-- The memory: the buffers with the numbers `0 … next - 1` are in use. The contents of the other buffers are those of
uninitialised memory. -/
structure Heap (α : Type) where
  next : Nat
  cells : Nat → Int → α

/-- `buffer[p] = x` -/
def Heap.set (σ : Heap α) (b : Nat) (p : Int) (x : α) : Heap α :=
  { σ with cells := fun b' p' => if b' = b ∧ p' = p then x else σ.cells b' p' }

/-- A two-dimensional array of numpy: a buffer, the position of the first element, the shape and the strides. (The
strides of numpy are numbers of bytes, here they are numbers of elements.) -/
structure View where
  buf : Nat
  start : Int
  rows : Nat
  cols : Nat
  rowStride : Int
  colStride : Int

/-- the position of an element in the buffer -/
def View.pos (v : View) (i j : Nat) : Int := v.start + i * v.rowStride + j * v.colStride

/-- `v[r, c]` with slices: a view of the same buffer -/
def View.slice (v : View) (r c : PySlice) : View :=
  { v with start := v.pos (r.lo v.rows) (c.lo v.cols), rows := r.count v.rows, cols := c.count v.cols }

/-- `v[k]`: a view of the same buffer. It is a one-dimensional array, which is broadcast like one row. -/
def View.row (v : View) (k : Nat) : View := { v with start := v.pos k 0, rows := 1, rowStride := 0 }

/-- `v[:, ::-1]`: a view of the same buffer -/
def View.flip (v : View) : View :=
  { v with start := v.start + ((v.cols : Int) - 1) * v.colStride, colStride := -v.colStride }

/-- the elements of an array -/
def Heap.read (σ : Heap α) (v : View) : Mat α := ⟨v.rows, v.cols, fun i j => σ.cells v.buf (v.pos i j)⟩

/-- A computation, that uses the memory. It returns a value or raises an exception; the memory keeps the changes from
before the exception. -/
def Mem (α β : Type) : Type := Heap α → Py β × Heap α

instance : Monad (Mem α) where
  pure x := fun σ => (.ok x, σ)
  bind m k := fun σ =>
    match m σ with
    | (.ok x, σ') => k x σ'
    | (.error e, σ') => (.error e, σ')

/-- `raise` -/
def raise (e : PyExc) : Mem α β := fun σ => (.error e, σ)

/-- `allocate_array` (`_functions.py:29-45`): an array with consecutive rows in a new buffer, whose contents are not
changed -/
def allocate (rows cols : Nat) : Mem α View := fun σ =>
  (.ok ⟨σ.next, 0, rows, cols, cols, 1⟩, { σ with next := σ.next + 1 })

/-- the indices of the elements of an array in the order, in which they are written -/
def indices (rows cols : Nat) : List (Nat × Nat) :=
  (List.range rows).flatMap fun i => (List.range cols).map fun j => (i, j)

/-- writing the elements of an array one after the other -/
def writeAll (v : View) (f : Nat → Nat → α) (σ : Heap α) : Heap α :=
  (indices v.rows v.cols).foldl (fun σ p => σ.set v.buf (v.pos p.1 p.2) (f p.1 p.2)) σ

/-- `w[r, c] = S`, where `S` has been read from the memory before (numpy copies the elements of the right hand side, if
they overlap with those, that are written) -/
def setItem (w : View) (r c : PySlice) (S : Mat α) : Mem α Unit := fun σ =>
  match S.broadcastTo (r.count w.rows) (c.count w.cols) with
  | .error e => (.error e, σ)
  | .ok B => (.ok (), writeAll (w.slice r c) B.get σ)

/-- `w[r, c] = v` -/
def copy (w : View) (r c : PySlice) (v : View) : Mem α Unit := fun σ => setItem w r c (σ.read v) σ

/-- `w[k, c] = S` with an integer `k`, that is not negative -/
def setRow (w : View) (k : Nat) (c : PySlice) (S : Mat α) : Mem α Unit :=
  if k < w.rows then setItem w (.range k (k + 1)) c S else raise .indexError

/-- `w[k, c] = v` with an integer `k`, that is not negative -/
def copyRow (w : View) (k : Nat) (c : PySlice) (v : View) : Mem α Unit := fun σ => setRow w k c (σ.read v) σ

/-- `function(A, B, out=w[r, c])` for an element-wise function, whose operands have been read from the memory before (as
numpy does, if they overlap with `out`) -/
def ufunc2 (f : α → α → α) (A B : Mat α) (w : View) (r c : PySlice) : Mem α Unit := fun σ =>
  match A.broadcastTo (r.count w.rows) (c.count w.cols), B.broadcastTo (r.count w.rows) (c.count w.cols) with
  | .error e, _ => (.error e, σ)
  | _, .error e => (.error e, σ)
  | .ok A', .ok B' => setItem w r c ⟨r.count w.rows, c.count w.cols, fun i j => f (A'.get i j) (B'.get i j)⟩ σ

/-- `function(a, b, out=w[r, c])` for two arrays -/
def ufuncViews (f : α → α → α) (a b : View) (w : View) (r c : PySlice) : Mem α Unit := fun σ =>
  ufunc2 f (σ.read a) (σ.read b) w r c σ

/-- `numpy.cumsum(v, axis=1, out=v)`: the elements of a row are replaced one after the other, every element by the sum
of itself and of the result before it. -/
def cumsum [Add α] (v : View) (σ : Heap α) : Heap α :=
  (indices v.rows v.cols).foldl (fun σ p =>
    match p with
    | (_, 0) => σ
    | (i, j + 1) => σ.set v.buf (v.pos i (j + 1)) (σ.cells v.buf (v.pos i j) + σ.cells v.buf (v.pos i (j + 1)))) σ

/-- `sumpf.Signal` (`_signal.py:82-93`, `_sampled_data.py:26-33`) with an array in the memory. The array is not copied by
the constructor. -/
structure MSignal (R : Type) where
  channels : View
  rate : R
  offset : Int
  labels : List String

namespace MSignal

/-- the constructor of `Signal` (`_signal.py:82-93`) -/
def new (channels : View) (rate : R) (offset : Int) (labels : Option (List String)) : MSignal R :=
  { channels, rate, offset, labels := sanitizeLabels labels channels.rows }

/-- `len(signal)` (`_sampled_data.py:39-44`) -/
def count (s : MSignal R) : Nat := s.channels.rows

/-- `signal.length()` (`_sampled_data.py:33, 161-166`) -/
def length (s : MSignal R) : Nat := s.channels.cols

/-- `signal[k]` (`_signal.py:99-120`) -/
def getChannels (s : MSignal R) (k : Indexing.Key) : Option (MSignal R) :=
  (Indexing.keyToSlice s.count k).map fun c =>
    new (s.channels.slice c .all) s.rate s.offset (some (sliceList s.labels c))

/-- the offset of a slice (`_signal.py:107-113`) -/
def sliceOffset (s : MSignal R) (t : PySlice) : Int :=
  match t.start with
  | none => s.offset
  | some a =>
    if a = 0 then s.offset
    else if a < 0 then s.offset + (s.length + a)
    else s.offset + a

/-- `signal[k0, k1]` (`_signal.py:99-120`) -/
def getItem (s : MSignal R) (k0 k1 : Indexing.Key) : Option (MSignal R) :=
  match Indexing.keyToSlice s.count k0, Indexing.keyToSlice s.length k1 with
  | some c, some t =>
    some (new (s.channels.slice c t) s.rate (s.sliceOffset t) (some (sliceList s.labels c)))
  | _, _ => none

/-- `reversed(signal)` (`_signal.py:179-192`) -/
def reversed (s : MSignal R) : MSignal R :=
  new s.channels.flip s.rate (s.length - s.offset - 1) (some s.labels)

/-- `abs(signal)` and `-signal` (`_signal.py:168-177, 194-203`), with the element-wise function `f` -/
def mapSamples (f : α → α) (s : MSignal R) : Mem α (MSignal R) := do
  let channels ← allocate s.count s.length
  fun σ => setItem channels .all .all ((σ.read s.channels).map f) σ
  return new channels s.rate s.offset (some s.labels)

/-- `signal.pad(length, value)` (`_signal.py:301-321`) -/
def pad (s : MSignal R) (length : Nat) (value : α) : Mem α (MSignal R) :=
  if length = s.length then return s
  else do
    let channels ← allocate s.count length
    if length < s.length then
      copy channels .all .all (s.channels.slice .all (.range 0 length))
    else do
      copy channels .all (.range 0 s.length) s.channels
      setItem channels .all (.drop s.length) (.scalar value)
    return new channels s.rate s.offset (some s.labels)

/-- `signal.shift(shift, mode)` (`_signal.py:323-376`) -/
def shift [Zero α] (s : MSignal R) (shift : Option Int) (mode : ShiftMode) : Mem α (MSignal R) :=
  if shift = some 0 then return s
  else match mode, shift with
  | .offset, none => return new s.channels s.rate 0 (some s.labels)
  | .offset, some n => return new s.channels s.rate (s.offset + n) (some s.labels)
  | _, none => raise .typeError
  | .crop, some n => do
    let channels ← allocate s.count s.length
    if n < 0 then do
      copy channels .all (.range 0 n) (s.channels.slice .all (.drop (-n)))
      setItem channels .all (.drop n) (.scalar 0)
    else do
      setItem channels .all (.range 0 n) (.scalar 0)
      copy channels .all (.drop n) (s.channels.slice .all (.range 0 (-n)))
    return new channels s.rate s.offset (some s.labels)
  | .pad, some n => do
    let channels ← allocate s.count (s.length + n.natAbs)
    if n < 0 then do
      copy channels .all (.range 0 s.length) s.channels
      setItem channels .all (.drop s.length) (.scalar 0)
    else do
      setItem channels .all (.range 0 n) (.scalar 0)
      copy channels .all (.drop n) s.channels
    return new channels s.rate s.offset (some s.labels)
  | .cycle, some n => do
    let channels ← allocate s.count s.length
    copy channels .all (.range 0 n) (s.channels.slice .all (.drop (-n)))
    copy channels .all (.drop n) (s.channels.slice .all (.range 0 (-n)))
    return new channels s.rate s.offset (some s.labels)

/-! ### Arithmetic -/

/-- `for c in range(1, len(channels)): channels[c, cs] = row` (`_signal.py:930-932, 935-937, 941-943`) -/
def copyRows (cs : PySlice) (row : View) (channels : View) : Mem α Unit :=
  (List.range' 1 (channels.rows - 1)).foldlM
    (fun _ (c : Nat) => copy channels (.range c (c + 1)) cs row) ()

/-- `__algebra_function_signals_overlap` (`_signal.py:895-901`) -/
def algebraOverlap (f : α → α → α) (label : String) (s o : MSignal R) : Mem α (MSignal R) := do
  let channels ← allocate s.count s.length
  ufuncViews f s.channels o.channels channels .all .all
  return new channels s.rate s.offset (Signal.labelTuple label s.count)

/-- `__algebra_function_self_has_one_channel` (`_signal.py:903-909`) -/
def algebraSelfOne (f : α → α → α) (label : String) (s o : MSignal R) : Mem α (MSignal R) := do
  let channels ← allocate o.count o.length
  ufuncViews f (s.channels.row 0) o.channels channels .all .all
  return new channels s.rate s.offset (Signal.labelTuple label o.count)

/-- `__algebra_function_other_has_one_channel` (`_signal.py:911-917`) -/
def algebraOtherOne (f : α → α → α) (label : String) (s o : MSignal R) : Mem α (MSignal R) := do
  let channels ← allocate s.count s.length
  ufuncViews f s.channels (o.channels.row 0) channels .all .all
  return new channels s.rate s.offset (Signal.labelTuple label s.count)

/-- copying of the first signal (`_signal.py:927-932`) -/
def copySelf [Zero α] (s o : MSignal R) (channels : View) : Mem α Unit := do
  let start := min s.offset o.offset
  setItem channels .all .all (.scalar 0)
  let cs : PySlice := .range (s.offset - start) (s.offset + s.length - start)
  copy channels (.range 0 s.count) cs s.channels
  if s.count = 1 then copyRows cs (s.channels.row 0) channels else pure ()

/-- copying of the second signal (`_signal.py:933-943`) -/
def copyOther (f : α → α → α) (pivot : Option α) (s o : MSignal R) (channels : View) : Mem α Unit := do
  let start := min s.offset o.offset
  let cs : PySlice := .range (o.offset - start) (o.offset + o.length - start)
  match pivot with
  | none =>
    copy channels (.range 0 o.count) cs o.channels
    if o.count = 1 then copyRows cs (o.channels.row 0) channels else pure ()
  | some p =>
    (fun σ => ufunc2 f (.scalar p) (σ.read o.channels) channels (.range 0 o.count) cs σ)
    if o.count = 1 then copyRows cs (channels.slice (.range 0 1) cs) channels else pure ()

/-- the computation for the overlapping part (`_signal.py:944-962`) -/
def computeOverlap (f : α → α → α) (s o : MSignal R) (channels : View) : Mem α Unit :=
  let start := min s.offset o.offset
  let overlapStart := max s.offset o.offset
  let overlapStop := min (s.offset + s.length) (o.offset + o.length)
  let ss : PySlice := .range (overlapStart - s.offset) (overlapStop - s.offset)
  let os : PySlice := .range (overlapStart - o.offset) (overlapStop - o.offset)
  let cs : PySlice := .range (overlapStart - start) (overlapStop - start)
  if overlapStart < overlapStop then
    if s.count = 1 then
      ufuncViews f ((s.channels.row 0).slice .all ss) (o.channels.slice .all os) channels .all cs
    else if o.count = 1 then
      ufuncViews f (s.channels.slice .all ss) ((o.channels.row 0).slice .all os) channels .all cs
    else
      let n := min s.count o.count
      ufuncViews f (s.channels.slice (.range 0 n) ss) (o.channels.slice (.range 0 n) os) channels (.range 0 n) cs
  else pure ()

/-- `__algebra_function_different_shapes` (`_signal.py:919-967`) -/
def algebraDifferentShapes [Zero α] (f : α → α → α) (pivot : Option α) (label : String) (s o : MSignal R) :
    Mem α (MSignal R) := do
  let start := min s.offset o.offset
  let stop := max (s.offset + s.length) (o.offset + o.length)
  let channels ← allocate (max s.count o.count) (stop - start).toNat
  copySelf s o channels
  copyOther f pivot s o channels
  computeOverlap f s o channels
  return new channels s.rate start (Signal.labelTuple label (max s.count o.count))

/-- `_algebra_function` for two signals (`_signal.py:843-871`) -/
def algebra [Zero α] (f : α → α → α) (pivot : Option α) (label : String) (s o : MSignal R) : Mem α (MSignal R) :=
  if s.count = o.count ∧ s.length = o.length ∧ s.offset = o.offset then algebraOverlap f label s o
  else if s.count = 1 ∧ s.length = o.length ∧ s.offset = o.offset then algebraSelfOne f label s o
  else if o.count = 1 ∧ s.length = o.length ∧ s.offset = o.offset then algebraOtherOne f label s o
  else algebraDifferentShapes f pivot label s o

/-- `__algebra_function_different_type` (`_signal.py:969-979`), the other operand is an array in the memory -/
def algebraArray (f : α → α → α) (s : MSignal R) (other : View) : Mem α (MSignal R) := do
  let channels ← allocate s.count s.length
  ufuncViews f s.channels other channels .all .all
  return new channels s.rate s.offset (some s.labels)

/-- `_algebra_function_right` (`_signal.py:878-893`), the other operand is an array in the memory -/
def algebraArrayRight (f : α → α → α) (s : MSignal R) (other : View) : Mem α (MSignal R) := do
  let channels ← allocate s.count s.length
  ufuncViews f other s.channels channels .all .all
  return new channels s.rate s.offset (some s.labels)

/-! ### Other classes -/

/-- `EnergyDecayCurve.__init__` (`_energy_decay.py:46-58`) -/
def energyDecay [Add α] [Mul α] (s : MSignal R) : Mem α (MSignal R) := do
  let channels ← allocate s.count s.length
  fun σ => setItem channels .all .all ((σ.read s.channels).map fun x => x * x) σ
  fun σ => (.ok (), cumsum channels.flip σ)
  return new channels s.rate s.offset (some s.labels)

/-- the body of the loop of `Merge.output` over the signals' channels (`_merge.py:79-84`) -/
def placeSignal [Zero α] (channels : View) (mergedOffset : Int) (labels : List String)
    (item : Nat × View × Int × String) : Mem α (List String) := do
  let (index, channel, offset, label) := item
  let start := offset - mergedOffset
  let stop := start + channel.cols
  setRow channels index (.range 0 start) (.scalar 0)
  copyRow channels index (.range start stop) channel
  setRow channels index (.drop stop) (.scalar 0)
  match Verif.setItem labels index label with
  | .ok labels => return labels
  | .error e => raise e

/-- the iterable of the loop (`_merge.py:75-78`) -/
def signalItems (indices : List Nat) (data : List (MSignal R)) : List (Nat × View × Int × String) :=
  indices.zip <|
    (data.flatMap fun d => (List.range d.count).map d.channels.row).zip <|
    (data.flatMap fun d => (List.range d.count).map fun _ => d.offset).zip <|
    data.flatMap fun d => d.labels

/-- `Merge.output` for signals (`_merge.py:58-88`) -/
def merge [Zero α] (mode : MergeMode) : List (MSignal R) → Mem α (MSignal R)
  | [] => raise .runtimeError
  | [s] => return s
  | first :: second :: rest => do
    let data := first :: second :: rest
    let number := (data.map fun s => s.count).sum
    let mergedOffset := data.foldl (fun m s => min m s.offset) first.offset
    let length := data.foldl (fun m s => max m (s.offset + (s.length : Int))) (first.offset + first.length)
      - mergedOffset
    let channels ← allocate number length.toNat
    match Merge.indices mode (data.map fun s => s.count) with
    | .error e => raise e
    | .ok indices =>
      let labels ← (signalItems indices data).foldlM (placeSignal channels mergedOffset) (List.replicate number "")
      return new channels first.rate mergedOffset (some labels)

/-- the loop of `Concatenate.output`, that finds the start and stop samples (`_concatenate.py:65-72`) -/
def signalEntries (index : Int) : List (MSignal R) → List (Concatenate.Entry View)
  | [] => []
  | s :: rest =>
    let start := index + s.offset
    let index := start + s.length
    ⟨start, index, s.channels⟩ :: signalEntries index rest

/-- `w[r, c] += v` -/
def addTo [Add α] (w : View) (r c : PySlice) (v : View) : Mem α Unit := ufuncViews (· + ·) (w.slice r c) v w r c

/-- copying of one signal to a range, which does not contain data, yet (`_concatenate.py:82-84, 121-124`) -/
def writeSignal [Zero α] (number : Nat) (channels : View) (start stop : Int) (data : View) : Mem α Unit := do
  copy channels (.range 0 data.rows) (.range start stop) data
  if data.rows < number then
    setItem channels (.drop data.rows) (.range start stop) (.scalar 0)
  else
    pure ()

/-- One iteration of the loop over the other signals (`_concatenate.py:97-131`). The result is `last_index`. -/
def copySignal [Zero α] [Add α] (offset : Int) (number : Nat) (channels : View) (lastIndex : Int)
    (previous e : Concatenate.Entry View) : Mem α Int :=
  let start := e.start - offset
  let stop := e.stop - offset
  let l := e.data.rows
  let last := max lastIndex (previous.stop - offset)
  if start < last then
    if last ≥ stop then do
      let stop := start + e.data.cols
      addTo channels (.range 0 l) (.range start stop) e.data
      return last
    else do
      addTo channels (.range 0 l) (.range start last) (e.data.slice .all (.range 0 (last - start)))
      writeSignal number channels last stop (e.data.slice .all (.drop (last - start)))
      return last
  else if start > last then do
    setItem channels .all (.range last start) (.scalar 0)
    writeSignal number channels start stop e.data
    return last
  else do
    writeSignal number channels start stop e.data
    return last

/-- the loop over the other signals (`_concatenate.py:96-131`) -/
def copySignals [Zero α] [Add α] (offset : Int) (number : Nat) (channels : View) :
    Int → Concatenate.Entry View → List (Concatenate.Entry View) → Mem α Unit
  | _, _, [] => pure ()
  | lastIndex, previous, e :: rest => do
    let lastIndex ← copySignal offset number channels lastIndex previous e
    copySignals offset number channels lastIndex e rest

/-- `Concatenate.output` for signals (`_concatenate.py:52-144`) -/
def concatenate [Zero α] [Add α] : List (MSignal R) → Mem α (MSignal R)
  | [] => raise .runtimeError
  | [s] => return s
  | first :: second :: rest =>
    let data := first :: second :: rest
    let number := data.foldl (fun m s => max m s.count) 0
    match Concatenate.sortEntries (signalEntries 0 data) with
    | [] => raise .indexError
    | h :: t => do
      let offset := Concatenate.minStart h t
      let length := Concatenate.maxStop h t - offset
      let channels ← allocate number length.toNat
      writeSignal number channels (h.start - offset) (h.stop - offset) h.data
      copySignals offset number channels 0 h t
      return new channels first.rate offset (some (Concatenate.labels number))

end MSignal

/-! ### Programs -/

/-- A statement of a program, that computes a new signal from the signals, that have been computed before, which are
given by their numbers. -/
inductive Stmt (α : Type) where
  | getChannels (i : Nat) (k : Indexing.Key)
  | getItem (i : Nat) (k0 k1 : Indexing.Key)
  | reversed (i : Nat)
  | mapSamples (f : α → α) (i : Nat)
  | pad (i : Nat) (length : Nat) (value : α)
  | shift (i : Nat) (n : Option Int) (mode : ShiftMode)
  | algebra (f : α → α → α) (pivot : Option α) (label : String) (i j : Nat)
  | algebraArray (f : α → α → α) (i j : Nat)
  | algebraArrayRight (f : α → α → α) (i j : Nat)
  | energyDecay (i : Nat)
  | merge (mode : MergeMode) (l : List Nat)
  | concatenate (l : List Nat)

/-- the variables with the given numbers -/
def lookup {S : Type} (env : List S) (l : List Nat) : Option (List S) := l.mapM fun i => env[i]?

/-- a statement, that is executed with arrays in the memory; `none` for undefined variables and for keys, whose
conversion does not terminate. The other operand of `algebraArray` and `algebraArrayRight` is the array of a signal. -/
def Stmt.run [Zero α] [Add α] [Mul α] (env : List (MSignal R)) : Stmt α → Option (Mem α (MSignal R))
  | .getChannels i k => env[i]? >>= fun s => (s.getChannels k).map pure
  | .getItem i k0 k1 => env[i]? >>= fun s => (s.getItem k0 k1).map pure
  | .reversed i => env[i]?.map fun s => pure s.reversed
  | .mapSamples f i => env[i]?.map fun s => s.mapSamples f
  | .pad i length value => env[i]?.map fun s => s.pad length value
  | .shift i n mode => env[i]?.map fun s => s.shift n mode
  | .algebra f pivot label i j => env[i]? >>= fun s => env[j]?.map fun o => MSignal.algebra f pivot label s o
  | .algebraArray f i j => env[i]? >>= fun s => env[j]?.map fun o => MSignal.algebraArray f s o.channels
  | .algebraArrayRight f i j => env[i]? >>= fun s => env[j]?.map fun o => MSignal.algebraArrayRight f s o.channels
  | .energyDecay i => env[i]?.map fun s => s.energyDecay
  | .merge mode l => (lookup env l).map fun data => MSignal.merge mode data
  | .concatenate l => (lookup env l).map fun data => MSignal.concatenate data

/-- a program, that is executed with arrays in the memory: the variables, or the exception, that ends the program, and
the memory -/
def run [Zero α] [Add α] [Mul α] : List (Stmt α) → List (MSignal R) → Heap α → Option (Py (List (MSignal R)) × Heap α)
  | [], env, σ => some (.ok env, σ)
  | st :: rest, env, σ => do
    let m ← st.run env
    match m σ with
    | (.ok s, σ') => run rest (env ++ [s]) σ'
    | (.error e, σ') => some (.error e, σ')

end Memory
end Verif
