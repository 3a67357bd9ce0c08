import Verif.Numpy
import Verif.PyDict

/-
Model of the functions, that find a reader or a writer for a file (`sumpf/_internal/_persistence/_functions.py` and
`sumpf/_internal/_persistence/_auto_writer.py`).

The classes of the readers and writers are the elements of a list in the order of `__subclasses__()`. An instance of a
class is represented by the index of its class (and by the format for writers). The classes, that are considered here,
are not derived from each other, so `isinstance` compares these indices. The outcome of reading a file or writing a data
set is a function of the path (and the data set), i.e. the file is not modified between two attempts.
-/

namespace Verif
namespace Persistence

/-! ### reading -/

/-- a class of readers for files, that are identified by elements of `P`, and data sets in `D` -/
structure ReaderClass (P D : Type) where
  extensions : List String
  /-- the constructor -/
  create : Py Unit
  /-- the method `__call__` of an instance -/
  read : P → Py D

/-- the loop over the instances (`_functions.py:52-58`) -/
def tryInstances {P D : Type} (classes : List (ReaderClass P D)) (path : P) : List Nat → Option D
  | [] => none
  | r :: rs => match classes[r]? with
    | none => tryInstances classes path rs
    | some cls => match cls.read path with
      | .error _ => tryInstances classes path rs
      | .ok d => some d

/-- the loop over the classes, that are associated with the extension (`_functions.py:60-73`). `k` is the index of the
first class in the remaining ones. The result is the data set, if the file has been read, and the list of the instances,
which is modified in place. -/
def tryAssociated {P D : Type} (extension : String) (path : P) :
    Nat → List (ReaderClass P D) → List Nat → Py (Option D) × List Nat
  | _, [], readers => (.ok none, readers)
  | k, cls :: classes, readers =>
    if extension ∈ cls.extensions ∧ k ∉ readers then
      match cls.create with
      | .error .importError => tryAssociated extension path (k + 1) classes readers
      | .error e => (.error e, readers)
      | .ok () => match cls.read path with
        | .error _ => tryAssociated extension path (k + 1) classes (readers ++ [k])
        | .ok d => (.ok (some d), readers ++ [k])
    else tryAssociated extension path (k + 1) classes readers

/-- the loop over the other classes (`_functions.py:75-88`) -/
def tryOthers {P D : Type} (extension : String) (path : P) :
    Nat → List (ReaderClass P D) → List Nat → Py (Option D) × List Nat
  | _, [], readers => (.ok none, readers)
  | k, cls :: classes, readers =>
    if extension ∉ cls.extensions ∧ k ∉ readers then
      match cls.create with
      | .error .importError => tryOthers extension path (k + 1) classes readers
      | .error e => (.error e, readers)
      | .ok () => match cls.read path with
        | .error _ => tryOthers extension path (k + 1) classes readers
        | .ok d => (.ok (some d), readers ++ [k])
    else tryOthers extension path (k + 1) classes readers

/-- the dictionary after the call: `readers_list` is the list in the dictionary, if there is one for the extension.
Otherwise, it is a new list, that is not stored. -/
def storeList (readers : Dict String (List Nat)) (extension : String) (list : List Nat) : Dict String (List Nat) :=
  match readers.get? extension with
  | some _ => readers.set extension list
  | none => readers

/-- `read_file` (`_functions.py:24-90`) with the dictionary of instances after the call. `extension` is the result of
`os.path.splitext`. -/
def readFile {P D : Type} (classes : List (ReaderClass P D)) (readers : Dict String (List Nat)) (extension : String)
    (path : P) : Py D × Dict String (List Nat) :=
  let list := (readers.get? extension).getD []
  match tryInstances classes path list with
  | some d => (.ok d, readers)
  | none => match tryAssociated extension path 0 classes list with
    | (.error e, list) => (.error e, storeList readers extension list)
    | (.ok (some d), list) => (.ok d, storeList readers extension list)
    | (.ok none, list) => match tryOthers extension path 0 classes list with
      | (.error e, list) => (.error e, storeList readers extension list)
      | (.ok (some d), list) => (.ok d, storeList readers extension list)
      | (.ok none, list) => (.error .valueError, storeList readers extension list)

/-- a sequence of calls, that share the dictionary -/
def readFiles {P D : Type} (classes : List (ReaderClass P D)) :
    Dict String (List Nat) → List (String × P) → List (Py D) × Dict String (List Nat)
  | readers, [] => ([], readers)
  | readers, (extension, path) :: calls =>
    let r := readFile classes readers extension path
    let rs := readFiles classes r.2 calls
    (r.1 :: rs.1, rs.2)

/-! ### writing -/

/-- a class of writers for the formats in `F`, data sets in `D` and paths in `P`, that create files with contents in `C` -/
structure WriterClass (F D P C : Type) where
  formats : List F
  /-- the constructor -/
  create : F → Py Unit
  /-- the method `__call__` of an instance for the format -/
  write : F → D → P → Py C

/-- an instance of a writer: the index of its class and its format -/
abbrev Writer (F : Type) := Nat × F

/-- `writer(data, path)` -/
def Writer.call {F D P C : Type} (classes : List (WriterClass F D P C)) (w : Writer F) (data : D) (path : P) : Py C :=
  match classes[w.1]? with
  | none => .error .typeError
  | some cls => cls.write w.2 data path

/-- the state, that is shared by all calls: the dictionary `writers`, the attribute `__extensions` of the `AutoWriter`
and, for the verification, a log of all instances, that have been created -/
structure SaveState (F : Type) where
  writers : Dict F (Writer F)
  extensions : Dict String (List (Writer F))
  created : List (Writer F)

/-- the loop over the classes (`_functions.py:112-121`), `k` is the index of the first remaining class -/
def createWriter {F D P C : Type} [DecidableEq F] (format : F) : Nat → List (WriterClass F D P C) → Py (Writer F)
  | _, [] => .error .valueError
  | k, cls :: classes =>
    if format ∈ cls.formats then
      match cls.create format with
      | .error .importError => createWriter format (k + 1) classes
      | .error e => .error e
      | .ok () => .ok (k, format)
    else createWriter format (k + 1) classes

/-- `get_writer` (`_functions.py:89-121`) for other formats than `AUTO` -/
def getWriter {F D P C : Type} [DecidableEq F] (classes : List (WriterClass F D P C)) (s : SaveState F) (format : F) :
    Py (Writer F) × SaveState F :=
  match s.writers.get? format with
  | some w => (.ok w, s)
  | none => match createWriter format 0 classes with
    | .error e => (.error e, s)
    | .ok w => (.ok w, { s with writers := s.writers.set format w, created := s.created ++ [w] })

/-- the loop over the instances (`_auto_writer.py:63-72`): the content of the file and the list with the successful
instance at the front or an exception or `none`, if all instances have raised a `ValueError` -/
def tryCached {F D P C : Type} (classes : List (WriterClass F D P C)) (data : D) (path : P) :
    List (Writer F) → List (Writer F) → Option (Py (C × List (Writer F)))
  | _, [] => none
  | before, w :: ws => match Writer.call classes w data path with
    | .ok c => some (.ok (c, w :: before ++ ws))
    | .error .valueError => tryCached classes data path (before ++ [w]) ws
    | .error e => some (.error e)

/-- the loop over the formats (`_auto_writer.py:75-86`) -/
def tryFormats {F D P C : Type} [DecidableEq F] (classes : List (WriterClass F D P C)) (extension : String) (data : D)
    (path : P) : List F → SaveState F → Py C × SaveState F
  | [], s => (.error .importError, s)
  | format :: formats, s =>
    let g := getWriter classes s format
    let outcome : Py (C × Writer F) := g.1 >>= fun w => Writer.call classes w data path >>= fun c => .ok (c, w)
    match outcome with
    | .error .importError => tryFormats classes extension data path formats g.2
    | .error .valueError => tryFormats classes extension data path formats g.2
    | .error e => (.error e, g.2)
    | .ok (c, w) =>
      (.ok c, { g.2 with extensions := g.2.extensions.set extension ((g.2.extensions.get? extension).getD [] ++ [w]) })

/-- `AutoWriter.__call__` (`_auto_writer.py:53-88`). `extension` is the result of `os.path.splitext`. -/
def autoWrite {F D P C : Type} [DecidableEq F] (classes : List (WriterClass F D P C)) (mapping : Dict String (List F))
    (s : SaveState F) (extension : String) (data : D) (path : P) : Py C × SaveState F :=
  match tryCached classes data path [] ((s.extensions.get? extension).getD []) with
  | some (.ok (c, ws)) => (.ok c, { s with extensions := s.extensions.set extension ws })
  | some (.error e) => (.error e, s)
  | none => match mapping.get? extension with
    | some formats => tryFormats classes extension data path formats s
    | none => (.error .valueError, s)

/-- `save` (e.g. `_signal.py:820-837`), `none` is the format `AUTO` -/
def save {F D P C : Type} [DecidableEq F] (classes : List (WriterClass F D P C)) (mapping : Dict String (List F))
    (s : SaveState F) (format : Option F) (extension : String) (data : D) (path : P) : Py C × SaveState F :=
  match format with
  | none => autoWrite classes mapping s extension data path
  | some format =>
    let g := getWriter classes s format
    (g.1 >>= fun w => Writer.call classes w data path, g.2)

/-- a call of `save` -/
structure SaveCall (F D P : Type) where
  format : Option F
  extension : String
  data : D
  path : P

/-- the state after a sequence of calls -/
def saveAll {F D P C : Type} [DecidableEq F] (classes : List (WriterClass F D P C)) (mapping : Dict String (List F)) :
    SaveState F → List (SaveCall F D P) → SaveState F
  | s, [] => s
  | s, c :: calls => saveAll classes mapping (save classes mapping s c.format c.extension c.data c.path).2 calls

end Persistence
end Verif
