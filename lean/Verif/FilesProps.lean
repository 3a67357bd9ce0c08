import Verif.Files
import Verif.PersistenceProps
import Verif.ContainerProps
import Verif.AudioFileProps
import Verif.TableProps

/-
Property C112: data sets, that have been saved to a file, can be loaded from that file.
-/

namespace Verif
namespace Persistence

section

variable {F D P C : Type} [DecidableEq F]

/-- everything, that is remembered between two calls of `save`, comes from the tables of writers and extensions -/
structure Coherent (classes : List (WriterClass F D P C)) (mapping : Dict String (List F)) (s : SaveState F) : Prop where
  writers : ∀ f w, s.writers.get? f = some w → createWriter f 0 classes = .ok w
  extensions : ∀ e l, s.extensions.get? e = some l → ∀ w ∈ l, ∃ fs f, mapping.get? e = some fs ∧ f ∈ fs ∧
    createWriter f 0 classes = .ok w

theorem coherent_initial (classes : List (WriterClass F D P C)) (mapping : Dict String (List F)) :
    Coherent classes mapping .initial :=
  ⟨fun _ _ h => (by cases h), fun _ _ h => (by cases h)⟩

theorem getWriter_coherent {classes : List (WriterClass F D P C)} {mapping : Dict String (List F)} {s : SaveState F}
    (hs : Coherent classes mapping s) (f : F) :
    (getWriter classes s f).1 = createWriter f 0 classes ∧ Coherent classes mapping (getWriter classes s f).2 := by
  unfold getWriter
  cases h : s.writers.get? f with
  | some w => exact ⟨(hs.writers f w h).symm, hs⟩
  | none =>
    dsimp only
    cases hc : createWriter f 0 classes with
    | error e => exact ⟨rfl, hs⟩
    | ok w =>
      refine ⟨rfl, fun g v hg => ?_, hs.extensions⟩
      dsimp only at hg
      rw [Dict.get?_set] at hg
      by_cases hfg : g = f
      · rw [if_pos hfg] at hg
        rw [hfg, hc, Option.some.inj hg]
      · rw [if_neg hfg] at hg
        exact hs.writers g v hg

theorem tryFormats_coherent {classes : List (WriterClass F D P C)} {mapping : Dict String (List F)} (e : String) (d : D) (p : P)
    {all : List F} (hm : mapping.get? e = some all) (fs : List F) :
    (∀ f ∈ fs, f ∈ all) → ∀ s : SaveState F, Coherent classes mapping s →
      Coherent classes mapping (tryFormats classes e d p fs s).2 := by
  induction fs with
  | nil => exact fun _ s hs => hs
  | cons f fs ih =>
    intro hf s hs
    obtain ⟨g1, g2⟩ := getWriter_coherent hs f
    have ih := ih (fun g hg => hf g (List.mem_cons_of_mem _ hg)) _ g2
    unfold tryFormats
    dsimp only
    split
    · exact ih
    · exact ih
    · exact g2
    · rename_i c w ho
      refine ⟨g2.writers, fun e' l hl v hv => ?_⟩
      dsimp only at hl
      rw [Dict.get?_set] at hl
      by_cases he : e' = e
      · rw [if_pos he] at hl
        cases hl
        rw [List.mem_append, List.mem_singleton] at hv
        rcases hv with hv | rfl
        · cases hx : (getWriter classes s f).2.extensions.get? e with
          | none =>
            rw [hx] at hv
            cases hv
          | some l' =>
            rw [hx] at hv
            rw [he]
            exact g2.extensions e l' hx v hv
        · refine ⟨all, f, he ▸ hm, hf f List.mem_cons_self, ?_⟩
          rw [← g1]
          cases hw : (getWriter classes s f).1 with
          | error x =>
            rw [hw] at ho
            cases ho
          | ok u =>
            rw [hw] at ho
            cases hu : Writer.call classes u d p with
            | error x =>
              have ho : (Writer.call classes u d p >>= fun c => Except.ok (c, u)) = Except.ok (c, v) := ho
              rw [hu] at ho
              cases ho
            | ok c' =>
              have ho : (Writer.call classes u d p >>= fun c => Except.ok (c, u)) = Except.ok (c, v) := ho
              rw [hu] at ho
              cases ho
              rfl
      · rw [if_neg he] at hl
        exact g2.extensions e' l hl v hv

omit [DecidableEq F] in
theorem tryCached_mem {classes : List (WriterClass F D P C)} (d : D) (p : P) (ws : List (Writer F)) :
    ∀ before c l, tryCached classes d p before ws = some (.ok (c, l)) → ∀ v ∈ l, v ∈ before ∨ v ∈ ws := by
  induction ws with
  | nil =>
    intro before c l h
    cases h
  | cons w ws ih =>
    intro before c l h v hv
    unfold tryCached at h
    split at h
    · cases h
      simp only [List.cons_append, List.mem_cons, List.mem_append] at hv ⊢
      tauto
    · have := ih _ c l h v hv
      simp only [List.mem_append, List.mem_cons, List.not_mem_nil, or_false] at this ⊢
      tauto
    · cases h

theorem save_coherent {classes : List (WriterClass F D P C)} {mapping : Dict String (List F)} {s : SaveState F}
    (hs : Coherent classes mapping s) (f : Option F) (e : String) (d : D) (p : P) :
    Coherent classes mapping (save classes mapping s f e d p).2 := by
  cases f with
  | some f => exact (getWriter_coherent hs f).2
  | none =>
    show Coherent classes mapping (autoWrite classes mapping s e d p).2
    unfold autoWrite
    split
    · rename_i c ws h
      refine ⟨hs.writers, fun e' l hl v hv => ?_⟩
      dsimp only at hl
      rw [Dict.get?_set] at hl
      by_cases he : e' = e
      · rw [if_pos he] at hl
        cases hl
        rcases tryCached_mem d p _ _ c ws h v hv with hv | hv
        · cases hv
        · cases hx : s.extensions.get? e with
          | none =>
            rw [hx] at hv
            cases hv
          | some l' =>
            rw [hx] at hv
            rw [he]
            exact hs.extensions e l' hx v hv
      · rw [if_neg he] at hl
        exact hs.extensions e' l hl v hv
    · exact hs
    · split
      · rename_i formats hm
        exact tryFormats_coherent e d p hm formats (fun f hf => hf) s hs
      · exact hs

theorem saveAll_coherent (classes : List (WriterClass F D P C)) (mapping : Dict String (List F))
    (calls : List (SaveCall F D P)) : ∀ s : SaveState F, Coherent classes mapping s →
      Coherent classes mapping (saveAll classes mapping s calls) := by
  induction calls with
  | nil => exact fun s hs => hs
  | cons c calls ih => exact fun s hs => ih _ (save_coherent hs _ _ _ _)

/-- saving in a given format -/
theorem save_some {classes : List (WriterClass F D P C)} {mapping : Dict String (List F)} {s : SaveState F}
    (hs : Coherent classes mapping s) (f : F) (e : String) (d : D) (p : P) :
    (save classes mapping s (some f) e d p).1 = createWriter f 0 classes >>= fun w => Writer.call classes w d p := by
  show ((getWriter classes s f).1 >>= fun w => Writer.call classes w d p) = _
  rw [(getWriter_coherent hs f).1]

/-- saving with the format `AUTO`, if there is only one format for the extension -/
theorem save_auto {classes : List (WriterClass F D P C)} {mapping : Dict String (List F)} {s : SaveState F}
    (hs : Coherent classes mapping s) (f : F) (e : String) (d : D) (p : P) (hm : mapping.get? e = some [f]) (w : Writer F)
    (hw : createWriter f 0 classes = .ok w) (c : C) (hc : Writer.call classes w d p = .ok c) :
    (save classes mapping s none e d p).1 = .ok c := by
  show (autoWrite classes mapping s e d p).1 = _
  have hall : ∀ v ∈ (s.extensions.get? e).getD [], v = w := by
    intro v hv
    cases hx : s.extensions.get? e with
    | none =>
      rw [hx] at hv
      cases hv
    | some l =>
      rw [hx] at hv
      obtain ⟨fs, g, h1, h2, h3⟩ := hs.extensions e l hx v hv
      rw [hm] at h1
      cases h1
      rw [List.mem_singleton.mp h2, hw] at h3
      exact (Except.ok.inj h3).symm
  unfold autoWrite
  cases hl : (s.extensions.get? e).getD [] with
  | cons v l =>
    rw [hl] at hall
    rw [tryCached, hall v List.mem_cons_self, hc]
  | nil =>
    rw [tryCached]
    dsimp only
    rw [hm]
    dsimp only
    unfold tryFormats
    dsimp only
    rw [(getWriter_coherent hs f).1, hw]
    show (match (Writer.call classes w d p >>= fun c => Except.ok (c, w) : Py (C × Writer F)) with
      | .error .importError => _ | .error .valueError => _ | .error e => _ | .ok (c, w) => _ : Py C × SaveState F).1 = _
    rw [hc]
    rfl

end

/-- The result of loading a file comes from a reader, that can read it. -/
theorem load_result {P D : Type} (classes : List (ReaderClass P D)) (hi : OnlyImportErrors classes) (extension : String) (path : P)
    (h : ∃ cls ∈ classes, cls.create = .ok () ∧ ∃ d, cls.read path = .ok d) :
    ∃ cls ∈ classes, cls.create = .ok () ∧ ∃ d, cls.read path = .ok d ∧
      (readFile classes [] extension path).1 = .ok d := by
  obtain ⟨d, hd⟩ := ((C46_success classes hi [] (fun e l h => by cases h) extension path).1).mpr h
  have ho := C46_order classes hi [] extension path
  rw [hd] at ho
  cases hf : (documentedOrder classes ((Dict.get? ([] : Dict String (List Nat)) extension).getD []) extension).findSome?
      (readable path) with
  | none =>
    rw [hf] at ho
    cases ho
  | some d' =>
    rw [hf] at ho
    cases ho
    obtain ⟨cls, h1, h2⟩ := List.exists_of_findSome?_eq_some hf
    refine ⟨cls, ?_, ?_, d, ?_, hd⟩
    all_goals
      unfold documentedOrder at h1
      simp only [List.mem_append, List.mem_filterMap, List.mem_map, List.mem_filter, decide_eq_true_eq] at h1
    · rcases h1 with ⟨k, hk, _⟩ | ⟨p, ⟨hp, _⟩, rfl⟩ | ⟨p, ⟨hp, _⟩, rfl⟩
      · cases hk
      · exact List.fst_mem_of_mem_zipIdx hp
      · exact List.fst_mem_of_mem_zipIdx hp
    · rcases h1 with ⟨k, hk, _⟩ | ⟨p, ⟨_, _, ha, _⟩, rfl⟩ | ⟨p, ⟨_, _, ha, _⟩, rfl⟩
      · cases hk
      · exact ha
      · exact ha
    · unfold readable at h2
      cases hr : cls.read path with
      | error e =>
        rw [hr] at h2
        cases h2
      | ok d' =>
        rw [hr] at h2
        rw [Option.some.inj h2]

end Persistence

namespace Files

open Persistence

/-! ### signals -/

/-- Two signals have the same samples, sampling rate, offset and labels. -/
def SameSignal (b a : Signal ℚ ℚ) : Prop :=
  b.channels.Eqv a.channels ∧ b.rate = a.rate ∧ b.offset = a.offset ∧ b.labels = a.labels

/-- what is known about the library `soundfile`: It refuses files, that are no audio files, and it decodes integer files like
the standard library does. -/
structure Soundfile.Contract {X : Type} (sf : Soundfile X) : Prop where
  csv : ∀ l name, ∃ e, sf.read (.csv l) name = .error e
  json : ∀ d name, ∃ e, sf.read (.json d) name = .error e
  npy : ∀ a name, ∃ e, sf.read (.npy a) name = .error e
  npz : ∀ a name, ∃ e, sf.read (.npz a) name = .error e
  pickle : ∀ s name, ∃ e, sf.read (.pickle s) name = .error e
  wave : ∀ f name, ∃ mem, sf.read (.wave f) name = Audio.read mem .wave name f
  aifc : ∀ f name, ∃ mem, sf.read (.aifc f) name = Audio.read mem .aifc name f

variable {X : Type}

theorem signalReaders_import (mem : Nat → Nat → ℚ) (sf : Soundfile X) : OnlyImportErrors (signalReaders mem sf) := by
  intro cls hc e he
  simp only [signalReaders, List.mem_cons, List.not_mem_nil, or_false] at hc
  rcases hc with rfl | rfl | rfl | rfl | rfl | rfl | rfl <;> dsimp only at he
  all_goals try cases he
  split at he
  · cases he
  · cases he
    rfl

/-- The result of loading a signal has a property `Q`, if all results of the readers have this property and the class with the
index `k` can read the file. -/
theorem load_of (mem : Nat → Nat → ℚ) (sf : Soundfile X) (ext : String) (file : SignalFile X) (name : String)
    (Q : Signal ℚ ℚ → Prop) (h : ∃ cls ∈ signalReaders mem sf, cls.create = .ok () ∧ ∃ d, cls.read (file, name) = .ok d)
    (hQ : ∀ cls ∈ signalReaders mem sf, ∀ d, cls.read (file, name) = .ok d → Q d) :
    ∃ b, (loadSignal mem sf [] ext file name).1 = .ok b ∧ Q b := by
  obtain ⟨cls, h1, h2, d, h3, h4⟩ := load_result _ (signalReaders_import mem sf) ext (file, name) h
  exact ⟨d, h4, hQ cls h1 d h3⟩

theorem load_csv (mem : Nat → Nat → ℚ) {sf : Soundfile X} (hsf : sf.Contract) (ext : String) (lines : List (List (Table.Cell ℚ)))
    (name : String) (b : Signal ℚ ℚ) (h : Table.signalCsvRead mem lines = .ok b) :
    (loadSignal mem sf [] ext (.csv lines) name).1 = .ok b := by
  obtain ⟨c, h1, rfl⟩ := load_of mem sf ext (.csv lines) name (fun d => d = b)
    ⟨_, List.mem_cons_self, rfl, b, h⟩ (by
      intro cls hc d hd
      simp only [signalReaders, List.mem_cons, List.not_mem_nil, or_false] at hc
      rcases hc with rfl | rfl | rfl | rfl | rfl | rfl | rfl <;> dsimp only at hd
      all_goals first
        | (cases hd; done)
        | exact Except.ok.inj (hd.symm.trans h)
        | (obtain ⟨e, he⟩ := hsf.csv lines name
           rw [he] at hd
           cases hd))
  exact h1

theorem load_json (mem : Nat → Nat → ℚ) {sf : Soundfile X} (hsf : sf.Contract) (ext : String) (dict : Container.SignalDict ℚ)
    (name : String) (b : Signal ℚ ℚ) (h : Container.signalFromDict mem dict = .ok b) :
    (loadSignal mem sf [] ext (.json dict) name).1 = .ok b := by
  obtain ⟨c, h1, rfl⟩ := load_of mem sf ext (.json dict) name (fun d => d = b)
    ⟨_, List.mem_cons_of_mem _ List.mem_cons_self, rfl, b, h⟩ (by
      intro cls hc d hd
      simp only [signalReaders, List.mem_cons, List.not_mem_nil, or_false] at hc
      rcases hc with rfl | rfl | rfl | rfl | rfl | rfl | rfl <;> dsimp only at hd
      all_goals first
        | (cases hd; done)
        | exact Except.ok.inj (hd.symm.trans h)
        | (obtain ⟨e, he⟩ := hsf.json dict name
           rw [he] at hd
           cases hd))
  exact h1

theorem load_npy (mem : Nat → Nat → ℚ) {sf : Soundfile X} (hsf : sf.Contract) (ext : String) (array : Table.NpyArray ℚ)
    (name : String) (b : Signal ℚ ℚ) (h : Table.signalNpyRead mem name array = .ok b) :
    (loadSignal mem sf [] ext (.npy array) name).1 = .ok b := by
  obtain ⟨c, h1, rfl⟩ := load_of mem sf ext (.npy array) name (fun d => d = b)
    ⟨_, List.mem_cons_of_mem _ (List.mem_cons_of_mem _ List.mem_cons_self), rfl, b, h⟩ (by
      intro cls hc d hd
      simp only [signalReaders, List.mem_cons, List.not_mem_nil, or_false] at hc
      rcases hc with rfl | rfl | rfl | rfl | rfl | rfl | rfl <;> dsimp only at hd
      all_goals first
        | (cases hd; done)
        | exact Except.ok.inj (hd.symm.trans h)
        | (obtain ⟨e, he⟩ := hsf.npy array name
           rw [he] at hd
           cases hd))
  exact h1

theorem load_npz (mem : Nat → Nat → ℚ) {sf : Soundfile X} (hsf : sf.Contract) (ext : String) (a : SignalArrays)
    (name : String) (b : Signal ℚ ℚ) (h : (Container.PySignal.throughNpz mem ⟨a.channels, .number a.rate, .number a.offset, a.labels⟩).map
      Container.PySignal.signal = .ok b) :
    (loadSignal mem sf [] ext (.npz a) name).1 = .ok b := by
  obtain ⟨c, h1, rfl⟩ := load_of mem sf ext (.npz a) name (fun d => d = b)
    ⟨_, List.mem_cons_of_mem _ (List.mem_cons_of_mem _ List.mem_cons_self), rfl, b, h⟩ (by
      intro cls hc d hd
      simp only [signalReaders, List.mem_cons, List.not_mem_nil, or_false] at hc
      rcases hc with rfl | rfl | rfl | rfl | rfl | rfl | rfl <;> dsimp only at hd
      all_goals first
        | (cases hd; done)
        | exact Except.ok.inj (hd.symm.trans h)
        | (obtain ⟨e, he⟩ := hsf.npz a name
           rw [he] at hd
           cases hd))
  exact h1

theorem load_pickle (mem : Nat → Nat → ℚ) {sf : Soundfile X} (hsf : sf.Contract) (ext : String) (s : Signal ℚ ℚ)
    (name : String) (b : Signal ℚ ℚ) (h : Except.ok (ε := PyExc) s = .ok b) :
    (loadSignal mem sf [] ext (.pickle s) name).1 = .ok b := by
  obtain ⟨c, h1, rfl⟩ := load_of mem sf ext (.pickle s) name (fun d => d = b)
    ⟨_, List.mem_cons_of_mem _ (List.mem_cons_of_mem _ (List.mem_cons_of_mem _ List.mem_cons_self)), rfl, b, h⟩ (by
      intro cls hc d hd
      simp only [signalReaders, List.mem_cons, List.not_mem_nil, or_false] at hc
      rcases hc with rfl | rfl | rfl | rfl | rfl | rfl | rfl <;> dsimp only at hd
      all_goals first
        | (cases hd; done)
        | exact Except.ok.inj (hd.symm.trans h)
        | (obtain ⟨e, he⟩ := hsf.pickle s name
           rw [he] at hd
           cases hd))
  exact h1

theorem load_wave (mem : Nat → Nat → ℚ) {sf : Soundfile X} (hsf : sf.Contract) (ext : String) (f : Audio.File)
    (name : String) (Q : Signal ℚ ℚ → Prop) (h : ∀ mem, ∃ b, Audio.read mem .wave name f = .ok b ∧ Q b) :
    ∃ b, (loadSignal mem sf [] ext (.wave f) name).1 = .ok b ∧ Q b := by
  obtain ⟨b, hb, _⟩ := h mem
  refine load_of mem sf ext (.wave f) name Q
    ⟨_, List.mem_cons_of_mem _ (List.mem_cons_of_mem _ (List.mem_cons_of_mem _ (List.mem_cons_of_mem _ List.mem_cons_self))), rfl, b, hb⟩ ?_
  intro cls hc d hd
  simp only [signalReaders, List.mem_cons, List.not_mem_nil, or_false] at hc
  have key : ∀ mem', Audio.read mem' .wave name f = .ok d → Q d := by
    intro mem' hd
    obtain ⟨c, h1, h2⟩ := h mem'
    rw [hd] at h1
    rw [Except.ok.inj h1]
    exact h2
  rcases hc with rfl | rfl | rfl | rfl | rfl | rfl | rfl <;> dsimp only at hd
  all_goals first
    | (cases hd; done)
    | exact key mem hd
    | (obtain ⟨m, hm⟩ := hsf.wave f name
       rw [hm] at hd
       exact key m hd)

theorem load_aifc (mem : Nat → Nat → ℚ) {sf : Soundfile X} (hsf : sf.Contract) (ext : String) (f : Audio.File)
    (name : String) (Q : Signal ℚ ℚ → Prop) (h : ∀ mem, ∃ b, Audio.read mem .aifc name f = .ok b ∧ Q b) :
    ∃ b, (loadSignal mem sf [] ext (.aifc f) name).1 = .ok b ∧ Q b := by
  obtain ⟨b, hb, _⟩ := h mem
  refine load_of mem sf ext (.aifc f) name Q
    ⟨_, List.mem_cons_of_mem _ (List.mem_cons_of_mem _ (List.mem_cons_of_mem _ (List.mem_cons_of_mem _ (List.mem_cons_of_mem _ List.mem_cons_self)))), rfl, b, hb⟩ ?_
  intro cls hc d hd
  simp only [signalReaders, List.mem_cons, List.not_mem_nil, or_false] at hc
  have key : ∀ mem', Audio.read mem' .aifc name f = .ok d → Q d := by
    intro mem' hd
    obtain ⟨c, h1, h2⟩ := h mem'
    rw [hd] at h1
    rw [Except.ok.inj h1]
    exact h2
  rcases hc with rfl | rfl | rfl | rfl | rfl | rfl | rfl <;> dsimp only at hd
  all_goals first
    | (cases hd; done)
    | exact key mem hd
    | (obtain ⟨m, hm⟩ := hsf.aifc f name
       rw [hm] at hd
       exact key m hd)

/-! The writers of the formats -/

theorem writer_csv (mem : Nat → ℚ) (sf : Soundfile X) : createWriter .textCsv 0 (signalWriters mem sf) = .ok (0, .textCsv) := rfl
theorem writer_json (mem : Nat → ℚ) (sf : Soundfile X) :
    createWriter .textJson 0 (signalWriters mem sf) = .ok (1, .textJson) := rfl
theorem writer_npy (mem : Nat → ℚ) (sf : Soundfile X) :
    createWriter .numpyNpy 0 (signalWriters mem sf) = .ok (2, .numpyNpy) := rfl
theorem writer_npz (mem : Nat → ℚ) (sf : Soundfile X) :
    createWriter .numpyNpz 0 (signalWriters mem sf) = .ok (3, .numpyNpz) := rfl
theorem writer_pickle (mem : Nat → ℚ) (sf : Soundfile X) :
    createWriter .pythonPickle 0 (signalWriters mem sf) = .ok (4, .pythonPickle) := rfl

/-- what has been written and loaded by the writer for a format, that preserves everything -/
theorem exact_format (wmem : Nat → ℚ) (rmem : Nat → Nat → ℚ) {sf : Soundfile X} (hsf : sf.Contract) (f : SignalFormat)
    (hf : f ∈ [SignalFormat.textCsv, .textJson, .numpyNpz, .pythonPickle]) (ext name : String) (a : Signal ℚ ℚ)
    (hl : a.labels.length = a.channels.rows) (hm : 1 ≤ a.channels.rows) (hn : 2 ≤ a.channels.cols) (hr : 0 < a.rate) :
    ∃ w file b, createWriter f 0 (signalWriters wmem sf) = .ok w ∧ Writer.call (signalWriters wmem sf) w a name = .ok file ∧
      (loadSignal rmem sf [] ext file name).1 = .ok b ∧ SameSignal b a := by
  simp only [List.mem_cons, List.not_mem_nil, or_false] at hf
  rcases hf with rfl | rfl | rfl | rfl
  · obtain ⟨header, lines, h1, h2⟩ := Table.C50_signal_csv rmem a hl hm hn hr
    obtain ⟨b, h3, h4⟩ := h2 lines (.refl _)
    refine ⟨_, .csv (header :: lines), b, writer_csv wmem sf, ?_, load_csv rmem hsf ext _ name b h3, h4⟩
    show (Table.signalCsvWrite a).map _ = _
    rw [h1]
    rfl
  · obtain ⟨b, h1, h2⟩ := Container.C66_signal_json rmem a hl hm
    exact ⟨_, .json (Container.signalAsDict a), b, writer_json wmem sf, rfl, load_json rmem hsf ext _ name b h1, h2⟩
  · obtain ⟨b, h1, h2⟩ := Container.C66_signal_npz rmem ⟨a.channels, .number a.rate, .number a.offset, a.labels⟩ hl
    refine ⟨_, .npz ⟨a.channels, a.rate, a.offset, a.labels⟩, b.signal, writer_npz wmem sf, rfl,
      load_npz rmem hsf ext _ name b.signal ?_, h2⟩
    dsimp only
    rw [h1]
    rfl
  · exact ⟨_, .pickle a, a, writer_pickle wmem sf, rfl, load_pickle rmem hsf ext a name a rfl, .refl _, rfl, rfl, rfl⟩

/-- C112: A signal, that has been saved in one of the formats CSV, JSON, NPZ or pickle, is restored by loading the file, no matter
what has been saved before, which extension the file has and if the library `soundfile` is available. -/
theorem C112_signal (wmem : Nat → ℚ) (rmem : Nat → Nat → ℚ) (sf : Soundfile X) (hsf : sf.Contract)
    (history : List (SaveCall SignalFormat (Signal ℚ ℚ) String)) (f : SignalFormat)
    (hf : f ∈ [SignalFormat.textCsv, .textJson, .numpyNpz, .pythonPickle]) (ext name : String) (a : Signal ℚ ℚ)
    (hl : a.labels.length = a.channels.rows) (hm : 1 ≤ a.channels.rows) (hn : 2 ≤ a.channels.cols) (hr : 0 < a.rate) :
    ∃ file b, (saveSignal wmem sf (saveAll (signalWriters wmem sf) signalMapping .initial history) (some f) ext a name).1 =
        .ok file ∧
      (loadSignal rmem sf [] ext file name).1 = .ok b ∧
      b.channels.Eqv a.channels ∧ b.rate = a.rate ∧ b.offset = a.offset ∧ b.labels = a.labels := by
  obtain ⟨w, file, b, h1, h2, h3, h4⟩ := exact_format wmem rmem hsf f hf ext name a hl hm hn hr
  refine ⟨file, b, ?_, h3, h4⟩
  unfold saveSignal
  rw [save_some (saveAll_coherent _ _ history _ (coherent_initial _ _)), h1]
  exact h2

/-- C112: The same holds for the format `AUTO`, if the file has one of the extensions for these formats. -/
theorem C112_signal_auto (wmem : Nat → ℚ) (rmem : Nat → Nat → ℚ) (sf : Soundfile X) (hsf : sf.Contract)
    (history : List (SaveCall SignalFormat (Signal ℚ ℚ) String)) (ext name : String)
    (he : ext ∈ [".csv", ".json", ".js", ".npz", ".pickle"]) (a : Signal ℚ ℚ)
    (hl : a.labels.length = a.channels.rows) (hm : 1 ≤ a.channels.rows) (hn : 2 ≤ a.channels.cols) (hr : 0 < a.rate) :
    ∃ file b, (saveSignal wmem sf (saveAll (signalWriters wmem sf) signalMapping .initial history) none ext a name).1 =
        .ok file ∧
      (loadSignal rmem sf [] ext file name).1 = .ok b ∧
      b.channels.Eqv a.channels ∧ b.rate = a.rate ∧ b.offset = a.offset ∧ b.labels = a.labels := by
  obtain ⟨f, hf, hmap⟩ : ∃ f, f ∈ [SignalFormat.textCsv, .textJson, .numpyNpz, .pythonPickle] ∧
      signalMapping.get? ext = some [f] := by
    simp only [List.mem_cons, List.not_mem_nil, or_false] at he
    rcases he with rfl | rfl | rfl | rfl | rfl
    · exact ⟨.textCsv, by decide, by decide⟩
    · exact ⟨.textJson, by decide, by decide⟩
    · exact ⟨.textJson, by decide, by decide⟩
    · exact ⟨.numpyNpz, by decide, by decide⟩
    · exact ⟨.pythonPickle, by decide, by decide⟩
  obtain ⟨w, file, b, h1, h2, h3, h4⟩ := exact_format wmem rmem hsf f hf ext name a hl hm hn hr
  exact ⟨file, b, save_auto (saveAll_coherent _ _ history _ (coherent_initial _ _)) f ext a name hmap w h1 file h2, h3, h4⟩

/-- C112: In NPY files, the labels are lost, they are replaced by the name of the file. -/
theorem C112_signal_npy (wmem : Nat → ℚ) (rmem : Nat → Nat → ℚ) (sf : Soundfile X) (hsf : sf.Contract)
    (history : List (SaveCall SignalFormat (Signal ℚ ℚ) String)) (f : Option SignalFormat) (ext name : String)
    (hf : f = some .numpyNpy ∨ f = none ∧ ext = ".npy") (a : Signal ℚ ℚ)
    (hm : 1 ≤ a.channels.rows) (hn : 2 ≤ a.channels.cols) (hr : 0 < a.rate) :
    ∃ file b, (saveSignal wmem sf (saveAll (signalWriters wmem sf) signalMapping .initial history) f ext a name).1 =
        .ok file ∧
      (loadSignal rmem sf [] ext file name).1 = .ok b ∧
      b.channels.Eqv a.channels ∧ b.rate = a.rate ∧ b.offset = a.offset ∧
      b.labels = (List.range a.channels.rows).map fun (i : Nat) => name ++ " " ++ toString (i + 1) := by
  have hs := saveAll_coherent (signalWriters wmem sf) signalMapping history _ (coherent_initial _ _)
  obtain ⟨array, b, h1, h2, h3⟩ := Table.C50_signal_npy rmem a name hm hn hr
  have hcall : Writer.call (signalWriters wmem sf) (2, .numpyNpy) a name = .ok (.npy array) := by
    show (Table.signalNpyWrite a).map _ = _
    rw [h1]
    rfl
  refine ⟨.npy array, b, ?_, load_npy rmem hsf ext array name b h2, h3⟩
  rcases hf with rfl | ⟨rfl, rfl⟩
  · unfold saveSignal
    rw [save_some hs, writer_npy]
    exact hcall
  · exact save_auto hs .numpyNpy ".npy" a name (by decide) _ (writer_npy wmem sf) _ hcall

/-- the hypotheses are satisfiable: a signal with two channels and three samples and a library, that can be imported and that
reads the integer files -/
example : ∃ (sf : Soundfile Unit) (a : Signal ℚ ℚ), sf.Contract ∧ sf.available = true ∧
    a.labels.length = a.channels.rows ∧ 1 ≤ a.channels.rows ∧ 2 ≤ a.channels.cols ∧ 0 < a.rate := by
  refine ⟨⟨true, fun _ _ => .ok (), fun file name => match file with
    | .wave f => Audio.read (fun _ _ => 0) .wave name f
    | .aifc f => Audio.read (fun _ _ => 0) .aifc name f
    | _ => .error .runtimeError⟩, ⟨⟨2, 3, fun c i => c + 2 * i⟩, 44100, -7, ["a", "b"]⟩, ?_, rfl, rfl, by decide, by decide,
    by norm_num⟩
  exact ⟨fun _ _ => ⟨_, rfl⟩, fun _ _ => ⟨_, rfl⟩, fun _ _ => ⟨_, rfl⟩, fun _ _ => ⟨_, rfl⟩, fun _ _ => ⟨_, rfl⟩,
    fun _ _ => ⟨_, rfl⟩, fun _ _ => ⟨_, rfl⟩⟩

/-! Audio files -/

/-- writing and loading an integer file -/
theorem audio_format (wmem : Nat → ℚ) (rmem : Nat → Nat → ℚ) {sf : Soundfile X} (hsf : sf.Contract) (f : SignalFormat)
    (g : Audio.Format) (hg : audioFormat f = some g) (ext name : String) (a : Signal ℚ ℚ) (hm : 0 < a.channels.rows)
    (hr : ∀ c i, c < a.channels.rows → i < a.channels.cols → Audio.Representable g (a.channels.get c i)) :
    ∃ w file b, createWriter f 0 (signalWriters wmem sf) = .ok w ∧ Writer.call (signalWriters wmem sf) w a name = .ok file ∧
      (loadSignal rmem sf [] ext file name).1 = .ok b ∧
      b.channels.rows = a.channels.rows ∧ b.channels.cols = a.channels.cols ∧
      (∀ c i, c < a.channels.rows → i < a.channels.cols →
        b.channels.get c i = Audio.quantized g (a.channels.get c i)) ∧
      b.rate = max 1 (pyRound a.rate : ℚ) ∧ b.offset = 0 ∧
      b.labels = (List.range a.channels.rows).map fun k => name ++ " " ++ toString (k + 1) := by
  obtain ⟨file, -, hw, -⟩ := Audio.C49_roundtrip wmem rmem g name a hm hr
  have hread : ∀ mem, ∃ b, Audio.read mem g.module' name file = .ok b ∧
      b.channels.rows = a.channels.rows ∧ b.channels.cols = a.channels.cols ∧
      (∀ c i, c < a.channels.rows → i < a.channels.cols →
        b.channels.get c i = Audio.quantized g (a.channels.get c i)) ∧
      b.rate = max 1 (pyRound a.rate : ℚ) ∧ b.offset = 0 ∧
      b.labels = (List.range a.channels.rows).map fun k => name ++ " " ++ toString (k + 1) := by
    intro mem
    obtain ⟨file', b, h1, h2⟩ := Audio.C49_roundtrip wmem mem g name a hm hr
    rw [hw] at h1
    cases h1
    exact ⟨b, h2⟩
  obtain ⟨w, h1, h2⟩ : ∃ w, createWriter f 0 (signalWriters wmem sf) = .ok w ∧
      Writer.call (signalWriters wmem sf) w a name = standardWrite wmem f a := by
    cases f <;> cases hg
    · exact ⟨(5, .wavUint8), rfl, rfl⟩
    · exact ⟨(5, .wavInt16), rfl, rfl⟩
    · exact ⟨(5, .wavInt32), rfl, rfl⟩
    · exact ⟨(6, .aiffInt8), rfl, rfl⟩
    · exact ⟨(6, .aiffInt16), rfl, rfl⟩
    · exact ⟨(6, .aiffInt32), rfl, rfl⟩
  have h3 : standardWrite wmem f a = .ok (match g.module' with
      | .wave => SignalFile.wave (X := X) file
      | .aifc => .aifc file) := by
    unfold standardWrite
    rw [hg]
    dsimp only
    rw [hw]
    rfl
  cases hmod : g.module' with
  | wave =>
    rw [hmod] at h3 hread
    obtain ⟨b, b1, b2⟩ := load_wave rmem hsf ext file name _ hread
    exact ⟨w, .wave file, b, h1, h2.trans h3, b1, b2⟩
  | aifc =>
    rw [hmod] at h3 hread
    obtain ⟨b, b1, b2⟩ := load_aifc rmem hsf ext file name _ hread
    exact ⟨w, .aifc file, b, h1, h2.trans h3, b1, b2⟩

/-- C112: The samples of signals are restored from integer audio files up to the resolution of the format, no matter what has
been saved before, which extension the file has and if the library `soundfile` is available. The sampling rate is
rounded, the offset and the labels are lost. -/
theorem C112_audio (wmem : Nat → ℚ) (rmem : Nat → Nat → ℚ) (sf : Soundfile X) (hsf : sf.Contract)
    (history : List (SaveCall SignalFormat (Signal ℚ ℚ) String)) (f : SignalFormat) (g : Audio.Format)
    (hg : audioFormat f = some g) (ext name : String) (a : Signal ℚ ℚ) (hm : 0 < a.channels.rows)
    (hr : ∀ c i, c < a.channels.rows → i < a.channels.cols → Audio.Representable g (a.channels.get c i)) :
    ∃ file b, (saveSignal wmem sf (saveAll (signalWriters wmem sf) signalMapping .initial history) (some f) ext a name).1 =
        .ok file ∧
      (loadSignal rmem sf [] ext file name).1 = .ok b ∧
      b.channels.rows = a.channels.rows ∧ b.channels.cols = a.channels.cols ∧
      (∀ c i, c < a.channels.rows → i < a.channels.cols →
        b.channels.get c i = Audio.quantized g (a.channels.get c i)) ∧
      b.rate = max 1 (pyRound a.rate : ℚ) ∧ b.offset = 0 ∧
      b.labels = (List.range a.channels.rows).map fun k => name ++ " " ++ toString (k + 1) := by
  obtain ⟨w, file, b, h1, h2, h3⟩ := audio_format wmem rmem hsf f g hg ext name a hm hr
  refine ⟨file, b, ?_, h3⟩
  unfold saveSignal
  rw [save_some (saveAll_coherent _ _ history _ (coherent_initial _ _)), h1]
  exact h2

/-- the outcome of saving the first signal with the format `AUTO` to an audio file, if `soundfile` is not available -/
theorem auto_standard (wmem : Nat → ℚ) (sf : Soundfile X) (ha : sf.available = false) (ext name : String) (f : SignalFormat)
    (he : ext = ".wav" ∧ f = .wavInt32 ∨ (ext = ".aiff" ∨ ext = ".aifc" ∨ ext = ".aif") ∧ f = .aiffInt32) (a : Signal ℚ ℚ)
    (hv : standardWrite wmem f a ≠ .error (ε := PyExc) (α := SignalFile X) .valueError)
    (hi : standardWrite wmem f a ≠ .error (ε := PyExc) (α := SignalFile X) .importError) :
    (saveSignal wmem sf .initial none ext a name).1 = standardWrite wmem f a := by
  have key : ∀ (g f : SignalFormat) (rest : List SignalFormat) (w : Writer SignalFormat),
      signalMapping.get? ext = some (g :: f :: rest) →
      createWriter g 0 (signalWriters wmem sf) = .error .valueError →
      createWriter f 0 (signalWriters wmem sf) = .ok w →
      Writer.call (signalWriters wmem sf) w a name = standardWrite wmem f a →
      standardWrite wmem f a ≠ .error (ε := PyExc) (α := SignalFile X) .valueError →
      standardWrite wmem f a ≠ .error (ε := PyExc) (α := SignalFile X) .importError →
      (saveSignal wmem sf .initial none ext a name).1 = standardWrite wmem f a := by
    intro g f rest w hm hg hf hw hv hi
    show (autoWrite _ _ _ _ _ _).1 = _
    unfold autoWrite
    rw [show (SaveState.initial : SaveState SignalFormat).extensions.get? ext = none from rfl]
    simp only [Option.getD_none, tryCached, hm]
    have hs := coherent_initial (signalWriters wmem sf) signalMapping
    unfold tryFormats
    dsimp only
    obtain ⟨g1, g2⟩ := getWriter_coherent hs g
    rw [g1, hg]
    show (tryFormats _ _ _ _ _ _).1 = _
    unfold tryFormats
    dsimp only
    rw [(getWriter_coherent g2 f).1, hf]
    have hb : (Except.ok w >>= fun w => Writer.call (signalWriters wmem sf) w a name >>= fun c => Except.ok (c, w) :
        Py (SignalFile X × Writer SignalFormat)) = (standardWrite wmem f a >>= fun c => Except.ok (c, w)) := by
      rw [← hw]
      rfl
    rw [hb]
    cases hx : (standardWrite wmem f a : Py (SignalFile X)) with
    | ok c => rfl
    | error e =>
      rw [hx] at hv hi
      cases e <;> first | rfl | exact absurd rfl hv | exact absurd rfl hi
  have hcr : ∀ g : SignalFormat, g = .wavFloat32 ∨ g = .aiffFloat32 →
      createWriter g 0 (signalWriters wmem sf) = .error .valueError := by
    intro g hg
    rcases hg with rfl | rfl <;>
    simp [createWriter, signalWriters, ha]
  rcases he with ⟨rfl, rfl⟩ | ⟨he, rfl⟩
  · exact key .wavFloat32 .wavInt32 _ (5, .wavInt32) rfl (hcr _ (.inl rfl)) rfl rfl hv hi
  · have hm : signalMapping.get? ext = some aiffFormats := by rcases he with rfl | rfl | rfl <;> rfl
    exact key .aiffFloat32 .aiffInt32 _ (6, .aiffInt32) hm (hcr _ (.inr rfl)) rfl rfl hv hi

/-- C112: Without the library `soundfile`, the first signal, that is saved with the format `AUTO` to a WAV or an AIFF file, is
stored with 32 bit integers and can be loaded. (What is missing: all samples have to be representable.) -/
theorem C112_audio_auto_partial (wmem : Nat → ℚ) (rmem : Nat → Nat → ℚ) (sf : Soundfile X) (hsf : sf.Contract)
    (ha : sf.available = false) (ext name : String) (f : SignalFormat) (g : Audio.Format)
    (he : ext = ".wav" ∧ f = .wavInt32 ∨ (ext = ".aiff" ∨ ext = ".aifc" ∨ ext = ".aif") ∧ f = .aiffInt32)
    (hg : audioFormat f = some g) (a : Signal ℚ ℚ) (hm : 0 < a.channels.rows)
    (hr : ∀ c i, c < a.channels.rows → i < a.channels.cols → Audio.Representable g (a.channels.get c i)) :
    ∃ file b, (saveSignal wmem sf .initial none ext a name).1 = .ok file ∧
      (loadSignal rmem sf [] ext file name).1 = .ok b ∧
      b.channels.rows = a.channels.rows ∧ b.channels.cols = a.channels.cols ∧
      (∀ c i, c < a.channels.rows → i < a.channels.cols →
        b.channels.get c i = Audio.quantized g (a.channels.get c i)) ∧
      b.rate = max 1 (pyRound a.rate : ℚ) ∧ b.offset = 0 := by
  obtain ⟨w, file, b, h1, h2, h3, h4, h5, h6, h7, h8, -⟩ := audio_format wmem rmem hsf f g hg ext name a hm hr
  have hcall : standardWrite wmem f a = .ok file := by
    rw [← h2]
    rcases he with ⟨-, rfl⟩ | ⟨-, rfl⟩ <;> (cases h1; rfl)
  refine ⟨file, b, ?_, h3, h4, h5, h6, h7, h8⟩
  rw [auto_standard wmem sf ha ext name f he a (by rw [hcall]; exact nofun) (by rw [hcall]; exact nofun), hcall]

/-- C112 is violated: Without the library `soundfile`, signals with a sample, that cannot be represented (e.g. a one), cannot be
saved to WAV or AIFF files with the format `AUTO`, the exception is neither a `ValueError` nor an `ImportError`. -/
theorem C112_full_scale_violated (wmem : Nat → ℚ) (sf : Soundfile X) (ha : sf.available = false) (ext name : String)
    (f : SignalFormat) (g : Audio.Format)
    (he : ext = ".wav" ∧ f = .wavInt32 ∨ (ext = ".aiff" ∨ ext = ".aifc" ∨ ext = ".aif") ∧ f = .aiffInt32)
    (hg : audioFormat f = some g) (a : Signal ℚ ℚ) (c i : Nat) (hc : c < a.channels.rows) (hi : i < a.channels.cols)
    (h1 : a.channels.get c i = 1) : (saveSignal wmem sf .initial none ext a name).1 = .error .structError := by
  have hw : Audio.write wmem g a = .error .structError := by
    obtain ⟨s1, s2⟩ := Audio.C49_success wmem g a
    cases hx : Audio.write wmem g a with
    | ok file =>
      have := (s1.mp ⟨file, hx⟩).2 c i hc hi
      rw [h1] at this
      exact absurd this (Audio.C49_full_scale g)
    | error e =>
      have := s2 e hx
      rw [if_neg (by omega)] at this
      rw [this]
  have hs : standardWrite wmem f a = .error (ε := PyExc) (α := SignalFile X) .structError := by
    unfold standardWrite
    rw [hg]
    dsimp only
    rw [hw]
    rfl
  rw [auto_standard wmem sf ha ext name f he a (by rw [hs]; exact nofun) (by rw [hs]; exact nofun), hs]

/-- C112: With the library `soundfile`, the first audio file, that is saved with the format `AUTO`, is written and read by this
library. -/
theorem C112_soundfile (wmem : Nat → ℚ) (rmem : Nat → Nat → ℚ) (sf : Soundfile X) (ha : sf.available = true)
    (ext name : String) (f : SignalFormat)
    (he : ext = ".wav" ∧ f = .wavFloat32 ∨ (ext = ".aiff" ∨ ext = ".aifc" ∨ ext = ".aif") ∧ f = .aiffFloat32 ∨
      ext = ".flac" ∧ f = .flacInt24 ∨ (ext = ".ogg" ∨ ext = ".oga") ∧ f = .oggVorbis)
    (a b : Signal ℚ ℚ) (x : X) (hw : sf.write f a = .ok x) (hr : sf.read (.soundfile x) name = .ok b) :
    (saveSignal wmem sf .initial none ext a name).1 = .ok (.soundfile x) ∧
      (loadSignal rmem sf [] ext (.soundfile x) name).1 = .ok b := by
  constructor
  · obtain ⟨rest, hm, hcr⟩ : ∃ rest, signalMapping.get? ext = some (f :: rest) ∧
        createWriter f 0 (signalWriters wmem sf) = .ok (7, f) := by
      rcases he with ⟨rfl, rfl⟩ | ⟨rfl | rfl | rfl, rfl⟩ | ⟨rfl, rfl⟩ | ⟨rfl | rfl, rfl⟩ <;>
      exact ⟨_, rfl, by simp [createWriter, signalWriters, ha]⟩
    show (autoWrite _ _ _ _ _ _).1 = _
    unfold autoWrite
    rw [show (SaveState.initial : SaveState SignalFormat).extensions.get? ext = none from rfl]
    simp only [Option.getD_none, tryCached, hm]
    unfold tryFormats
    dsimp only
    rw [(getWriter_coherent (coherent_initial (signalWriters wmem sf) signalMapping) f).1, hcr]
    have hb : (Except.ok (7, f) >>= fun w => Writer.call (signalWriters wmem sf) w a name >>= fun c => Except.ok (c, w) :
        Py (SignalFile X × Writer SignalFormat)) = .ok (.soundfile x, (7, f)) := by
      show ((sf.write f a).map SignalFile.soundfile >>= fun c => Except.ok (c, (7, f)) :
        Py (SignalFile X × Writer SignalFormat)) = _
      rw [hw]
      rfl
    rw [hb]
  · obtain ⟨c, h1, rfl⟩ := load_of rmem sf ext (.soundfile x) name (fun d => d = b)
      ⟨_, List.mem_cons_of_mem _ (List.mem_cons_of_mem _ (List.mem_cons_of_mem _ (List.mem_cons_of_mem _ (List.mem_cons_of_mem _
        (List.mem_cons_of_mem _ List.mem_cons_self))))), if_pos ha, b, hr⟩ (by
        intro cls hc d hd
        simp only [signalReaders, List.mem_cons, List.not_mem_nil, or_false] at hc
        rcases hc with rfl | rfl | rfl | rfl | rfl | rfl | rfl <;> dsimp only at hd
        all_goals first
          | (cases hd; done)
          | exact Except.ok.inj (hd.symm.trans hr))
    exact h1

/-- C112: Without the library `soundfile`, the attempt to save a signal to a FLAC or an Ogg file is reported with an
`ImportError`. -/
theorem C112_missing_library (wmem : Nat → ℚ) (sf : Soundfile X) (ha : sf.available = false) (ext name : String)
    (he : ext = ".flac" ∨ ext = ".ogg" ∨ ext = ".oga") (a : Signal ℚ ℚ) :
    (saveSignal wmem sf .initial none ext a name).1 = .error .importError := by
  have hf : ∀ f : SignalFormat, f = .flacInt24 ∨ f = .flacInt16 ∨ f = .flacInt8 ∨ f = .oggVorbis →
      ∀ s : SaveState SignalFormat, s.writers = [] → getWriter (signalWriters wmem sf) s f = (.error .valueError, s) := by
    intro f hf s hs
    unfold getWriter
    rw [hs]
    rcases hf with rfl | rfl | rfl | rfl <;> simp [createWriter, signalWriters, ha, Dict.get?_nil]
  show (autoWrite _ _ _ _ _ _).1 = _
  unfold autoWrite
  rw [show (SaveState.initial : SaveState SignalFormat).extensions.get? ext = none from rfl]
  have h24 := hf .flacInt24 (by simp) .initial rfl
  have h16 := hf .flacInt16 (by simp) .initial rfl
  have h8 := hf .flacInt8 (by simp) .initial rfl
  have hv := hf .oggVorbis (by simp) .initial rfl
  rcases he with rfl | rfl | rfl
  · rw [show signalMapping.get? ".flac" = some [.flacInt24, .flacInt16, .flacInt8] from rfl]
    simp only [Option.getD_none, tryCached, tryFormats, h24, h16, h8]
    rfl
  · rw [show signalMapping.get? ".ogg" = some [.oggVorbis] from rfl]
    simp only [Option.getD_none, tryCached, tryFormats, hv]
    rfl
  · rw [show signalMapping.get? ".oga" = some [.oggVorbis] from rfl]
    simp only [Option.getD_none, tryCached, tryFormats, hv]
    rfl

/-- C112: Each extension, for which signals can be saved with the format `AUTO`, is associated with a reader, that is available
with the library `soundfile`. -/
theorem C112_associated (mem : Nat → Nat → ℚ) (sf : Soundfile X) (ha : sf.available = true) (ext : String)
    (he : (signalMapping.get? ext).isSome) :
    ∃ cls ∈ signalReaders mem sf, cls.create = .ok () ∧ ext ∈ cls.extensions := by
  have hk := (Dict.mem_keys_iff _ _).mpr he
  simp only [signalMapping, Dict.keys, List.map_cons, List.map_nil, List.mem_cons, List.not_mem_nil, or_false] at hk
  unfold signalReaders
  rcases hk with rfl | rfl | rfl | rfl | rfl | rfl | rfl | rfl | rfl | rfl | rfl | rfl | rfl <;> simp [ha]

/-- C112 is violated: The reader for AIFF files is associated with the extension of WAV files. So, without the library
`soundfile`, no available reader is associated with the extensions of AIFF files, although they can be saved. -/
theorem C112_associated_violated (mem : Nat → Nat → ℚ) (sf : Soundfile X) (ha : sf.available = false) :
    (signalMapping.get? ".aiff").isSome ∧
      ∀ cls ∈ signalReaders mem sf, ".aiff" ∈ cls.extensions → cls.create = .error .importError := by
  refine ⟨by decide, ?_⟩
  intro cls hc hx
  simp only [signalReaders, List.mem_cons, List.not_mem_nil, or_false] at hc
  rcases hc with rfl | rfl | rfl | rfl | rfl | rfl | rfl
  all_goals first
    | (exfalso; simp at hx; done)
    | (dsimp only; rw [ha]; rfl)

/-- the hypotheses are satisfiable: a signal with samples, that can be represented, and one with a full scale sample -/
example : ∃ (sf : Soundfile Unit) (a b : Signal ℚ ℚ) (g : Audio.Format), sf.Contract ∧ sf.available = false ∧
    audioFormat .wavInt32 = some g ∧ 0 < a.channels.rows ∧ 0 < a.channels.cols ∧
    (∀ c i, c < a.channels.rows → i < a.channels.cols → Audio.Representable g (a.channels.get c i)) ∧
    b.channels.get 1 1 = 1 := by
  refine ⟨⟨false, fun _ _ => .error .importError, fun file name => match file with
    | .wave f => Audio.read (fun _ _ => 0) .wave name f
    | .aifc f => Audio.read (fun _ _ => 0) .aifc name f
    | _ => .error .runtimeError⟩, ⟨⟨2, 3, fun c _ => if c = 0 then -1 else 1 / 2⟩, 44100, -7, ["a", "b"]⟩,
    ⟨⟨2, 3, fun c i => if c = i then 1 else 0⟩, 44100, 0, ["a", "b"]⟩, _, ?_, rfl, rfl, by decide, by decide, ?_, rfl⟩
  · exact ⟨fun _ _ => ⟨_, rfl⟩, fun _ _ => ⟨_, rfl⟩, fun _ _ => ⟨_, rfl⟩, fun _ _ => ⟨_, rfl⟩, fun _ _ => ⟨_, rfl⟩,
      fun _ _ => ⟨_, rfl⟩, fun _ _ => ⟨_, rfl⟩⟩
  · intro c i _ _
    dsimp only
    split <;> exact ⟨by decide +kernel, by decide +kernel⟩

/-! ### spectrums -/

theorem spectrumReaders_import [LinearOrder ℂ] (mem : Nat → Nat → ℂ) : OnlyImportErrors (spectrumReaders mem) := by
  intro cls hc e he
  simp only [spectrumReaders, List.mem_cons, List.not_mem_nil, or_false] at hc
  rcases hc with rfl | rfl | rfl | rfl <;> cases he

/-- Loading a spectrum returns the result of the only reader, that accepts the file. -/
theorem load_spectrum [LinearOrder ℂ] (mem : Nat → Nat → ℂ) (ext : String) (file : SpectrumFile) (name : String)
    (b : Spectrum ℂ ℚ) (h : ∃ cls ∈ spectrumReaders mem, cls.read (file, name) = .ok b)
    (hQ : ∀ cls ∈ spectrumReaders mem, ∀ d, cls.read (file, name) = .ok d → d = b) :
    (loadSpectrum mem [] ext file name).1 = .ok b := by
  obtain ⟨cls, h1, h2⟩ := h
  have h0 : cls.create = .ok () := by
    simp only [spectrumReaders, List.mem_cons, List.not_mem_nil, or_false] at h1
    rcases h1 with rfl | rfl | rfl | rfl <;> rfl
  obtain ⟨cls', g1, g2, d, g3, g4⟩ := load_result _ (spectrumReaders_import mem) ext (file, name) ⟨cls, h1, h0, b, h2⟩
  rw [hQ cls' g1 d g3] at g4
  exact g4

/-- what has been written and loaded by the writer for a format -/
theorem spectrum_format [LinearOrder ℂ] (mem : Nat → Nat → ℂ) (f : SpectrumFormat) (ext name : String) (a : Spectrum ℂ ℚ)
    (hl : a.labels.length = a.channels.rows) (hm : 1 ≤ a.channels.rows) (hn : 2 ≤ a.channels.cols) (hr : 0 < a.resolution) :
    ∃ w file b, createWriter f 0 spectrumWriters = .ok w ∧ Writer.call spectrumWriters w a name = .ok file ∧
      (loadSpectrum mem [] ext file name).1 = .ok b ∧ b.channels.Eqv a.channels ∧ b.resolution = a.resolution ∧
      b.labels = if f = .numpyNpy then (List.range a.channels.rows).map fun (i : Nat) => name ++ " " ++ toString (i + 1)
        else a.labels := by
  cases f with
  | textCsv =>
    obtain ⟨header, lines, h1, h2⟩ := Table.C50_spectrum_csv mem name a hl hm hn hr
    obtain ⟨b, h3, h4⟩ := h2 lines (.refl _)
    refine ⟨(0, .textCsv), .csv (Table.spectrumCsvWrite a), b, rfl, rfl, load_spectrum mem ext _ name b ?_ ?_, h4⟩
    · rw [h1]
      exact ⟨_, List.mem_cons_self, h3⟩
    · intro cls hc d hd
      simp only [spectrumReaders, List.mem_cons, List.not_mem_nil, or_false] at hc
      rcases hc with rfl | rfl | rfl | rfl <;> dsimp only at hd
      · rw [h1, h3] at hd
        exact (Except.ok.inj hd).symm
      all_goals cases hd
  | textJson =>
    obtain ⟨b, h3, h4⟩ := Container.C66_spectrum_json mem a hl hm (by omega)
    refine ⟨(1, .textJson), .json (Container.spectrumAsDict a), b, rfl, rfl, load_spectrum mem ext _ name b ?_ ?_, h4⟩
    · exact ⟨_, List.mem_cons_of_mem _ List.mem_cons_self, h3⟩
    · intro cls hc d hd
      simp only [spectrumReaders, List.mem_cons, List.not_mem_nil, or_false] at hc
      rcases hc with rfl | rfl | rfl | rfl <;> dsimp only at hd
      · cases hd
      · rw [h3] at hd
        exact (Except.ok.inj hd).symm
      all_goals cases hd
  | numpyNpz =>
    obtain ⟨c, h3, h4⟩ := Container.C66_spectrum_npz mem ⟨a.channels, .number a.resolution, a.labels⟩ hl
    refine ⟨(3, .numpyNpz), .npz ⟨a.channels, a.resolution, a.labels⟩, ⟨c.channels, c.resolution.value, c.labels⟩, rfl, rfl,
      load_spectrum mem ext _ name _ ?_ ?_, h4⟩
    · refine ⟨_, List.mem_cons_of_mem _ (List.mem_cons_of_mem _ List.mem_cons_self), ?_⟩
      dsimp only
      rw [h3]
      rfl
    · intro cls hc d hd
      simp only [spectrumReaders, List.mem_cons, List.not_mem_nil, or_false] at hc
      rcases hc with rfl | rfl | rfl | rfl <;> dsimp only at hd
      · cases hd
      · cases hd
      · rw [h3] at hd
        exact (Except.ok.inj hd).symm
      · cases hd
  | numpyNpy =>
    obtain ⟨b, h3, h4⟩ := Table.C50_spectrum_npy mem name a hm hn hr
    refine ⟨(2, .numpyNpy), .npy (Table.spectrumNpyWrite a), b, rfl, rfl, load_spectrum mem ext _ name b ?_ ?_, h4⟩
    · exact ⟨_, List.mem_cons_of_mem _ (List.mem_cons_of_mem _ List.mem_cons_self), h3⟩
    · intro cls hc d hd
      simp only [spectrumReaders, List.mem_cons, List.not_mem_nil, or_false] at hc
      rcases hc with rfl | rfl | rfl | rfl <;> dsimp only at hd
      · cases hd
      · cases hd
      · rw [h3] at hd
        exact (Except.ok.inj hd).symm
      · cases hd
  | pythonPickle =>
    refine ⟨(4, .pythonPickle), .pickle a, a, rfl, rfl, load_spectrum mem ext _ name a ?_ ?_, .refl _, rfl, rfl⟩
    · exact ⟨_, List.mem_cons_of_mem _ (List.mem_cons_of_mem _ (List.mem_cons_of_mem _ List.mem_cons_self)), rfl⟩
    · intro cls hc d hd
      simp only [spectrumReaders, List.mem_cons, List.not_mem_nil, or_false] at hc
      rcases hc with rfl | rfl | rfl | rfl <;> dsimp only at hd
      · cases hd
      · cases hd
      · cases hd
      · exact (Except.ok.inj hd).symm

/-- C112: A spectrum, that has been saved in any of the formats, is restored by loading the file, no matter what has been saved
before and which extension the file has. Only NPY files do not store the labels. -/
theorem C112_spectrum [LinearOrder ℂ] (mem : Nat → Nat → ℂ) (history : List (SaveCall SpectrumFormat (Spectrum ℂ ℚ) String))
    (f : SpectrumFormat) (ext name : String) (a : Spectrum ℂ ℚ) (hl : a.labels.length = a.channels.rows)
    (hm : 1 ≤ a.channels.rows) (hn : 2 ≤ a.channels.cols) (hr : 0 < a.resolution) :
    ∃ file b, (saveSpectrum (saveAll spectrumWriters spectrumMapping .initial history) (some f) ext a name).1 = .ok file ∧
      (loadSpectrum mem [] ext file name).1 = .ok b ∧ b.channels.Eqv a.channels ∧ b.resolution = a.resolution ∧
      b.labels = if f = .numpyNpy then (List.range a.channels.rows).map fun (i : Nat) => name ++ " " ++ toString (i + 1)
        else a.labels := by
  obtain ⟨w, file, b, h1, h2, h3⟩ := spectrum_format mem f ext name a hl hm hn hr
  refine ⟨file, b, ?_, h3⟩
  unfold saveSpectrum
  rw [save_some (saveAll_coherent _ _ history _ (coherent_initial _ _)), h1]
  exact h2

/-- C112: The same holds for the format `AUTO` and all extensions, that are mentioned in the documentation. -/
theorem C112_spectrum_auto [LinearOrder ℂ] (mem : Nat → Nat → ℂ)
    (history : List (SaveCall SpectrumFormat (Spectrum ℂ ℚ) String)) (ext name : String)
    (he : ext ∈ [".csv", ".json", ".js", ".npz", ".npy", ".pickle"]) (a : Spectrum ℂ ℚ)
    (hl : a.labels.length = a.channels.rows) (hm : 1 ≤ a.channels.rows) (hn : 2 ≤ a.channels.cols) (hr : 0 < a.resolution) :
    ∃ file b, (saveSpectrum (saveAll spectrumWriters spectrumMapping .initial history) none ext a name).1 = .ok file ∧
      (loadSpectrum mem [] ext file name).1 = .ok b ∧ b.channels.Eqv a.channels ∧ b.resolution = a.resolution ∧
      b.labels = if ext = ".npy" then (List.range a.channels.rows).map fun (i : Nat) => name ++ " " ++ toString (i + 1)
        else a.labels := by
  obtain ⟨f, hf, hmap⟩ : ∃ f : SpectrumFormat, (f = .numpyNpy ↔ ext = ".npy") ∧ spectrumMapping.get? ext = some [f] := by
    simp only [List.mem_cons, List.not_mem_nil, or_false] at he
    rcases he with rfl | rfl | rfl | rfl | rfl | rfl
    · exact ⟨.textCsv, by decide, by decide⟩
    · exact ⟨.textJson, by decide, by decide⟩
    · exact ⟨.textJson, by decide, by decide⟩
    · exact ⟨.numpyNpz, by decide, by decide⟩
    · exact ⟨.numpyNpy, by decide, by decide⟩
    · exact ⟨.pythonPickle, by decide, by decide⟩
  obtain ⟨w, file, b, h1, h2, h3, h4, h5, h6⟩ := spectrum_format mem f ext name a hl hm hn hr
  refine ⟨file, b, ?_, h3, h4, h5, ?_⟩
  · unfold saveSpectrum
    exact save_auto (saveAll_coherent _ _ history _ (coherent_initial _ _)) f ext a name hmap w h1 file h2
  · rw [h6]
    simp only [hf]

example : ∃ a : Spectrum ℂ ℚ, a.labels.length = a.channels.rows ∧ 1 ≤ a.channels.rows ∧ 2 ≤ a.channels.cols ∧
    0 < a.resolution :=
  ⟨⟨⟨2, 3, fun c i => c + i⟩, 1 / 2, ["a", "b"]⟩, rfl, by decide, by decide, by norm_num⟩

/-! ### spectrograms -/

/-- Two spectrograms have the same samples, resolution, sampling rate, offset and labels. -/
def SameSpectrogram (b a : Spectrogram ℂ ℚ) : Prop :=
  (b.channels.d0 = a.channels.d0 ∧ b.channels.d1 = a.channels.d1 ∧ b.channels.d2 = a.channels.d2 ∧
    ∀ c f t, c < a.channels.d0 → f < a.channels.d1 → t < a.channels.d2 → b.channels.get c f t = a.channels.get c f t) ∧
  b.resolution = a.resolution ∧ b.rate = a.rate ∧ b.offset = a.offset ∧ b.labels = a.labels

theorem spectrogramReaders_import (mem : Nat → Nat → ℂ) (mem' : Nat → Nat → Nat → ℂ) :
    OnlyImportErrors (spectrogramReaders mem mem') := by
  intro cls hc e he
  simp only [spectrogramReaders, List.mem_cons, List.not_mem_nil, or_false] at hc
  rcases hc with rfl | rfl | rfl <;> cases he

/-- Loading a spectrogram returns the result of the only reader, that accepts the file. -/
theorem load_spectrogram (mem : Nat → Nat → ℂ) (mem' : Nat → Nat → Nat → ℂ) (ext : String) (file : SpectrogramFile)
    (name : String) (b : Container.LoadedSpectrogram)
    (h : ∃ cls ∈ spectrogramReaders mem mem', cls.read (file, name) = .ok b)
    (hQ : ∀ cls ∈ spectrogramReaders mem mem', ∀ d, cls.read (file, name) = .ok d → d = b) :
    (loadSpectrogram mem mem' [] ext file name).1 = .ok b := by
  obtain ⟨cls, h1, h2⟩ := h
  have h0 : cls.create = .ok () := by
    simp only [spectrogramReaders, List.mem_cons, List.not_mem_nil, or_false] at h1
    rcases h1 with rfl | rfl | rfl <;> rfl
  obtain ⟨cls', g1, g2, d, g3, g4⟩ := load_result _ (spectrogramReaders_import mem mem') ext (file, name) ⟨cls, h1, h0, b, h2⟩
  rw [hQ cls' g1 d g3] at g4
  exact g4

/-- what has been written and loaded by the writer for a format -/
theorem spectrogram_format (mem : Nat → Nat → ℂ) (mem' : Nat → Nat → Nat → ℂ) (f : SpectrogramFormat) (ext name : String)
    (a : Spectrogram ℂ ℚ) (hl : a.labels.length = a.channels.d0) (h0 : 1 ≤ a.channels.d0) (h1 : 1 ≤ a.channels.d1)
    (h2 : 1 ≤ a.channels.d2) :
    ∃ w file b, createWriter f 0 spectrogramWriters = .ok w ∧ Writer.call spectrogramWriters w a name = .ok file ∧
      (loadSpectrogram mem mem' [] ext file name).1 = .ok (.proper b) ∧ SameSpectrogram b a := by
  cases f with
  | textJson =>
    obtain ⟨b, h3, h4⟩ := Container.C66_spectrogram_json mem mem' a hl h0 h1 h2
    refine ⟨(0, .textJson), .json (Container.spectrogramAsDict a), b, rfl, rfl,
      load_spectrogram mem mem' ext _ name _ ⟨_, List.mem_cons_self, h3⟩ ?_, h4⟩
    intro cls hc d hd
    simp only [spectrogramReaders, List.mem_cons, List.not_mem_nil, or_false] at hc
    rcases hc with rfl | rfl | rfl <;> dsimp only at hd
    · rw [h3] at hd
      exact (Except.ok.inj hd).symm
    all_goals cases hd
  | numpyNpz =>
    refine ⟨(1, .numpyNpz), .npz ⟨a.channels, a.resolution, a.rate, a.offset, a.labels⟩,
      Spectrogram.new a.channels a.resolution a.rate a.offset (some a.labels), rfl, rfl,
      load_spectrogram mem mem' ext _ name _ ⟨_, List.mem_cons_of_mem _ List.mem_cons_self, rfl⟩ ?_,
      ⟨rfl, rfl, rfl, fun _ _ _ _ _ _ => rfl⟩, rfl, rfl, rfl, Signal.sanitize_self hl⟩
    intro cls hc d hd
    simp only [spectrogramReaders, List.mem_cons, List.not_mem_nil, or_false] at hc
    rcases hc with rfl | rfl | rfl <;> dsimp only at hd
    · cases hd
    · exact (Except.ok.inj hd).symm
    · cases hd
  | pythonPickle =>
    refine ⟨(2, .pythonPickle), .pickle a, a, rfl, rfl,
      load_spectrogram mem mem' ext _ name _ ⟨_, List.mem_cons_of_mem _ (List.mem_cons_of_mem _ List.mem_cons_self), rfl⟩ ?_,
      ⟨rfl, rfl, rfl, fun _ _ _ _ _ _ => rfl⟩, rfl, rfl, rfl, rfl⟩
    intro cls hc d hd
    simp only [spectrogramReaders, List.mem_cons, List.not_mem_nil, or_false] at hc
    rcases hc with rfl | rfl | rfl <;> dsimp only at hd
    · cases hd
    · cases hd
    · exact (Except.ok.inj hd).symm

/-- C112: A spectrogram, that has been saved in any of the formats, is restored by loading the file, no matter what has been
saved before and which extension the file has. -/
theorem C112_spectrogram (mem : Nat → Nat → ℂ) (mem' : Nat → Nat → Nat → ℂ)
    (history : List (SaveCall SpectrogramFormat (Spectrogram ℂ ℚ) String)) (f : SpectrogramFormat) (ext name : String)
    (a : Spectrogram ℂ ℚ) (hl : a.labels.length = a.channels.d0) (h0 : 1 ≤ a.channels.d0) (h1 : 1 ≤ a.channels.d1)
    (h2 : 1 ≤ a.channels.d2) :
    ∃ file b, (saveSpectrogram (saveAll spectrogramWriters spectrogramMapping .initial history) (some f) ext a name).1 =
        .ok file ∧
      (loadSpectrogram mem mem' [] ext file name).1 = .ok (.proper b) ∧ SameSpectrogram b a := by
  obtain ⟨w, file, b, g1, g2, g3⟩ := spectrogram_format mem mem' f ext name a hl h0 h1 h2
  refine ⟨file, b, ?_, g3⟩
  unfold saveSpectrogram
  rw [save_some (saveAll_coherent _ _ history _ (coherent_initial _ _)), g1]
  exact g2

/-- C112: The same holds for the format `AUTO` and all extensions, that are mentioned in the documentation. -/
theorem C112_spectrogram_auto (mem : Nat → Nat → ℂ) (mem' : Nat → Nat → Nat → ℂ)
    (history : List (SaveCall SpectrogramFormat (Spectrogram ℂ ℚ) String)) (ext name : String)
    (he : ext ∈ [".json", ".js", ".npz", ".pickle"])
    (a : Spectrogram ℂ ℚ) (hl : a.labels.length = a.channels.d0) (h0 : 1 ≤ a.channels.d0) (h1 : 1 ≤ a.channels.d1)
    (h2 : 1 ≤ a.channels.d2) :
    ∃ file b, (saveSpectrogram (saveAll spectrogramWriters spectrogramMapping .initial history) none ext a name).1 =
        .ok file ∧
      (loadSpectrogram mem mem' [] ext file name).1 = .ok (.proper b) ∧ SameSpectrogram b a := by
  obtain ⟨f, hmap⟩ : ∃ f : SpectrogramFormat, spectrogramMapping.get? ext = some [f] := by
    simp only [List.mem_cons, List.not_mem_nil, or_false] at he
    rcases he with rfl | rfl | rfl | rfl
    · exact ⟨.textJson, by decide⟩
    · exact ⟨.textJson, by decide⟩
    · exact ⟨.numpyNpz, by decide⟩
    · exact ⟨.pythonPickle, by decide⟩
  obtain ⟨w, file, b, g1, g2, g3⟩ := spectrogram_format mem mem' f ext name a hl h0 h1 h2
  refine ⟨file, b, ?_, g3⟩
  unfold saveSpectrogram
  exact save_auto (saveAll_coherent _ _ history _ (coherent_initial _ _)) f ext a name hmap w g1 file g2

example : ∃ a : Spectrogram ℂ ℚ, a.labels.length = a.channels.d0 ∧ 1 ≤ a.channels.d0 ∧ 1 ≤ a.channels.d1 ∧
    1 ≤ a.channels.d2 :=
  ⟨⟨⟨2, 3, 4, fun c f t => c + f + t⟩, 1 / 2, 8, -3, ["a", "b"]⟩, rfl, by decide, by decide, by decide⟩

/-- C112: Each extension, for which spectrums can be saved with the format `AUTO`, is associated with a reader. -/
theorem C112_associated_spectrum [LinearOrder ℂ] (mem : Nat → Nat → ℂ) (ext : String)
    (he : (spectrumMapping.get? ext).isSome) :
    ∃ cls ∈ spectrumReaders mem, cls.create = .ok () ∧ ext ∈ cls.extensions := by
  have hk := (Dict.mem_keys_iff _ _).mpr he
  simp only [spectrumMapping, Dict.keys, List.map_cons, List.map_nil, List.mem_cons, List.not_mem_nil, or_false] at hk
  unfold spectrumReaders
  rcases hk with rfl | rfl | rfl | rfl | rfl | rfl <;> simp

/-- C112: Each extension, for which spectrograms can be saved with the format `AUTO`, is associated with a reader. -/
theorem C112_associated_spectrogram (mem : Nat → Nat → ℂ) (mem' : Nat → Nat → Nat → ℂ) (ext : String)
    (he : (spectrogramMapping.get? ext).isSome) :
    ∃ cls ∈ spectrogramReaders mem mem', cls.create = .ok () ∧ ext ∈ cls.extensions := by
  have hk := (Dict.mem_keys_iff _ _).mpr he
  simp only [spectrogramMapping, Dict.keys, List.map_cons, List.map_nil, List.mem_cons, List.not_mem_nil, or_false] at hk
  unfold spectrogramReaders
  rcases hk with rfl | rfl | rfl | rfl <;> simp

example : (spectrumMapping.get? ".pickle").isSome ∧ (spectrogramMapping.get? ".pickle").isSome := by decide

end Files
end Verif
