import Verif.MemoryProps
import Verif.Convolution
import Verif.Level

/-
C157: Programs, that process signals, do not depend on the absolute time.
-/

namespace Verif
namespace TimeShift

variable {α R : Type}

/-- the same signal, `n` samples later -/
def later (n : Int) (s : Signal α R) : Signal α R := { s with offset := s.offset + n }

/-- the same result, `n` samples later -/
def laterPy (n : Int) (r : Py (Signal α R)) : Py (Signal α R) :=
  match r with
  | .ok s => .ok (later n s)
  | .error e => .error e

@[simp] theorem later_channels (n : Int) (s : Signal α R) : (later n s).channels = s.channels := rfl
@[simp] theorem later_rate (n : Int) (s : Signal α R) : (later n s).rate = s.rate := rfl
@[simp] theorem later_offset (n : Int) (s : Signal α R) : (later n s).offset = s.offset + n := rfl
@[simp] theorem later_labels (n : Int) (s : Signal α R) : (later n s).labels = s.labels := rfl
@[simp] theorem later_count (n : Int) (s : Signal α R) : (later n s).count = s.count := rfl
@[simp] theorem later_length (n : Int) (s : Signal α R) : (later n s).length = s.length := rfl

theorem new_later (n : Int) (A : Mat α) (rate : R) (offset : Int) (labels : Option (List String)) :
    Signal.new A rate (offset + n) labels = later n (Signal.new A rate offset labels) := rfl

/-- the rule for functions, that compute an array first -/
theorem bind_later {β : Type} (n : Int) (r : Py β) {f g : β → Py (Signal α R)} (h : ∀ A, f A = laterPy n (g A)) :
    (r >>= f) = laterPy n (r >>= g) := by
  rcases r with e | A
  · rfl
  · exact h A

/-- the rule for case distinctions -/
theorem ite_later (n : Int) {c c' : Prop} {i : Decidable c} {i' : Decidable c'} {x y x' y' : Py (Signal α R)}
    (h : (c ∧ c' ∧ x = laterPy n x') ∨ (¬ c ∧ ¬ c' ∧ y = laterPy n y')) :
    (if c then x else y) = laterPy n (if c' then x' else y') := by
  rcases h with ⟨h, h', e⟩ | ⟨h, h', e⟩
  · rw [if_pos h, if_pos h', e]
  · rw [if_neg h, if_neg h', e]

/-! ### Functions of one signal -/

/-- **C157**: Slicing, element-wise functions, padding, shifting by a given number of samples in all modes, arithmetic with
arrays and the energy decay curve of a signal, that is moved in time, have the same results at the moved time, including the
exceptions and the uninitialised memory. -/
theorem C157_single [Zero α] [Add α] [Mul α] (mem : Nat → Nat → α) (n : Int) (s : Signal α R) :
    (∀ k, (later n s).getChannels k = (s.getChannels k).map (later n)) ∧
    (∀ k0 k1, (later n s).getItem k0 k1 = (s.getItem k0 k1).map (later n)) ∧
    (∀ f : α → α, (later n s).mapSamples f = later n (s.mapSamples f)) ∧
    (∀ length value, (later n s).pad mem length value = laterPy n (s.pad mem length value)) ∧
    (∀ d mode, (later n s).shift mem (some d) mode = laterPy n (s.shift mem (some d) mode)) ∧
    (∀ f A, Signal.algebraArray mem f (later n s) A = laterPy n (Signal.algebraArray mem f s A)) ∧
    (∀ f A, Signal.algebraArrayRight mem f (later n s) A = laterPy n (Signal.algebraArrayRight mem f s A)) ∧
    EnergyDecay.new mem (later n s) = laterPy n (EnergyDecay.new mem s) := by
  refine ⟨fun k => ?_, fun k0 k1 => ?_, fun f => rfl, fun length value => ?_, fun d mode => ?_, fun f A => ?_,
    fun f A => ?_, ?_⟩
  · simp only [Signal.getChannels, later_count, later_channels, later_rate, later_offset, later_labels, Option.map_map]
    rfl
  · simp only [Signal.getItem, Signal.sliceOffset, later_count, later_length, later_channels, later_rate, later_offset,
      later_labels]
    rcases Indexing.keyToSlice s.count k0 with _ | c <;> rcases Indexing.keyToSlice s.length k1 with _ | t
    · rfl
    · rfl
    · rfl
    · dsimp only [Option.map]
      rw [← new_later]
      congr 2
      rcases t.start with _ | a
      · rfl
      · dsimp only
        split
        · rfl
        split <;> ring
  · unfold Signal.pad
    simp only [later_length, later_count, later_channels, later_rate, later_offset, later_labels]
    by_cases h : length = s.length
    · exact ite_later n (.inl ⟨h, h, rfl⟩)
    · exact ite_later n (.inr ⟨h, h, bind_later n _ fun A => rfl⟩)
  · unfold Signal.shift
    split
    · rfl
    · simp only [later_length, later_count, later_channels, later_rate, later_offset, later_labels]
      rcases mode with _ | _ | _ | _ <;> dsimp only
      · rw [show s.offset + n + d = s.offset + d + n by ring]; rfl
      · exact bind_later n _ fun A => rfl
      · exact bind_later n _ fun A => rfl
      · exact bind_later n _ fun A => rfl
  · exact bind_later n _ fun A => rfl
  · exact bind_later n _ fun A => rfl
  · exact bind_later n _ fun A => bind_later n _ fun A => rfl

/-- **C157**: Reversing a signal, that is moved in time, moves the reversed signal into the opposite direction. -/
theorem C157_reversed (n : Int) (s : Signal α R) : (later n s).reversed = later (-n) s.reversed := by
  simp only [Signal.reversed, later, Signal.new, Signal.count, Signal.length]
  congr 1
  ring

/-- **C157**: The levels over time of a signal, that is moved in time, are the same at the moved time. -/
theorem C157_level (mem empty : Nat → Nat → ℝ) (n : Int) (s : Signal ℝ ℝ) (integrationTime : ℝ) (pad : Bool) :
    Level.levelVsTime mem empty (later n s) integrationTime pad =
      laterPy n (Level.levelVsTime mem empty s integrationTime pad) := by
  simp only [Level.levelVsTime, later_rate, later_length]
  by_cases h : integrationTime * s.rate ≤ 1
  · exact ite_later n (.inl ⟨h, h, rfl⟩)
  refine ite_later n (.inr ⟨h, h, ?_⟩)
  by_cases h1 : 1 + ⌈(integrationTime * s.rate - 1) / 2⌉.toNat ≥ s.length
  · exact ite_later n (.inl ⟨h1, h1, bind_later n _ fun A => rfl⟩)
  refine ite_later n (.inr ⟨h1, h1, ?_⟩)
  by_cases h2 : 1 + 2 * ⌈(integrationTime * s.rate - 1) / 2⌉.toNat < s.length
  · exact ite_later n (.inl ⟨h2, h2, bind_later n _ fun A => rfl⟩)
  · exact ite_later n (.inr ⟨h2, h2, bind_later n _ fun A => rfl⟩)

/-! ### Functions of several signals -/

/-- **C157**: Arithmetic with two signals, that are both moved by the same number of samples, has the same result at the
moved time. -/
theorem C157_algebra [Zero α] (mem : Nat → Nat → α) (f : α → α → α) (pivot : Option α) (label : String) (n : Int)
    (s o : Signal α R) :
    Signal.algebra mem f pivot label (later n s) (later n o) = laterPy n (Signal.algebra mem f pivot label s o) := by
  have e1 : min (s.offset + n) (o.offset + n) = min s.offset o.offset + n := min_add_add_right _ _ _
  have e2 : max (s.offset + n) (o.offset + n) = max s.offset o.offset + n := max_add_add_right _ _ _
  have e3 : max (s.offset + n + s.length) (o.offset + n + o.length) =
      max (s.offset + s.length) (o.offset + o.length) + n := by
    rw [← max_add_add_right]; congr 1 <;> ring
  have e4 : min (s.offset + n + s.length) (o.offset + n + o.length) =
      min (s.offset + s.length) (o.offset + o.length) + n := by
    rw [← min_add_add_right]; congr 1 <;> ring
  have d1 : ∀ a b : Int, a + n - (b + n) = a - b := fun a b => by ring
  have d2 : ∀ a b c : Int, a + n + c - (b + n) = a + c - b := fun a b c => by ring
  unfold Signal.algebra
  simp only [later_count, later_length, later_offset, add_left_inj]
  split
  · exact bind_later n _ fun A => rfl
  split
  · exact bind_later n _ fun A => rfl
  split
  · exact bind_later n _ fun A => rfl
  · unfold Signal.algebraDifferentShapes
    have c1 : Signal.copySelf mem (later n s) (later n o) = Signal.copySelf mem s o := by
      unfold Signal.copySelf
      simp only [later_count, later_length, later_offset, later_channels, e1, e3, d1, d2]
    have c2 : Signal.copyOther f pivot (later n s) (later n o) = Signal.copyOther f pivot s o := by
      funext A
      unfold Signal.copyOther
      simp only [later_count, later_length, later_offset, later_channels, e1, d1, d2]
    have c3 : Signal.computeOverlap f (later n s) (later n o) = Signal.computeOverlap f s o := by
      funext A
      unfold Signal.computeOverlap
      simp only [later_count, later_length, later_offset, later_channels, e1, e2, e4, d1, add_lt_add_iff_right]
    rw [c1, c2, c3]
    refine bind_later n _ fun A => bind_later n _ fun A => bind_later n _ fun A => ?_
    simp only [later_offset, e1]
    rfl

theorem foldl_min_later (n : Int) (l : List (Signal α R)) (a : Int) :
    (l.map (later n)).foldl (fun m s => min m s.offset) (a + n) = l.foldl (fun m s => min m s.offset) a + n := by
  induction l generalizing a with
  | nil => rfl
  | cons s l ih => rw [List.map_cons, List.foldl_cons, List.foldl_cons, later_offset, min_add_add_right, ih]

theorem foldl_max_later (n : Int) (l : List (Signal α R)) (a : Int) :
    (l.map (later n)).foldl (fun m s => max m (s.offset + (s.length : Int))) (a + n) =
      l.foldl (fun m s => max m (s.offset + (s.length : Int))) a + n := by
  induction l generalizing a with
  | nil => rfl
  | cons s l ih =>
    rw [List.map_cons, List.foldl_cons, List.foldl_cons, later_offset, later_length, add_right_comm, max_add_add_right, ih]

/-- an item of the loop of `Merge.output`, `n` samples later -/
def laterItem (n : Int) (i : Nat × Mat α × Int × String) : Nat × Mat α × Int × String :=
  (i.1, i.2.1, i.2.2.1 + n, i.2.2.2)

theorem zip_later {β γ : Type} (n : Int) (k : List Nat) (a : List β) (b : List Int) (c : List γ) :
    k.zip (a.zip ((b.map (· + n)).zip c)) =
      (k.zip (a.zip (b.zip c))).map fun i => (i.1, i.2.1, i.2.2.1 + n, i.2.2.2) := by
  induction k generalizing a b c with
  | nil => rfl
  | cons x k ih =>
    rcases a with _ | ⟨y, a⟩
    · rfl
    rcases b with _ | ⟨z, b⟩
    · rfl
    rcases c with _ | ⟨w, c⟩
    · rfl
    simp only [List.map_cons, List.zip_cons_cons, ih]

theorem items_later (n : Int) (idx : List Nat) (data : List (Signal α R)) :
    Merge.signalItems idx (data.map (later n)) = (Merge.signalItems idx data).map (laterItem n) := by
  unfold Merge.signalItems
  have h1 : ((data.map (later n)).flatMap fun d => (List.range d.count).map d.channels.row) =
      data.flatMap fun d => (List.range d.count).map d.channels.row := by rw [List.flatMap_map]; rfl
  have h2 : ((data.map (later n)).flatMap fun d => (List.range d.count).map fun _ => d.offset) =
      (data.flatMap fun d => (List.range d.count).map fun _ => d.offset).map (· + n) := by
    rw [List.flatMap_map, List.map_flatMap]
    refine List.flatMap_congr fun d _ => ?_
    rw [List.map_map]
    rfl
  have h3 : ((data.map (later n)).flatMap fun d => d.labels) = data.flatMap fun d => d.labels := by
    rw [List.flatMap_map]; rfl
  rw [h1, h2, h3, zip_later]
  rfl

theorem place_later [Zero α] (n m : Int) (st : Mat α × List String) (i : Nat × Mat α × Int × String) :
    Merge.placeSignal (m + n) st (laterItem n i) = Merge.placeSignal m st i := by
  obtain ⟨k, A, off, l⟩ := i
  unfold Merge.placeSignal laterItem
  simp only [show off + n - (m + n) = off - m by ring]

/-- **C157**: Merging signals, that are all moved by the same number of samples, has the same result at the moved time. -/
theorem C157_merge [Zero α] (mem : Nat → Nat → α) (mode : MergeMode) (n : Int) (data : List (Signal α R)) :
    Merge.signals mem mode (data.map (later n)) = laterPy n (Merge.signals mem mode data) := by
  rcases data with _ | ⟨s, _ | ⟨s', rest⟩⟩
  · rfl
  · rfl
  have e := items_later n (data := s :: s' :: rest)
  have e1 := foldl_min_later n (s :: s' :: rest) s.offset
  have e2 := foldl_max_later n (s :: s' :: rest) (s.offset + s.length)
  have e3 : ((s :: s' :: rest).map (later n)).map (fun s => s.count) = (s :: s' :: rest).map fun s => s.count := by
    rw [List.map_map]; rfl
  simp only [List.map_cons] at e e1 e2 e3
  simp only [List.map_cons, Merge.signals]
  unfold Merge.signalsMany
  simp only [List.map_cons]
  rw [e3, later_offset, later_length, later_rate, e1, show s.offset + n + (s.length : Int) = s.offset + s.length + n by ring,
    e2, add_sub_add_right_eq_sub]
  refine bind_later n _ fun idx => ?_
  rw [e, List.foldlM_map]
  simp only [place_later]
  exact bind_later n _ fun st => rfl

/-- an entry of `Concatenate.output`, `n` samples later -/
def laterEntry (n : Int) (e : Concatenate.Entry (Mat α)) : Concatenate.Entry (Mat α) := ⟨e.start + n, e.stop + n, e.data⟩

theorem entries_later (n index : Int) (data : List (Signal α R)) :
    Concatenate.signalEntries (index + n) data = (Concatenate.signalEntries index data).map (laterEntry n) := by
  induction data generalizing index with
  | nil => rfl
  | cons s rest ih =>
    simp only [Concatenate.signalEntries, List.map_cons]
    rw [show index + n + s.offset + (s.length : Int) = index + s.offset + s.length + n by ring, ih]
    congr 1
    simp only [laterEntry]
    congr 1
    ring

theorem sort_later (n : Int) (l : List (Concatenate.Entry (Mat α))) :
    Concatenate.sortEntries (l.map (laterEntry n)) = (Concatenate.sortEntries l).map (laterEntry n) := by
  unfold Concatenate.sortEntries
  induction l with
  | nil => rfl
  | cons a l ih =>
    rw [List.map_cons, List.insertionSort_cons, List.insertionSort_cons, ih]
    generalize l.insertionSort Concatenate.Entry.le = k
    induction k with
    | nil => rfl
    | cons b k ih =>
      have h : Concatenate.Entry.le (laterEntry n a) (laterEntry n b) ↔ Concatenate.Entry.le a b := by
        simp only [Concatenate.Entry.le, laterEntry]
        omega
      rw [List.map_cons, List.orderedInsert_cons, List.orderedInsert_cons]
      by_cases hab : Concatenate.Entry.le a b
      · rw [if_pos hab, if_pos (h.2 hab)]; rfl
      · rw [if_neg hab, if_neg fun g => hab (h.1 g), ih]; rfl

theorem minStart_later (n : Int) (h : Concatenate.Entry (Mat α)) (t : List (Concatenate.Entry (Mat α))) :
    Concatenate.minStart (laterEntry n h) (t.map (laterEntry n)) = Concatenate.minStart h t + n := by
  unfold Concatenate.minStart
  simp only [laterEntry]
  generalize h.start = a
  induction t generalizing a with
  | nil => rfl
  | cons b t ih => rw [List.map_cons, List.foldl_cons, List.foldl_cons]; simp only [laterEntry, min_add_add_right]; exact ih _

theorem maxStop_later (n : Int) (h : Concatenate.Entry (Mat α)) (t : List (Concatenate.Entry (Mat α))) :
    Concatenate.maxStop (laterEntry n h) (t.map (laterEntry n)) = Concatenate.maxStop h t + n := by
  unfold Concatenate.maxStop
  simp only [laterEntry]
  generalize h.stop = a
  induction t generalizing a with
  | nil => rfl
  | cons b t ih => rw [List.map_cons, List.foldl_cons, List.foldl_cons]; simp only [laterEntry, max_add_add_right]; exact ih _

theorem copySignals_later [Zero α] [Add α] (n offset : Int) (number : Nat) (A : Mat α) (last : Int)
    (previous : Concatenate.Entry (Mat α)) (t : List (Concatenate.Entry (Mat α))) :
    Concatenate.copySignals (offset + n) number A last (laterEntry n previous) (t.map (laterEntry n)) =
      Concatenate.copySignals offset number A last previous t := by
  induction t generalizing A last previous with
  | nil => rfl
  | cons e t ih =>
    rw [List.map_cons]
    simp only [Concatenate.copySignals]
    have h : Concatenate.copySignal (offset + n) number A last (laterEntry n previous) (laterEntry n e) =
        Concatenate.copySignal offset number A last previous e := by
      unfold Concatenate.copySignal laterEntry
      simp only [add_sub_add_right_eq_sub]
    rw [h]
    simp only [ih]

/-- **C157**: The offsets of the other signals are relative to the ends of their predecessors: moving the first one of the
concatenated signals moves the whole result. -/
theorem C157_concatenate [Zero α] [Add α] (mem : Nat → Nat → α) (n : Int) (s : Signal α R) (rest : List (Signal α R)) :
    Concatenate.signals mem (later n s :: rest) = laterPy n (Concatenate.signals mem (s :: rest)) := by
  rcases rest with _ | ⟨s', rest⟩
  · rfl
  simp only [Concatenate.signals]
  unfold Concatenate.signalsMany
  have e : Concatenate.signalEntries 0 (later n s :: s' :: rest) =
      (Concatenate.signalEntries 0 (s :: s' :: rest)).map (laterEntry n) := by
    rw [← entries_later]
    simp only [Concatenate.signalEntries, later_offset, later_length, later_channels]
    rw [show (0 : Int) + (s.offset + n) = 0 + n + s.offset by ring]
  rw [e, sort_later]
  simp only [List.foldl_cons, later_count, later_rate]
  rcases Concatenate.sortEntries (Concatenate.signalEntries 0 (s :: s' :: rest)) with _ | ⟨h, t⟩
  · rfl
  · simp only [List.map_cons, minStart_later, maxStop_later, copySignals_later]
    simp only [laterEntry, add_sub_add_right_eq_sub]
    exact bind_later n _ fun A => bind_later n _ fun A => rfl

/-! ### Convolutions and correlations -/

/-- The offset of the results of a class moves with those of the operands: `a` and `b` are the factors of the movements. -/
def Moves (f : Convolver α) (a b : Int) : Prop :=
  ∀ n k : Int, ∀ A B : Mat α, ∀ o0 o1 : Int,
    (f.withVector A B (o0 + n) (o1 + k) = (f.withVector A B o0 o1).map fun r => (r.1, r.2 + (a * n + b * k))) ∧
    (f.withVector2 A B (o0 + n) (o1 + k) = (f.withVector2 A B o0 o1).map fun r => (r.1, r.2 + (a * n + b * k))) ∧
    (f.withMatrix A B (o0 + n) (o1 + k) = (f.withMatrix A B o0 o1).map fun r => (r.1, r.2 + (a * n + b * k)))

theorem convolve_later {f : Convolver α} {a b : Int} (h : Moves f a b) (label : String) (n k : Int) (s o : Signal α R) :
    Signal.convolve f label (later n s) (later k o) = laterPy (a * n + b * k) (Signal.convolve f label s o) := by
  have e : Signal.convolveWithArray f (later n s) o.channels (o.offset + k) =
      (Signal.convolveWithArray f s o.channels o.offset).map fun r => (r.1, r.2 + (a * n + b * k)) := by
    unfold Signal.convolveWithArray
    simp only [later_channels, later_offset, later_count]
    by_cases h1 : o.channels.rows = 1
    · rw [if_pos h1, if_pos h1, (h n k _ _ _ _).1]
    rw [if_neg h1, if_neg h1]
    by_cases h2 : s.count = 1
    · exact (if_pos h2).trans ((h n k _ _ _ _).2.1.trans (congrArg _ (if_pos h2).symm))
    · exact (if_neg h2).trans ((h n k _ _ _ _).2.2.trans (congrArg _ (if_neg h2).symm))
  unfold Signal.convolve
  simp only [later_channels, later_offset, e]
  rcases Signal.convolveWithArray f s o.channels o.offset with e | r <;> rfl

theorem bind_pair {β : Type} (x : Py β) (d : Int) {g g' : β → Py (Mat α × Int)}
    (h : ∀ A, g' A = (g A).map fun r => (r.1, r.2 + d)) : (x >>= g') = (x >>= g).map fun r => (r.1, r.2 + d) := by
  rcases x with e | A
  · rfl
  · exact h A

theorem pure_pair (A : Mat α) {c c' : Int} (d : Int) (h : c' = c + d) :
    (pure (A, c') : Py (Mat α × Int)) = (pure (A, c) : Py (Mat α × Int)).map fun r => (r.1, r.2 + d) := by
  subst h
  rfl

theorem moves_full [AddCommMonoid α] [Mul α] (mem : Nat → Nat → α) : Moves (fullConvolution mem) 1 1 :=
  fun n k A B o0 o1 => ⟨bind_pair _ _ fun A => pure_pair _ _ (by ring), bind_pair _ _ fun A => pure_pair _ _ (by ring),
    bind_pair _ _ fun A => pure_pair _ _ (by ring)⟩

theorem moves_same [AddCommMonoid α] [Mul α] (mem : Nat → Nat → α) : Moves (sameConvolution mem) 1 1 :=
  fun n k A B o0 o1 => ⟨bind_pair _ _ fun A => pure_pair _ _ (by ring), bind_pair _ _ fun A => pure_pair _ _ (by ring),
    bind_pair _ _ fun A => pure_pair _ _ (by ring)⟩

theorem moves_valid [AddCommMonoid α] [Mul α] (mem : Nat → Nat → α) : Moves (validConvolution mem) 1 1 :=
  fun n k A B o0 o1 => ⟨bind_pair _ _ fun A => pure_pair _ _ (by ring), bind_pair _ _ fun A => pure_pair _ _ (by ring),
    bind_pair _ _ fun A => pure_pair _ _ (by ring)⟩

theorem moves_fullCorrelation [AddCommMonoid α] [Mul α] (mem : Nat → Nat → α) : Moves (fullCorrelation mem) (-1) 1 :=
  fun n k A B o0 o1 => ⟨bind_pair _ _ fun A => pure_pair _ _ (by ring), bind_pair _ _ fun A => pure_pair _ _ (by ring),
    bind_pair _ _ fun A => pure_pair _ _ (by ring)⟩

theorem moves_sameCorrelation [AddCommMonoid α] [Mul α] (mem : Nat → Nat → α) : Moves (sameCorrelation mem) (-1) 1 :=
  fun n k A B o0 o1 => ⟨bind_pair _ _ fun A => pure_pair _ _ (by ring), bind_pair _ _ fun A => pure_pair _ _ (by ring),
    bind_pair _ _ fun A => pure_pair _ _ (by ring)⟩

theorem moves_validCorrelation [AddCommMonoid α] [Mul α] (mem : Nat → Nat → α) : Moves (validCorrelation mem) (-1) 1 :=
  fun n k A B o0 o1 => ⟨bind_pair _ _ fun A => pure_pair _ _ (by ring), bind_pair _ _ fun A => pure_pair _ _ (by ring),
    bind_pair _ _ fun A => pure_pair _ _ (by ring)⟩

theorem moves_spectrum (mem : Nat → Nat → ℝ) : Moves (spectrumConvolution mem) 1 1 := by
  have h : ∀ n k A B o0 o1, spectrumConvolutionVector mem A B (o0 + n) (o1 + k) =
      (spectrumConvolutionVector mem A B o0 o1).map fun r => (r.1, r.2 + (1 * n + 1 * k)) := fun n k A B o0 o1 =>
    bind_pair _ _ fun A => bind_pair _ _ fun B => bind_pair _ _ fun C => pure_pair _ _ (by ring)
  exact fun n k A B o0 o1 => ⟨h n k A B o0 o1, h n k B A o0 o1,
    bind_pair _ _ fun A => bind_pair _ _ fun B => bind_pair _ _ fun C => pure_pair _ _ (by ring)⟩

theorem moves_spectrumPadded (mem : Nat → Nat → ℝ) : Moves (spectrumPaddedConvolution mem) 1 1 := by
  have h : ∀ n k A B o0 o1, spectrumPaddedConvolutionVector mem A B (o0 + n) (o1 + k) =
      (spectrumPaddedConvolutionVector mem A B o0 o1).map fun r => (r.1, r.2 + (1 * n + 1 * k)) := by
    intro n k A B o0 o1
    simp only [spectrumPaddedConvolutionVector]
    by_cases h0 : A.cols + B.cols = 0
    · rw [if_pos h0, if_pos h0]; rfl
    · rw [if_neg h0, if_neg h0]
      exact bind_pair _ _ fun A => bind_pair _ _ fun B => bind_pair _ _ fun C => pure_pair _ _ (by ring)
  refine fun n k A B o0 o1 => ⟨h n k A B o0 o1, h n k B A o0 o1, ?_⟩
  simp only [spectrumPaddedConvolution]
  by_cases h0 : A.cols + B.cols = 0
  · rw [if_pos h0, if_pos h0]; rfl
  · rw [if_neg h0, if_neg h0]
    exact bind_pair _ _ fun A => bind_pair _ _ fun B => bind_pair _ _ fun C => pure_pair _ _ (by ring)

theorem moves_spectrumCorrelation (mem : Nat → Nat → ℝ) : Moves (spectrumCorrelation mem) (-1) 1 :=
  fun n k A B o0 o1 => ⟨bind_pair _ _ fun A => bind_pair _ _ fun B => pure_pair _ _ (by ring),
    bind_pair _ _ fun A => bind_pair _ _ fun B => pure_pair _ _ (by ring),
    bind_pair _ _ fun A => bind_pair _ _ fun B => pure_pair _ _ (by ring)⟩

theorem moves_spectrumPaddedCorrelation (mem : Nat → Nat → ℝ) : Moves (spectrumPaddedCorrelation mem) (-1) 1 :=
  fun n k A B o0 o1 => ⟨bind_pair _ _ fun A => bind_pair _ _ fun B => pure_pair _ _ (by ring),
    bind_pair _ _ fun A => bind_pair _ _ fun B => pure_pair _ _ (by ring),
    bind_pair _ _ fun A => bind_pair _ _ fun B => pure_pair _ _ (by ring)⟩

/-- **C157**: Convolutions of two signals, which are moved by `n` and `k` samples, have the same results `n + k` samples
later, in the modes of the time domain, for samples of any type. Correlations have the same results `k - n` samples later. -/
theorem C157_convolve [AddCommMonoid α] [Mul α] (mem : Nat → Nat → α) (label : String) (n k : Int) (s o : Signal α R) :
    (∀ f ∈ [fullConvolution mem, sameConvolution mem, validConvolution mem],
      Signal.convolve f label (later n s) (later k o) = laterPy (n + k) (Signal.convolve f label s o)) ∧
    (∀ f ∈ [fullCorrelation mem, sameCorrelation mem, validCorrelation mem],
      Signal.convolve f label (later n s) (later k o) = laterPy (k - n) (Signal.convolve f label s o)) := by
  constructor
  · intro f hf
    simp only [List.mem_cons, List.not_mem_nil, or_false] at hf
    have h : Moves f 1 1 := by
      rcases hf with rfl | rfl | rfl
      · exact moves_full mem
      · exact moves_same mem
      · exact moves_valid mem
    rw [convolve_later h, one_mul, one_mul]
  · intro f hf
    simp only [List.mem_cons, List.not_mem_nil, or_false] at hf
    have h : Moves f (-1) 1 := by
      rcases hf with rfl | rfl | rfl
      · exact moves_fullCorrelation mem
      · exact moves_sameCorrelation mem
      · exact moves_validCorrelation mem
    rw [convolve_later h, show -1 * n + 1 * k = k - n by ring]

/-- **C157**: The same for the modes of the frequency domain. -/
theorem C157_convolve_spectrum (mem : Nat → Nat → ℝ) (label : String) (n k : Int) (s o : Signal ℝ R) :
    (∀ f ∈ [spectrumConvolution mem, spectrumPaddedConvolution mem],
      Signal.convolve f label (later n s) (later k o) = laterPy (n + k) (Signal.convolve f label s o)) ∧
    (∀ f ∈ [spectrumCorrelation mem, spectrumPaddedCorrelation mem],
      Signal.convolve f label (later n s) (later k o) = laterPy (k - n) (Signal.convolve f label s o)) := by
  constructor
  · intro f hf
    simp only [List.mem_cons, List.not_mem_nil, or_false] at hf
    have h : Moves f 1 1 := by
      rcases hf with rfl | rfl
      · exact moves_spectrum mem
      · exact moves_spectrumPadded mem
    rw [convolve_later h, one_mul, one_mul]
  · intro f hf
    simp only [List.mem_cons, List.not_mem_nil, or_false] at hf
    have h : Moves f (-1) 1 := by
      rcases hf with rfl | rfl
      · exact moves_spectrumCorrelation mem
      · exact moves_spectrumPaddedCorrelation mem
    rw [convolve_later h, show -1 * n + 1 * k = k - n by ring]

/-! ### Programs -/

/-- The statements, that treat all times in the same way: all statements except for reversing a signal, moving it to the
absolute time 0 with `shift(None)`, and concatenating signals, whose offsets are relative to each other. -/
def Relative : Memory.Stmt α → Prop
  | .reversed _ => False
  | .shift _ n _ => n ≠ none
  | .concatenate _ => False
  | _ => True

theorem get_later (n : Int) (env : List (Signal α R)) (i : Nat) : (env.map (later n))[i]? = env[i]?.map (later n) := by
  rw [List.getElem?_map]

theorem lookup_later (n : Int) (env : List (Signal α R)) (l : List Nat) :
    Memory.lookup (env.map (later n)) l = (Memory.lookup env l).map (List.map (later n)) := by
  unfold Memory.lookup
  induction l with
  | nil => rfl
  | cons i l ih =>
    rw [List.mapM_cons, List.mapM_cons, ih, get_later]
    rcases env[i]? with _ | s
    · rfl
    · rcases List.mapM (fun i => env[i]?) l with _ | r <;> rfl

theorem stmt_later [Zero α] [Add α] [Mul α] (mem : Nat → Nat → α) (n : Int) (env : List (Signal α R))
    (st : Memory.Stmt α) (hst : Relative st) : st.value mem (env.map (later n)) = (st.value mem env).map (laterPy n) := by
  cases st with
  | getChannels i k =>
    simp only [Memory.Stmt.value, get_later]
    rcases env[i]? with _ | s
    · rfl
    · simp only [Option.map_some, Option.bind_eq_bind, Option.bind_some, (C157_single mem n s).1]
      rcases s.getChannels k with _ | t <;> rfl
  | getItem i k0 k1 =>
    simp only [Memory.Stmt.value, get_later]
    rcases env[i]? with _ | s
    · rfl
    · simp only [Option.map_some, Option.bind_eq_bind, Option.bind_some, (C157_single mem n s).2.1]
      rcases s.getItem k0 k1 with _ | t <;> rfl
  | reversed i => exact hst.elim
  | mapSamples f i =>
    simp only [Memory.Stmt.value, get_later]
    rcases env[i]? with _ | s <;> rfl
  | pad i length value =>
    simp only [Memory.Stmt.value, get_later]
    rcases env[i]? with _ | s
    · rfl
    · simp only [Option.map_some, (C157_single mem n s).2.2.2.1]
  | shift i d mode =>
    rcases d with _ | d
    · exact absurd rfl hst
    simp only [Memory.Stmt.value, get_later]
    rcases env[i]? with _ | s
    · rfl
    · simp only [Option.map_some, (C157_single mem n s).2.2.2.2.1]
  | algebra f pivot label i j =>
    simp only [Memory.Stmt.value, get_later]
    rcases env[i]? with _ | s
    · rfl
    rcases env[j]? with _ | o
    · rfl
    · simp only [Option.map_some, Option.bind_eq_bind, Option.bind_some, C157_algebra]
  | algebraArray f i j =>
    simp only [Memory.Stmt.value, get_later]
    rcases env[i]? with _ | s
    · rfl
    rcases env[j]? with _ | o
    · rfl
    · simp only [Option.map_some, Option.bind_eq_bind, Option.bind_some, later_channels,
        (C157_single mem n s).2.2.2.2.2.1]
  | algebraArrayRight f i j =>
    simp only [Memory.Stmt.value, get_later]
    rcases env[i]? with _ | s
    · rfl
    rcases env[j]? with _ | o
    · rfl
    · simp only [Option.map_some, Option.bind_eq_bind, Option.bind_some, later_channels,
        (C157_single mem n s).2.2.2.2.2.2.1]
  | energyDecay i =>
    simp only [Memory.Stmt.value, get_later]
    rcases env[i]? with _ | s
    · rfl
    · simp only [Option.map_some, (C157_single mem n s).2.2.2.2.2.2.2]
  | merge mode l =>
    simp only [Memory.Stmt.value, lookup_later]
    rcases Memory.lookup env l with _ | data
    · rfl
    · simp only [Option.map_some, C157_merge]
  | concatenate l => exact hst.elim

/-- **C157**: A program, that consists of such statements, has the same results for signals, that are all moved by `n`
samples, and all of its results are moved by `n` samples: it is undefined in the same cases, it raises the same exceptions,
and the samples, the sampling rates and the labels of all variables are the same. -/
theorem C157_program [Zero α] [Add α] [Mul α] (mem : Nat → Nat → Nat → α) (n : Int) (program : List (Memory.Stmt α))
    (hp : ∀ st ∈ program, Relative st) (env : List (Signal α R)) :
    Memory.values mem program (env.map (later n)) =
      (Memory.values mem program env).map fun r => r.map (List.map (later n)) := by
  induction program generalizing env mem with
  | nil => rfl
  | cons st rest ih =>
    unfold Memory.values
    rw [stmt_later _ _ _ _ (hp st List.mem_cons_self)]
    rcases st.value (mem 0) env with _ | _ | s
    · rfl
    · rfl
    · simp only [Option.map_some, laterPy, Option.bind_eq_bind, Option.bind_some]
      rw [← ih _ fun st' h => hp st' (List.mem_cons_of_mem _ h), List.map_append]
      rfl

/-! ### Examples -/

/-- a signal with two channels -/
def exSignal : Signal Int Nat := ⟨⟨2, 3, fun i j => 3 * i + j⟩, 48000, 0, ["a", "b"]⟩

/-- a program with relative statements -/
def exProgram : List (Memory.Stmt Int) :=
  [.getItem 0 (.slice none none) (.slice (some (.int 1)) none), .algebra (· + ·) none "Sum" 0 1,
    .merge .firstDatasetFirst [1, 2], .shift 3 (some 2) .pad]

example : ∀ st ∈ exProgram, Relative st := by
  intro st hst
  simp only [exProgram, List.mem_cons, List.not_mem_nil, or_false] at hst
  rcases hst with rfl | rfl | rfl | rfl <;> simp [Relative]

/-- the offsets and samples of the variables -/
def contents (env : List (Signal Int Nat)) : List (Int × List (List Int)) :=
  env.map fun s => (s.offset, (List.range s.count).map fun i => (List.range s.length).map fun j => s.channels.get i j)

example : ((Memory.values (fun _ _ _ => 9) exProgram [later 5 exSignal]).map fun r => r.toOption.map contents) =
    some (some [(5, [[0, 1, 2], [3, 4, 5]]), (6, [[1, 2], [4, 5]]), (5, [[0, 2, 4], [3, 8, 10]]),
      (5, [[0, 1, 2], [0, 4, 5], [0, 2, 4], [3, 8, 10]]),
      (5, [[0, 0, 0, 1, 2], [0, 0, 0, 4, 5], [0, 0, 0, 2, 4], [0, 0, 3, 8, 10]])]) := by decide +kernel

end TimeShift
end Verif
