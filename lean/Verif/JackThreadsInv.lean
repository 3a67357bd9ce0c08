import Verif.JackThreadsSpec
import Verif.NumpyLemmas

/-
Lemmas and the invariant of the interleavings of the threads of `sumpf.Jack`.
-/

namespace Verif
namespace Jack
namespace Threads

variable {α R : Type}

/-! ### Assignments row by row -/

/-- an assignment with a fitting shape succeeds -/
theorem assign_exists {A S : Mat α} {r c : PySlice} (hr : S.rows = r.count A.rows) (hc : S.cols = c.count A.cols) :
    ∃ C, A.assign r c S = .ok C ∧ C.rows = A.rows ∧ C.cols = A.cols := by
  obtain ⟨B, hB, _, _, _⟩ := Mat.broadcastTo_self hr hc
  obtain ⟨C, hC, h1, h2, _⟩ := Mat.assign_of_broadcast hB
  exact ⟨C, hC, h1, h2⟩

theorem assign_scalar_exists (A : Mat α) (r c : PySlice) (v : α) :
    ∃ C, A.assign r c (.scalar v) = .ok C ∧ C.rows = A.rows ∧ C.cols = A.cols := by
  obtain ⟨B, hB, _, _, _⟩ := Mat.broadcastTo_scalar v (r.count A.rows) (c.count A.cols)
  obtain ⟨C, hC, h1, h2, _⟩ := Mat.assign_of_broadcast hB
  exact ⟨C, hC, h1, h2⟩

/-- the array, after the first `k` rows have been written -/
def rowsWritten (A X : Mat α) (t f : PySlice) (k : Nat) : Mat α where
  rows := A.rows
  cols := A.cols
  get i j := if i < k ∧ t.lo A.cols ≤ j ∧ j < t.hi A.cols then X.get i (f.lo X.cols + (j - t.lo A.cols)) else A.get i j

theorem rowsWritten_zero (A X : Mat α) (t f : PySlice) : rowsWritten A X t f 0 = A := by
  simp [rowsWritten]

theorem rowsWritten_all {A X : Mat α} {t f : PySlice} {n : Nat} (hA : A.rows = n) (hX : X.rows = n)
    (h : f.count X.cols = t.count A.cols) :
    A.assign (.range 0 (n : Nat)) t (X.slice (.range 0 (n : Nat)) f) = .ok (rowsWritten A X t f n) := by
  have h' : f.count X.cols = t.hi A.cols - t.lo A.cols := h
  unfold Mat.assign Mat.broadcastTo
  rw [if_pos ⟨Or.inl (by simp [hA, hX]), Or.inl (by simpa using h)⟩]
  simp only [rowsWritten, Except.ok.injEq, Mat.mk.injEq, true_and]
  funext i j
  simp only [PySlice.lo_range, PySlice.hi_range, clampBound_zero, clampBound_nat, hA, hX, Nat.min_self, Nat.zero_le, true_and,
    Nat.sub_zero, Mat.slice_get, Mat.slice_rows, Mat.slice_cols, PySlice.count_range, Nat.zero_add]
  by_cases hin : i < n ∧ t.lo A.cols ≤ j ∧ j < t.hi A.cols
  · rw [if_pos ⟨hin.1, hin.2⟩, if_pos hin]
    congr 1
    · split <;> omega
    · congr 1
      by_cases hf : f.count X.cols = 1
      · simp only [hf, if_true]; omega
      · simp only [hf, if_false]
  · rw [if_neg (by tauto), if_neg hin]

theorem rowsWritten_succ {A X : Mat α} {t f : PySlice} {n k : Nat} (hA : A.rows = n) (hX : X.rows = n) (hk : k < n)
    (h : f.count X.cols = t.count A.cols) :
    (rowsWritten A X t f k).assign (.range k ((k : Int) + 1)) t (X.slice (.range k ((k : Int) + 1)) f) =
      .ok (rowsWritten A X t f (k + 1)) := by
  have h' : f.count X.cols = t.hi A.cols - t.lo A.cols := h
  have e : ((k : Int) + 1) = ((k + 1 : Nat) : Int) := by omega
  rw [e]
  have e1 : min k n = k := by omega
  have e2 : min (k + 1) n = k + 1 := by omega
  unfold Mat.assign Mat.broadcastTo
  rw [if_pos ⟨Or.inl (by simp [hA, hX, rowsWritten]), Or.inl (by simpa [rowsWritten] using h)⟩]
  simp only [rowsWritten, Except.ok.injEq, Mat.mk.injEq, true_and]
  funext i j
  simp only [PySlice.lo_range, PySlice.hi_range, clampBound_nat, hA, hX, e1, e2,
    Mat.slice_get, Mat.slice_rows, Mat.slice_cols, PySlice.count_range]
  by_cases hin : (k ≤ i ∧ i < k + 1) ∧ t.lo A.cols ≤ j ∧ j < t.hi A.cols
  · rw [if_pos hin, if_pos (by omega : k + 1 - k = 1), if_pos (by omega : i < k + 1 ∧ t.lo A.cols ≤ j ∧ j < t.hi A.cols)]
    congr 1
    · omega
    · congr 1
      by_cases hf : f.count X.cols = 1
      · simp only [hf, if_true]; omega
      · simp only [hf, if_false]
  · rw [if_neg hin]
    by_cases h2 : i < k ∧ t.lo A.cols ≤ j ∧ j < t.hi A.cols
    · rw [if_pos h2, if_pos (by omega)]
    · rw [if_neg h2, if_neg (by omega)]

/-! ### The sequential callback -/

/-- the sequential callback is executed for a further block -/
theorem process_snoc [Zero α] {s : Signal α R} {b : Block α} {st' : State α} {out : Mat α} :
    ∀ {bs : List (Block α)} {st₀ st : State α} {outs : List (Mat α)}, process s st₀ bs = .ok (st, outs) →
    onProcess s st b = .ok (st', out) → process s st₀ (bs ++ [b]) = .ok (st', outs ++ [out])
  | [], st₀, st, outs, h, h' => by
    cases h
    simp only [List.nil_append, process, h']
    rfl
  | a :: bs, st₀, st, outs, h, h' => by
    simp only [process] at h
    cases ha : onProcess s st₀ a with
    | error e => rw [ha] at h; cases h
    | ok r =>
      rw [ha] at h
      obtain ⟨st₁, o⟩ := r
      replace h : (process s st₁ bs >>= fun r => (pure (r.1, o :: r.2) : Py _)) = .ok (st, outs) := h
      cases hb : process s st₁ bs with
      | error e => rw [hb] at h; cases h
      | ok r =>
        rw [hb] at h
        obtain ⟨st₂, os⟩ := r
        cases h
        have := process_snoc hb h'
        simp only [List.cons_append, process, ha]
        show (process s st₁ (bs ++ [b]) >>= fun r => (pure (r.1, o :: r.2) : Py _)) = _
        rw [this]
        rfl

/-- what is known about the state during a recording -/
def Proper (inports : Nat) (s : Signal α R) (st : State α) : Prop :=
  st.event = false ∧ 0 ≤ st.index ∧ st.channels.rows = inports ∧ st.channels.cols = s.length

theorem start_proper (mem : Nat → Nat → α) (inports : Nat) (s : Signal α R) : Proper inports s (start mem inports s) :=
  ⟨rfl, le_refl _, rfl, rfl⟩

/-- a complete block -/
theorem full_block [Zero α] {inports : Nat} {s : Signal α R} {st : State α} {b : Block α} (hst : Proper inports s st)
    (hb : ValidBlock inports b) (h : st.index + b.frames ≤ s.length) :
    ∃ out, fullBlock b st.index (st.index + b.frames) s.channels = .ok out ∧
      PySlice.all.count b.input.cols = (PySlice.range st.index (st.index + b.frames)).count st.channels.cols ∧
      onProcess s st b = .ok (⟨rowsWritten st.channels b.input (.range st.index (st.index + b.frames)) .all inports,
        st.index + b.frames, false⟩, out) := by
  obtain ⟨he, h0, hr, hc⟩ := hst
  obtain ⟨g1, g2, g3⟩ := hb
  have hlen : s.channels.cols = s.length := rfl
  obtain ⟨i, hi⟩ := Int.eq_ofNat_of_zero_le h0
  rw [hi] at h ⊢
  have hstop : (i : Int) + b.frames = ((i + b.frames : Nat) : Int) := by omega
  have hcount : PySlice.all.count b.input.cols =
      (PySlice.range (i : Int) ((i : Int) + b.frames)).count st.channels.cols := by
    rw [hstop]
    simp only [PySlice.count_range, PySlice.count_all, clampBound_nat]
    omega
  obtain ⟨out, ho, _, _⟩ := assign_exists (A := b.output) (r := .range 0 (min b.output.rows s.channels.rows : Nat)) (c := .all)
    (S := s.channels.slice (.range 0 (min b.output.rows s.channels.rows : Nat)) (.range (i : Int) ((i : Int) + b.frames)))
    (by
      simp only [Mat.slice_rows, PySlice.count_range, clampBound_zero, clampBound_nat]
      omega) (by
      rw [hstop]
      simp only [Mat.slice_cols, PySlice.count_range, PySlice.count_all, clampBound_nat]
      omega)
  refine ⟨out, ho, hcount, ?_⟩
  have hw := rowsWritten_all (t := .range (i : Int) ((i : Int) + b.frames)) (f := .all) hr g1 hcount
  unfold onProcess
  rw [if_pos he]
  dsimp only
  rw [hi, if_pos h]
  have hmin : min b.input.rows st.channels.rows = inports := by omega
  rw [hmin]
  have ho' : b.output.assign (.range 0 (min b.output.rows s.count : Nat)) .all
    (s.channels.slice (.range 0 (min b.output.rows s.count : Nat)) (.range (i : Int) ((i : Int) + b.frames))) = .ok out := ho
  rw [ho', hw, he]
  rfl

/-- the block, in which the signal ends -/
theorem last_block [Zero α] {inports : Nat} {s : Signal α R} {st : State α} {b : Block α} (hst : Proper inports s st)
    (hb : ValidBlock inports b) (h : ¬ st.index + b.frames ≤ s.length) (h' : st.index < s.length) :
    ∃ out, lastBlock b st.index (s.length - st.index) s.channels = .ok out ∧
      (PySlice.range 0 (s.length - st.index)).count b.input.cols = (PySlice.drop st.index).count st.channels.cols ∧
      onProcess s st b = .ok (⟨rowsWritten st.channels b.input (.drop st.index) (.range 0 (s.length - st.index)) inports,
        s.length - st.index, false⟩, out) := by
  obtain ⟨he, h0, hr, hc⟩ := hst
  obtain ⟨g1, g2, g3⟩ := hb
  have hlen : s.channels.cols = s.length := rfl
  obtain ⟨i, hi⟩ := Int.eq_ofNat_of_zero_le h0
  rw [hi] at h h' ⊢
  have hstop : (s.length : Int) - i = ((s.length - i : Nat) : Int) := by omega
  have hcount : (PySlice.range 0 ((s.length : Int) - i)).count b.input.cols = (PySlice.drop (i : Int)).count st.channels.cols := by
    rw [hstop]
    simp only [PySlice.count_range, PySlice.count_drop, clampBound_zero, clampBound_nat]
    omega
  obtain ⟨o1, ho1, _, _⟩ := assign_exists (A := b.output) (r := .range 0 (min b.output.rows s.channels.rows : Nat))
    (c := .range 0 ((s.length : Int) - i))
    (S := s.channels.slice (.range 0 (min b.output.rows s.channels.rows : Nat)) (.drop (i : Int)))
    (by
      simp only [Mat.slice_rows, PySlice.count_range, clampBound_zero, clampBound_nat]
      omega) (by
      rw [hstop]
      simp only [Mat.slice_cols, PySlice.count_range, PySlice.count_drop, clampBound_zero, clampBound_nat]
      omega)
  obtain ⟨out, ho, _, _⟩ := assign_scalar_exists o1 (.range 0 (min b.output.rows s.channels.rows : Nat))
    (.drop ((s.length : Int) - i)) (0 : α)
  have hl : lastBlock b i (s.length - i) s.channels = .ok out := by
    unfold lastBlock
    dsimp only
    rw [ho1]
    exact ho
  refine ⟨out, hl, hcount, ?_⟩
  have hw := rowsWritten_all (t := .drop (i : Int)) (f := .range 0 ((s.length : Int) - i)) hr g1 hcount
  unfold onProcess
  rw [if_pos he]
  dsimp only
  rw [hi, if_neg h, if_pos h']
  have hmin : min b.input.rows st.channels.rows = inports := by omega
  rw [hmin]
  have ho1' : b.output.assign (.range 0 (min b.output.rows s.count : Nat)) (.range 0 ((s.length : Int) - i))
    (s.channels.slice (.range 0 (min b.output.rows s.count : Nat)) (.drop (i : Int))) = .ok o1 := ho1
  have ho' : o1.assign (.range 0 (min b.output.rows s.count : Nat)) (.drop ((s.length : Int) - i)) (.scalar 0) = .ok out := ho
  rw [ho1']
  show (o1.assign _ _ _ >>= _) = _
  rw [ho', hw, he]
  rfl

/-- the block after the end of the signal -/
theorem no_block [Zero α] {s : Signal α R} {st : State α} {b : Block α} (he : st.event = false)
    (h : ¬ st.index + b.frames ≤ s.length) (h' : ¬ st.index < s.length) :
    onProcess s st b = .ok ({ st with event := true }, b.output) := by
  unfold onProcess
  rw [if_pos he]
  dsimp only
  rw [if_neg h, if_neg h']

/-! ### The invariant -/

/-- the callback during a recording; `st` is the state of the sequential execution before this callback -/
def Follows [Zero α] (inports : Nat) (s : Signal α R) (A : Mat α) (channels : Nat) (index : Int) (st : State α) :
    Callback α → Prop
  | .idle => A = st.channels ∧ index = st.index
  | .ended => A = st.channels ∧ index = st.index
  | .entered b => ValidBlock inports b ∧ A = st.channels ∧ index = st.index
  | .checked b => ValidBlock inports b ∧ A = st.channels ∧ index = st.index
  | .indexed b i => ValidBlock inports b ∧ A = st.channels ∧ index = st.index ∧ i = st.index
  | .fetched b i C => ValidBlock inports b ∧ A = st.channels ∧ index = st.index ∧ i = st.index ∧ C = s.channels
  | .beyond b i C => ValidBlock inports b ∧ A = st.channels ∧ index = st.index ∧ i = st.index ∧ C = s.channels ∧
      ¬ st.index + b.frames ≤ s.length
  | .last b i C => ValidBlock inports b ∧ A = st.channels ∧ index = st.index ∧ i = st.index ∧ C = s.channels ∧
      ¬ st.index + b.frames ≤ s.length ∧ st.index < s.length
  | .ending b => A = st.channels ∧ index = st.index ∧ ¬ st.index + b.frames ≤ s.length ∧ ¬ st.index < s.length
  | .played b stop out t f => ValidBlock inports b ∧ A = st.channels ∧ 0 ≤ stop ∧
      f.count b.input.cols = t.count st.channels.cols ∧
      onProcess s st b = .ok (⟨rowsWritten st.channels b.input t f inports, stop, false⟩, out)
  | .recording b stop out t f a k => ValidBlock inports b ∧ a = channels ∧ k ≤ inports ∧
      A = rowsWritten st.channels b.input t f k ∧ 0 ≤ stop ∧ f.count b.input.cols = t.count st.channels.cols ∧
      onProcess s st b = .ok (⟨rowsWritten st.channels b.input t f inports, stop, false⟩, out)
  | .recorded b stop out => 0 ≤ stop ∧ A.rows = inports ∧ A.cols = s.length ∧ onProcess s st b = .ok (⟨A, stop, false⟩, out)
  | .failed => False

/-- the callback, while no recording is in progress -/
def Quiet (inports : Nat) : Callback α → Prop
  | .idle => True
  | .ended => True
  | .entered b => ValidBlock inports b
  | _ => False

/-- the state during a recording -/
def InProgress [Zero α] (inports : Nat) (w : System α R) : Prop :=
  ∃ mem st A, w.arrays[w.channels]? = some A ∧ w.mark ≤ w.log.length ∧
    process w.input (start mem inports w.input) ((w.log.drop w.mark).map Prod.fst) =
      .ok (st, (w.log.drop w.mark).map Prod.snd) ∧
    Proper inports w.input st ∧ Follows inports w.input A w.channels w.index st w.callback

/-- the thread of the program, with the results, that are still to come -/
def MainInv [Zero α] (inports : Nat) (empty : Mat α) (w : System α R) (rest : List (Option (Signal α R) × Signal α R)) : Prop :=
  match w.main with
  | .ready => ∃ waited r, Waits waited w.ops ∧ rest = expected r w.input w.ops ∧ (waited = true → w.event = true) ∧
      (w.event = true → Holds inports empty w.arrays w.log r w.channels) ∧ (w.event = false → r = some w.input)
  | .activated => w.event = true ∧ Waits false w.ops ∧ rest = expected (some w.input) w.input w.ops
  | .allocated => w.event = true ∧ Waits false w.ops ∧ rest = expected (some w.input) w.input w.ops ∧
      ∃ mem, w.arrays[w.channels]? = some (alloc mem inports w.input.length)
  | .reset => w.event = true ∧ Waits false w.ops ∧ rest = expected (some w.input) w.input w.ops ∧
      (∃ mem, w.arrays[w.channels]? = some (alloc mem inports w.input.length)) ∧ w.index = 0
  | .inputWaited s => w.event = true ∧ Waits true w.ops ∧ ∃ r, rest = expected r s w.ops ∧
      Holds inports empty w.arrays w.log r w.channels
  | .outputWaited => w.event = true ∧ Waits true w.ops ∧ ∃ r, rest = (r, w.input) :: expected r w.input w.ops ∧
      Holds inports empty w.arrays w.log r w.channels
  | .slept => w.event = true ∧ Waits true w.ops ∧ ∃ r, rest = (r, w.input) :: expected r w.input w.ops ∧
      Holds inports empty w.arrays w.log r w.channels
  | .gotChannels a => a = w.channels ∧ w.event = true ∧ Waits true w.ops ∧
      ∃ r, rest = (r, w.input) :: expected r w.input w.ops ∧ Holds inports empty w.arrays w.log r w.channels

/-- the current array has not been returned by `output` -/
def Fresh (w : System α R) : Prop :=
  match w.main with
  | .allocated => True
  | .reset => True
  | _ => w.event = false

/-- the invariant; `all` are the expected results of the program -/
structure Inv [Zero α] (inports : Nat) (empty : Mat α) (all : List (Option (Signal α R) × Signal α R)) (w : System α R) : Prop where
  position : w.channels + 1 = w.arrays.length
  results : ∃ rs rest, all = rs ++ rest ∧ MainInv inports empty w rest ∧
    List.Forall₂ (fun r e => Holds inports empty w.arrays w.log e.1 r.1 ∧ r.2 = e.2.offset) w.results rs
  older : ∀ r ∈ w.results, r.1 ≤ w.channels ∧ (Fresh w → r.1 < w.channels)
  quiet : w.event = true → Quiet inports w.callback
  progress : w.event = false → w.main = .ready ∧ InProgress inports w

theorem Holds.mono [Zero α] {inports : Nat} {empty : Mat α} {arrays arrays' : List (Mat α)} {log extra : List (Block α × Mat α)}
    {r : Option (Signal α R)} {a : Nat} (h : Holds inports empty arrays log r a) (ha : arrays'[a]? = arrays[a]?) :
    Holds inports empty arrays' (log ++ extra) r a := by
  unfold Holds at h ⊢
  rw [ha]
  cases r with
  | none => exact h
  | some s =>
    obtain ⟨A, h1, mem, x, y, z, i, h2, h3⟩ := h
    exact ⟨A, h1, mem, x, y, z ++ extra, i, by rw [h2]; simp, h3⟩

theorem Holds.mono' [Zero α] {inports : Nat} {empty : Mat α} {arrays arrays' : List (Mat α)} {log : List (Block α × Mat α)}
    {r : Option (Signal α R)} {a : Nat} (h : Holds inports empty arrays log r a) (ha : arrays'[a]? = arrays[a]?) :
    Holds inports empty arrays' log r a := by
  have := h.mono (extra := []) ha
  rwa [List.append_nil] at this

/-- a further entry in the log does not have an effect on the thread of the program -/
theorem MainInv.log [Zero α] {inports : Nat} {empty : Mat α} {w w' : System α R}
    {rest : List (Option (Signal α R) × Signal α R)} (h : MainInv inports empty w rest) (h1 : w'.main = w.main)
    (h2 : w'.ops = w.ops) (h3 : w'.input = w.input) (h4 : w'.event = w.event) (h5 : w'.channels = w.channels)
    (h6 : w'.arrays = w.arrays) (h7 : w.main = .reset → w'.index = w.index) {extra : List (Block α × Mat α)}
    (h8 : w'.log = w.log ++ extra) :
    MainInv inports empty w' rest := by
  unfold MainInv at h ⊢
  rw [h1, h2, h3, h4, h5, h6, h8]
  cases hm : w.main <;> rw [hm] at h <;> simp only at h ⊢
  · obtain ⟨k, r, g1, g2, g3, g4, g5⟩ := h
    exact ⟨k, r, g1, g2, g3, fun e => (g4 e).mono rfl, g5⟩
  · exact h
  · exact h
  · rw [h7 hm]; exact h
  · obtain ⟨g1, g2, r, g3, g4⟩ := h
    exact ⟨g1, g2, r, g3, g4.mono rfl⟩
  · obtain ⟨g1, g2, r, g3, g4⟩ := h
    exact ⟨g1, g2, r, g3, g4.mono rfl⟩
  · obtain ⟨g1, g2, r, g3, g4⟩ := h
    exact ⟨g1, g2, r, g3, g4.mono rfl⟩
  · obtain ⟨g0, g1, g2, r, g3, g4⟩ := h
    exact ⟨g0, g1, g2, r, g3, g4.mono rfl⟩

/-- a step of the callback, that changes only its own local variables -/
theorem Inv.local [Zero α] {inports : Nat} {empty : Mat α} {all : List (Option (Signal α R) × Signal α R)} {w : System α R}
    (h : Inv inports empty all w) (c : Callback α) (active : Bool) (h1 : w.event = true → Quiet inports c)
    (h2 : ∀ A st, w.event = false → Proper inports w.input st → w.arrays[w.channels]? = some A →
      Follows inports w.input A w.channels w.index st w.callback → Follows inports w.input A w.channels w.index st c) :
    Inv inports empty all { w with callback := c, active := active } := by
  obtain ⟨g1, ⟨rs, rest, g2, g3, g4⟩, g5, g6, g7⟩ := h
  refine ⟨g1, ⟨rs, rest, g2, ?_, g4⟩, g5, h1, ?_⟩
  · exact g3.log rfl rfl rfl rfl rfl rfl (fun _ => rfl) (extra := []) (by simp)
  · intro he
    obtain ⟨k1, mem, st, A, k2, k3, k4, k5, k6⟩ := g7 he
    exact ⟨k1, mem, st, A, k2, k3, k4, k5, h2 A st he k5 k2 k6⟩

/-- the callback returns, because the event is set -/
theorem Inv.returned [Zero α] {inports : Nat} {empty : Mat α} {all : List (Option (Signal α R) × Signal α R)} {w : System α R}
    (h : Inv inports empty all w) (he : w.event = true) (x : Block α × Mat α) :
    Inv inports empty all { w with callback := .idle, log := w.log ++ [x] } := by
  obtain ⟨g1, ⟨rs, rest, g2, g3, g4⟩, g5, g6, g7⟩ := h
  refine ⟨g1, ⟨rs, rest, g2, ?_, ?_⟩, g5, fun _ => trivial, ?_⟩
  · exact g3.log rfl rfl rfl rfl rfl rfl (fun _ => rfl) (extra := [x]) rfl
  · exact g4.imp fun _ _ h => ⟨h.1.mono rfl, h.2⟩
  · intro he'
    rw [he] at he'
    cases he'

/-- the callback stores the index -/
theorem Inv.stored [Zero α] {inports : Nat} {empty : Mat α} {all : List (Option (Signal α R) × Signal α R)} {w : System α R}
    (h : Inv inports empty all w) {b : Block α} {stop : Int} {out : Mat α} (hc : w.callback = .recorded b stop out) :
    Inv inports empty all { w with index := stop, callback := .idle, log := w.log ++ [(b, out)] } := by
  obtain ⟨g1, ⟨rs, rest, g2, g3, g4⟩, g5, g6, g7⟩ := h
  have he : w.event = false := by
    cases he : w.event with
    | false => rfl
    | true => exact absurd (g6 he) (by rw [hc]; exact not_false)
  obtain ⟨k1, mem, st, A, k2, k3, k4, k5, k6⟩ := g7 he
  rw [hc] at k6
  obtain ⟨l0, l1, l2, l3⟩ := k6
  refine ⟨g1, ⟨rs, rest, g2, ?_, ?_⟩, g5, fun _ => trivial, fun _ => ⟨k1, mem, ⟨A, stop, false⟩, A, k2, ?_, ?_, ?_, rfl, rfl⟩⟩
  · exact g3.log rfl rfl rfl rfl rfl rfl (fun h => by rw [k1] at h; cases h) (extra := [(b, out)]) rfl
  · exact g4.imp fun _ _ h => ⟨h.1.mono rfl, h.2⟩
  · show w.mark ≤ (w.log ++ [(b, out)]).length
    rw [List.length_append]; omega
  · show process w.input _ (((w.log ++ [(b, out)]).drop w.mark).map Prod.fst) = .ok (_, ((w.log ++ [(b, out)]).drop w.mark).map _)
    rw [List.drop_append_of_le_length k3, List.map_append, List.map_append]
    exact process_snoc k4 l3
  · exact ⟨rfl, l0, l1, l2⟩

/-- the callback sets the event -/
theorem Inv.finished [Zero α] {inports : Nat} {empty : Mat α} {all : List (Option (Signal α R) × Signal α R)} {w : System α R}
    (h : Inv inports empty all w) {b : Block α} (hc : w.callback = .ending b) :
    Inv inports empty all { w with event := true, callback := .ended, log := w.log ++ [(b, b.output)] } := by
  obtain ⟨g1, ⟨rs, rest, g2, g3, g4⟩, g5, g6, g7⟩ := h
  have he : w.event = false := by
    cases he : w.event with
    | false => rfl
    | true => exact absurd (g6 he) (by rw [hc]; exact not_false)
  obtain ⟨k1, mem, st, A, k2, k3, k4, k5, k6⟩ := g7 he
  rw [hc] at k6
  obtain ⟨l0, l1, l2, l3⟩ := k6
  refine ⟨g1, ⟨rs, rest, g2, ?_, ?_⟩, ?_, fun _ => trivial, fun h => (by cases h)⟩
  · unfold MainInv at g3 ⊢
    rw [k1] at g3
    simp only [k1] at g3 ⊢
    obtain ⟨k, r, m1, m2, m3, m4, m5⟩ := g3
    refine ⟨k, r, m1, m2, fun _ => trivial, fun _ => ?_, fun h => (by cases h)⟩
    rw [m5 he]
    refine ⟨A, k2, mem, w.log.take w.mark, w.log.drop w.mark ++ [(b, b.output)], [], st.index, ?_, ?_⟩
    · rw [List.append_nil, ← List.append_assoc, List.take_append_drop]
    · rw [List.map_append, List.map_append]
      have := process_snoc k4 (no_block (b := b) k5.1 l2 l3)
      rw [l0]
      exact this
  · exact g4.imp fun _ _ h => ⟨h.1.mono rfl, h.2⟩
  · intro r hr
    refine ⟨(g5 r hr).1, fun hf => ?_⟩
    unfold Fresh at hf
    rw [show ({ w with event := true, callback := .ended, log := w.log ++ [(b, b.output)] } : System α R).main = w.main from rfl,
      k1] at hf
    cases hf

/-- the callback writes a row of the array -/
theorem Inv.written [Zero α] {inports : Nat} {empty : Mat α} {all : List (Option (Signal α R) × Signal α R)} {w : System α R}
    (h : Inv inports empty all w) (he : w.event = false) (A : Mat α) (c : Callback α)
    (h2 : ∀ st B, Proper inports w.input st → w.arrays[w.channels]? = some B →
      Follows inports w.input B w.channels w.index st w.callback → Follows inports w.input A w.channels w.index st c) :
    Inv inports empty all { w with arrays := w.arrays.set w.channels A, callback := c } := by
  obtain ⟨g1, ⟨rs, rest, g2, g3, g4⟩, g5, g6, g7⟩ := h
  obtain ⟨k1, mem, st, B, k2, k3, k4, k5, k6⟩ := g7 he
  have hfresh : Fresh w := by
    unfold Fresh
    rw [k1]
    exact he
  refine ⟨by simpa using g1, ⟨rs, rest, g2, ?_, ?_⟩, g5, fun h => ?_, fun _ => ⟨k1, mem, st, A, ?_, k3, k4, k5, h2 st B k5 k2 k6⟩⟩
  · unfold MainInv at g3 ⊢
    rw [k1] at g3
    simp only [k1] at g3 ⊢
    obtain ⟨k, r, m1, m2, m3, m4, m5⟩ := g3
    exact ⟨k, r, m1, m2, m3, fun h => absurd (he.symm.trans h) (by simp), m5⟩
  · have : ∀ r ∈ w.results, r.1 < w.channels := fun r hr => (g5 r hr).2 hfresh
    clear g2
    generalize w.results = l at g4 this
    induction g4 with
    | nil => exact .nil
    | cons h t ih =>
      rename_i a b l₁ l₂
      refine .cons ⟨h.1.mono' ?_, h.2⟩ (ih fun r hr => this r (List.mem_cons_of_mem _ hr))
      have := this a List.mem_cons_self
      exact List.getElem?_set_ne (by omega)
  · exact absurd (he.symm.trans h) (by simp)
  · show (w.arrays.set w.channels A)[w.channels]? = some A
    rw [List.getElem?_set_self (by omega)]

theorem Inv.callback [Zero α] {inports : Nat} {auto : Bool} {empty : Mat α} {all : List (Option (Signal α R) × Signal α R)}
    {w w' : System α R} (h : Inv inports empty all w) (hs : w.callbackStep auto = some w') : Inv inports empty all w' := by
  have hevent : ¬ Quiet inports w.callback → w.event = false := by
    intro hq
    cases he : w.event with
    | false => rfl
    | true => exact absurd (h.quiet he) hq
  unfold System.callbackStep at hs
  cases hc : w.callback with
  | idle => rw [hc] at hs; cases hs
  | failed => rw [hc] at hs; cases hs
  | entered b =>
    rw [hc] at hs
    simp only at hs
    split at hs
    · next he =>
      cases hs
      exact h.local (.checked b) w.active (fun h' => absurd (he.symm.trans h') (by simp)) fun A st _ _ _ hf => by
        rw [hc] at hf; exact hf
    · next he =>
      cases hs
      exact h.returned (by simpa using he) _
  | checked b =>
    rw [hc] at hs
    cases hs
    have he := hevent (by rw [hc]; exact not_false)
    exact h.local (.indexed b w.index) w.active (fun h' => absurd (he.symm.trans h') (by simp)) fun A st _ _ _ hf => by
      rw [hc] at hf; exact ⟨hf.1, hf.2.1, hf.2.2, hf.2.2⟩
  | indexed b i =>
    rw [hc] at hs
    cases hs
    have he := hevent (by rw [hc]; exact not_false)
    exact h.local (.fetched b i w.input.channels) w.active (fun h' => absurd (he.symm.trans h') (by simp)) fun A st _ _ _ hf => by
      rw [hc] at hf; exact ⟨hf.1, hf.2.1, hf.2.2.1, hf.2.2.2, rfl⟩
  | fetched b i C =>
    rw [hc] at hs
    simp only at hs
    have he := hevent (by rw [hc]; exact not_false)
    obtain ⟨_, _, st₀, A₀, _, _, _, p0, f0⟩ := h.progress he
    rw [hc] at f0
    obtain ⟨v1, v2, v3, v4, v5⟩ := f0
    subst v4 v5
    split at hs
    · next hle =>
      obtain ⟨out, o1, _, _⟩ := full_block p0 v1 hle
      rw [o1] at hs
      cases hs
      refine h.local _ w.active (fun h' => absurd (he.symm.trans h') (by simp)) fun A st _ hp _ hf => ?_
      rw [hc] at hf
      obtain ⟨u1, u2, u3, u4, u5⟩ := hf
      rw [u4] at hle o1 ⊢
      obtain ⟨out', o1', o2, o3⟩ := full_block hp v1 hle
      rw [o1] at o1'
      cases o1'
      exact ⟨v1, u2, by have := hp.2.1; omega, o2, o3⟩
    · next hle =>
      cases hs
      refine h.local _ w.active (fun h' => absurd (he.symm.trans h') (by simp)) fun A st _ hp _ hf => ?_
      rw [hc] at hf
      obtain ⟨u1, u2, u3, u4, u5⟩ := hf
      exact ⟨u1, u2, u3, u4, u5, by rw [← u4]; exact hle⟩
  | beyond b i C =>
    rw [hc] at hs
    simp only at hs
    have he := hevent (by rw [hc]; exact not_false)
    split at hs
    · next hle =>
      cases hs
      refine h.local _ w.active (fun h' => absurd (he.symm.trans h') (by simp)) fun A st _ hp _ hf => ?_
      rw [hc] at hf
      obtain ⟨u1, u2, u3, u4, u5, u6⟩ := hf
      exact ⟨u1, u2, u3, u4, u5, u6, by rw [← u4]; exact hle⟩
    · next hle =>
      cases hs
      refine h.local _ w.active (fun h' => absurd (he.symm.trans h') (by simp)) fun A st _ hp _ hf => ?_
      rw [hc] at hf
      obtain ⟨u1, u2, u3, u4, u5, u6⟩ := hf
      exact ⟨u2, u3, u6, by rw [← u4]; exact hle⟩
  | last b i C =>
    rw [hc] at hs
    simp only at hs
    have he := hevent (by rw [hc]; exact not_false)
    obtain ⟨_, _, st₀, A₀, _, _, _, p0, f0⟩ := h.progress he
    rw [hc] at f0
    obtain ⟨v1, v2, v3, v4, v5, v6, v7⟩ := f0
    subst v4 v5
    obtain ⟨out, o1, _, _⟩ := last_block p0 v1 v6 v7
    rw [o1] at hs
    cases hs
    refine h.local _ w.active (fun h' => absurd (he.symm.trans h') (by simp)) fun A st _ hp _ hf => ?_
    rw [hc] at hf
    obtain ⟨u1, u2, u3, u4, u5, u6, u7⟩ := hf
    rw [u4] at o1 ⊢
    obtain ⟨out', o1', o2, o3⟩ := last_block hp v1 u6 u7
    rw [o1] at o1'
    cases o1'
    exact ⟨v1, u2, by omega, o2, o3⟩
  | played b stop out t f =>
    rw [hc] at hs
    cases hs
    have he := hevent (by rw [hc]; exact not_false)
    refine h.local _ w.active (fun h' => absurd (he.symm.trans h') (by simp)) fun A st _ hp _ hf => ?_
    rw [hc] at hf
    obtain ⟨u1, u2, u3, u4, u5⟩ := hf
    exact ⟨u1, rfl, by omega, by rw [rowsWritten_zero]; exact u2, u3, u4, u5⟩
  | recording b stop out t f a k =>
    rw [hc] at hs
    simp only at hs
    have he := hevent (by rw [hc]; exact not_false)
    obtain ⟨_, _, st₀, A₀, a0, _, _, p0, f0⟩ := h.progress he
    rw [hc] at f0
    obtain ⟨v1, v2, v3, v4, v5, v6, v7⟩ := f0
    subst v2
    rw [a0] at hs
    simp only at hs
    have hrows : A₀.rows = inports := by rw [v4]; exact p0.2.2.1
    split at hs
    · next hk =>
      rw [v4, rowsWritten_succ p0.2.2.1 v1.1 (by have := v1.1; omega) v6] at hs
      cases hs
      refine h.written he _ _ fun st B hp hB hf => ?_
      rw [hc] at hf
      obtain ⟨u1, u2, u3, u4, u5, u6, u7⟩ := hf
      have hk' : k < inports := by have := v1.1; omega
      refine ⟨u1, rfl, hk', ?_, u5, u6, u7⟩
      have e : A₀ = B := by rw [a0] at hB; exact Option.some.inj hB
      have e1 := rowsWritten_succ (k := k) p0.2.2.1 v1.1 hk' v6
      have e2 := rowsWritten_succ (k := k) hp.2.2.1 u1.1 hk' u6
      rw [← v4, e, u4, e2] at e1
      exact (Except.ok.inj e1).symm
    · next hk =>
      cases hs
      refine h.local _ w.active (fun h' => absurd (he.symm.trans h') (by simp)) fun A st _ hp hA hf => ?_
      rw [hc] at hf
      obtain ⟨u1, u2, u3, u4, u5, u6, u7⟩ := hf
      have e : k = inports := by have := v1.1; omega
      subst e
      rw [← u4] at u7
      exact ⟨u5, by rw [u4]; exact hp.2.2.1, by rw [u4]; exact hp.2.2.2, u7⟩
  | recorded b stop out =>
    rw [hc] at hs
    cases hs
    exact h.stored hc
  | ending b =>
    rw [hc] at hs
    cases hs
    exact h.finished hc
  | ended =>
    rw [hc] at hs
    cases hs
    exact h.local .idle _ (fun _ => trivial) fun A st _ _ _ hf => by rw [hc] at hf; exact hf

theorem Inv.mainStep [Zero α] {inports : Nat} {auto : Bool} {mem : Nat → Nat → α} {empty : Mat α}
    {all : List (Option (Signal α R) × Signal α R)}
    {w w' : System α R} (h : Inv inports empty all w) (hs : w.mainStep inports auto mem = some w') : Inv inports empty all w' := by
  obtain ⟨g1, ⟨rs, rest, g2, g3, g4⟩, g5, g6, g7⟩ := h
  unfold System.mainStep at hs
  have hready : w.main ≠ .ready → w.event = true := by
    intro hm
    cases he : w.event with
    | true => rfl
    | false => exact absurd (g7 he).1 hm
  unfold MainInv at g3
  cases hm : w.main with
  | ready =>
    rw [hm] at hs g3
    obtain ⟨k, r, m1, m2, m3, m4, m5⟩ := g3
    cases ho : w.ops with
    | nil => rw [ho] at hs; cases hs
    | cons op ops =>
      rw [ho] at hs m1 m2
      cases op with
      | start =>
        cases hs
        have he := m3 m1.1
        refine ⟨g1, ⟨rs, rest, g2, ⟨he, m1.2, m2⟩, g4⟩, fun r hr => ⟨(g5 r hr).1, fun hf => ?_⟩, g6,
          fun he' => absurd (he.symm.trans he') (by simp)⟩
        exact absurd (he.symm.trans hf) (by simp)
      | input s =>
        simp only at hs
        split at hs
        · next he =>
          cases hs
          refine ⟨g1, ⟨rs, rest, g2, ⟨he, m1, r, m2, m4 he⟩, g4⟩, fun r hr => ⟨(g5 r hr).1, fun hf => ?_⟩, g6,
            fun he' => absurd (he.symm.trans he') (by simp)⟩
          exact absurd (he.symm.trans hf) (by simp)
        · cases hs
      | output =>
        simp only at hs
        split at hs
        · next he =>
          cases hs
          refine ⟨g1, ⟨rs, rest, g2, ⟨he, m1, r, m2, m4 he⟩, g4⟩, fun r hr => ⟨(g5 r hr).1, fun hf => ?_⟩, g6,
            fun he' => absurd (he.symm.trans he') (by simp)⟩
          exact absurd (he.symm.trans hf) (by simp)
        · cases hs
  | activated =>
    have he := hready (by rw [hm]; intro h; cases h)
    rw [hm] at hs g3
    cases hs
    obtain ⟨m1, m2, m3⟩ := g3
    refine ⟨by simp, ⟨rs, rest, g2, ⟨he, m2, m3, mem, by simp⟩, ?_⟩, fun r hr => ?_, g6,
      fun he' => absurd (he.symm.trans he') (by simp)⟩
    · have : ∀ r ∈ w.results, r.1 < w.arrays.length := fun r hr => by have := (g5 r hr).1; omega
      clear g2
      show List.Forall₂ _ w.results rs
      generalize w.results = l at g4 this
      induction g4 with
      | nil => exact .nil
      | cons h t ih =>
        rename_i a b l₁ l₂
        refine .cons ⟨h.1.mono' ?_, h.2⟩ (ih fun r hr => this r (List.mem_cons_of_mem _ hr))
        exact List.getElem?_append_left (this a List.mem_cons_self)
    · have := (g5 r hr).1
      exact ⟨show r.1 ≤ w.arrays.length by omega, fun _ => show r.1 < w.arrays.length by omega⟩
  | allocated =>
    have he := hready (by rw [hm]; intro h; cases h)
    rw [hm] at hs g3
    cases hs
    obtain ⟨m1, m2, m3, m4⟩ := g3
    have hf : Fresh w := by unfold Fresh; rw [hm]; trivial
    exact ⟨g1, ⟨rs, rest, g2, ⟨he, m2, m3, m4, rfl⟩, g4⟩, fun r hr => ⟨(g5 r hr).1, fun _ => (g5 r hr).2 hf⟩, g6,
      fun he' => absurd (he.symm.trans he') (by simp)⟩
  | reset =>
    have he := hready (by rw [hm]; intro h; cases h)
    rw [hm] at hs g3
    cases hs
    obtain ⟨m1, m2, m3, ⟨mem, m4⟩, m5⟩ := g3
    have hf : Fresh w := by unfold Fresh; rw [hm]; trivial
    refine ⟨g1, ⟨rs, rest, g2, ⟨false, some w.input, m2, m3, fun h => (by cases h), fun h => (by cases h), fun _ => rfl⟩, g4⟩,
      fun r hr => ⟨(g5 r hr).1, fun _ => (g5 r hr).2 hf⟩, fun h => (by cases h),
      fun _ => ⟨rfl, mem, start mem inports w.input, _, m4, le_refl _, ?_, start_proper _ _ _, ?_⟩⟩
    · show process w.input _ ((w.log.drop w.log.length).map Prod.fst) = .ok (_, (w.log.drop w.log.length).map Prod.snd)
      rw [List.drop_length]
      rfl
    · have hq := g6 he
      show Follows inports w.input _ w.channels w.index _ w.callback
      cases hc : w.callback <;> rw [hc] at hq
      · exact ⟨rfl, m5⟩
      · exact ⟨hq, rfl, m5⟩
      case ended => exact ⟨rfl, m5⟩
      all_goals exact hq.elim
  | inputWaited s =>
    have he := hready (by rw [hm]; intro h; cases h)
    rw [hm] at hs g3
    cases hs
    obtain ⟨m1, m2, r, m3, m4⟩ := g3
    refine ⟨g1, ⟨rs, rest, g2, ⟨true, r, m2, m3, fun _ => he, fun _ => m4, fun he' => absurd (he.symm.trans he') (by simp)⟩, g4⟩,
      fun r hr => ⟨(g5 r hr).1, fun hf => ?_⟩, g6, fun he' => absurd (he.symm.trans he') (by simp)⟩
    exact absurd (he.symm.trans hf) (by simp)
  | outputWaited =>
    have he := hready (by rw [hm]; intro h; cases h)
    rw [hm] at hs g3
    simp only at hs
    split at hs
    · cases hs
      refine ⟨g1, ⟨rs, rest, g2, g3, g4⟩, fun r hr => ⟨(g5 r hr).1, fun hf => ?_⟩, g6,
        fun he' => absurd (he.symm.trans he') (by simp)⟩
      exact absurd (he.symm.trans hf) (by simp)
    · cases hs
  | slept =>
    have he := hready (by rw [hm]; intro h; cases h)
    rw [hm] at hs g3
    cases hs
    refine ⟨g1, ⟨rs, rest, g2, ⟨rfl, g3⟩, g4⟩, fun r hr => ⟨(g5 r hr).1, fun hf => ?_⟩, g6,
      fun he' => absurd (he.symm.trans he') (by simp)⟩
    exact absurd (he.symm.trans hf) (by simp)
  | gotChannels a =>
    have he := hready (by rw [hm]; intro h; cases h)
    rw [hm] at hs g3
    cases hs
    obtain ⟨m0, m1, m2, r, m3, m4⟩ := g3
    refine ⟨g1, ⟨rs ++ [(r, w.input)], expected r w.input w.ops, by rw [g2, m3]; simp,
      ⟨true, r, m2, rfl, fun _ => he, fun _ => m4, fun he' => absurd (he.symm.trans he') (by simp)⟩, ?_⟩,
      fun x hr => ⟨?_, fun hf => absurd (he.symm.trans hf) (by simp)⟩, g6, fun he' => absurd (he.symm.trans he') (by simp)⟩
    · refine List.rel_append g4 (.cons ⟨?_, rfl⟩ .nil)
      rw [m0]
      exact m4
    · rcases List.mem_append.mp hr with hr | hr
      · exact (g5 x hr).1
      · rw [List.mem_singleton] at hr
        rw [hr]
        exact le_of_eq m0

theorem Inv.step [Zero α] {inports : Nat} {auto : Bool} {empty : Mat α} {all : List (Option (Signal α R) × Signal α R)}
    {w w' : System α R} (h : Inv inports empty all w) {c : Choice α} (hc : ValidChoice inports c)
    (hs : w.step inports auto c = some w') : Inv inports empty all w' := by
  cases c with
  | server b =>
    simp only [System.step] at hs
    split at hs
    · next hi =>
      cases hs
      have hidle : w.callback = .idle := by
        cases hcb : w.callback <;> rw [hcb] at hi <;> first | rfl | exact absurd hi.2 (by simp [Callback.isIdle])
      refine h.local (.entered b) w.active (fun _ => hc) fun A st _ _ _ hf => ?_
      rw [hidle] at hf
      exact ⟨hc, hf.1, hf.2⟩
    · cases hs
  | callback => exact h.callback hs
  | main mem => exact h.mainStep hs
  | shutdown => exact hc.elim

theorem Inv.run [Zero α] {inports : Nat} {auto : Bool} {empty : Mat α} {all : List (Option (Signal α R) × Signal α R)} :
    ∀ {cs : List (Choice α)} {w w' : System α R}, Inv inports empty all w → (∀ c ∈ cs, ValidChoice inports c) →
    w.run inports auto cs = some w' → Inv inports empty all w'
  | [], w, w', h, _, hs => by cases hs; exact h
  | c :: cs, w, w', h, hv, hs => by
    simp only [System.run] at hs
    cases h1 : w.step inports auto c with
    | none => rw [h1] at hs; cases hs
    | some w₁ =>
      rw [h1] at hs
      exact Inv.run (h.step (hv c List.mem_cons_self) h1) (fun c hc => hv c (List.mem_cons_of_mem _ hc)) hs

theorem Inv.initial [Zero α] (inports : Nat) (empty : Mat α) (s : Signal α R) (ops : List (Op α R)) (h : Waits true ops) :
    Inv inports empty (expected none s ops) (System.initial empty s ops) := by
  refine ⟨rfl, ⟨[], _, rfl, ⟨true, none, h, rfl, fun _ => rfl, fun _ => ⟨rfl, rfl⟩, fun h => (by cases h)⟩, .nil⟩, ?_,
    fun _ => trivial, fun h => (by cases h)⟩
  intro r hr
  cases hr

end Threads
end Jack
end Verif
