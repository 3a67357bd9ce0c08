import Verif.SpectrogramMore
import Verif.SignalProps

/-
Property C84 (padding and shifting of spectrograms) and C85 (a frequency bin of a spectrogram is treated like
a signal).
-/

namespace Verif

namespace Cube

variable {α : Type}

/-- the values of the frequency bin `f` as a two-dimensional array -/
def bin (f : Nat) (A : Cube α) : Mat α where
  rows := A.d0
  cols := A.d2
  get c t := A.get c f t

/-- `M` has the shape of a bin of `C`, which has `D` bins, and is the bin `f`, if there is such a bin. -/
structure IsBin (D f : Nat) (C : Cube α) (M : Mat α) : Prop where
  h1 : C.d1 = D
  h0 : C.d0 = M.rows
  h2 : C.d2 = M.cols
  get : f < D → ∀ i k, C.get i f k = M.get i k

/-- both computations raise the same exception or their results are related -/
def SameBin (D f : Nat) : Py (Cube α) → Py (Mat α) → Prop
  | .ok C, .ok M => IsBin D f C M
  | .error e, .error e' => e = e'
  | _, _ => False

theorem SameBin.bind {D f : Nat} {x : Py (Cube α)} {y : Py (Mat α)} (h : SameBin D f x y)
    {g : Cube α → Py (Cube α)} {g' : Mat α → Py (Mat α)}
    (hg : ∀ C M, IsBin D f C M → SameBin D f (g C) (g' M)) : SameBin D f (x >>= g) (y >>= g') := by
  cases x <;> cases y
  · exact h
  · exact h.elim
  · exact h.elim
  · exact hg _ _ h

/-- the source of an assignment: an array with the same number of bins or a scalar -/
def SourceBin (D f : Nat) (S : Cube α) (N : Mat α) : Prop :=
  IsBin D f S N ∨ ∃ v, S = .scalar v ∧ N = .scalar v

theorem assign_bin {D f : Nat} {A S : Cube α} {M N : Mat α} (hA : IsBin D f A M) (hS : SourceBin D f S N)
    (t : PySlice) : SameBin D f (A.assign .all .all t S) (M.assign .all t N) := by
  have hd0 : S.d0 = N.rows := by
    rcases hS with h | ⟨v, rfl, rfl⟩
    · exact h.h0
    · rfl
  have hd2 : S.d2 = N.cols := by
    rcases hS with h | ⟨v, rfl, rfl⟩
    · exact h.h2
    · rfl
  have hd1 : S.d1 = D ∨ S.d1 = 1 := by
    rcases hS with h | ⟨v, rfl, rfl⟩
    · exact Or.inl h.h1
    · exact Or.inr rfl
  have hget : f < D → ∀ i k, S.get i (ix S.d1 f) k = N.get i k := by
    intro hf i k
    rcases hS with h | ⟨v, rfl, rfl⟩
    · rw [h.h1, ix_lt hf]; exact h.get hf i k
    · rfl
  by_cases hfit : (N.rows = M.rows ∨ N.rows = 1) ∧ (N.cols = t.count M.cols ∨ N.cols = 1)
  · have hF : S.Fits (PySlice.all.count A.d0) (PySlice.all.count A.d1) (t.count A.d2) := by
      refine ⟨?_, ?_, ?_⟩
      · rw [hd0, PySlice.count_all, hA.h0]; exact hfit.1
      · rw [PySlice.count_all, hA.h1]; exact hd1
      · rw [hd2, hA.h2]; exact hfit.2
    unfold assign Mat.assign
    rw [broadcastTo_ok hF]
    have hN : N.broadcastTo (PySlice.all.count M.rows) (t.count M.cols) = .ok
      { rows := PySlice.all.count M.rows
        cols := t.count M.cols
        get := fun i j => N.get (if N.rows = 1 then 0 else i) (if N.cols = 1 then 0 else j) } := by
      unfold Mat.broadcastTo
      exact if_pos hfit
    rw [hN]
    refine ⟨hA.h1, hA.h0, hA.h2, ?_⟩
    intro hf i k
    have hf' : f < A.d1 := by rw [hA.h1]; exact hf
    have e0 := hA.h0
    have e2 := hA.h2
    by_cases hc : (0 ≤ i ∧ i < M.rows) ∧ (t.lo M.cols ≤ k ∧ k < t.hi M.cols)
    · refine (if_pos ?_).trans (Eq.trans ?_ (if_pos hc).symm)
      · rw [e0, e2]; exact ⟨hc.1, ⟨Nat.zero_le _, hf'⟩, hc.2⟩
      · show S.get (ix S.d0 (i - 0)) (ix S.d1 (f - 0)) (ix S.d2 (k - t.lo A.d2)) =
          N.get (ix N.rows (i - 0)) (ix N.cols (k - t.lo M.cols))
        rw [Nat.sub_zero f, hget hf, hd0, hd2, e2]
    · refine (if_neg ?_).trans (Eq.trans ?_ (if_neg hc).symm)
      · rw [e0, e2]; exact fun h => hc ⟨h.1, h.2.2⟩
      · exact hA.get hf i k
  · have hF : ¬ S.Fits (PySlice.all.count A.d0) (PySlice.all.count A.d1) (t.count A.d2) := by
      rintro ⟨g0, -, g2⟩
      rw [hd0, PySlice.count_all, hA.h0] at g0
      rw [hd2, hA.h2] at g2
      exact hfit ⟨g0, g2⟩
    unfold assign Mat.assign
    rw [broadcastTo_error hF]
    have hN : N.broadcastTo (PySlice.all.count M.rows) (t.count M.cols) = .error .valueError := by
      unfold Mat.broadcastTo
      exact if_neg hfit
    rw [hN]
    rfl

theorem IsBin.slice {D f : Nat} {A : Cube α} {M : Mat α} (h : IsBin D f A M) (t : PySlice) :
    IsBin D f (A.slice .all .all t) (M.slice .all t) := by
  refine ⟨h.h1, h.h0, ?_, ?_⟩
  · show t.count A.d2 = t.count M.cols
    rw [h.h2]
  · intro hf i k
    show A.get (0 + i) (0 + f) (t.lo A.d2 + k) = M.get (0 + i) (t.lo M.cols + k)
    rw [Nat.zero_add, Nat.zero_add, h.get hf, h.h2]

end Cube

namespace Spectrogram

variable {α R : Type}

/-! ### Specification vocabulary -/

/-- The value of channel `c` in the frequency bin `k` with the time index `i`, if there is one. -/
def sample (s : Spectrogram α R) (c k i : Nat) : Option α :=
  if c < s.count ∧ k < s.freqs ∧ i < s.length then some (s.channels.get c k i) else none

/-- The spectrogram as a function of time: the value of channel `c` in the bin `k` at the time
`t / sampling_rate`, if there is one. -/
def at_ (s : Spectrogram α R) (c k : Nat) (t : Int) : Option α :=
  if s.offset ≤ t then s.sample c k (t - s.offset).toNat else none

/-- There is one label per channel; the constructor enforces this. -/
def WF (s : Spectrogram α R) : Prop := s.labels.length = s.count

/-- the values of one frequency bin over time as a signal -/
def binSignal (k : Nat) (s : Spectrogram α R) : Signal α R :=
  ⟨s.channels.bin k, s.rate, s.offset, s.labels⟩

theorem binSignal_sample (s : Spectrogram α R) {k : Nat} (hk : k < s.freqs) (c i : Nat) :
    (s.binSignal k).sample c i = s.sample c k i := by
  unfold sample Signal.sample
  by_cases h : c < s.count ∧ i < s.length
  · exact (if_pos h).trans (if_pos (show _ ∧ _ ∧ _ from ⟨h.1, hk, h.2⟩)).symm
  · exact (if_neg h).trans (if_neg (show ¬ (_ ∧ _ ∧ _) from fun g => h ⟨g.1, g.2.2⟩)).symm

/-- The same, for all bins: `x` is the computation with the spectrogram, `y` the one with the bin `k`. -/
def SameSignal (s : Spectrogram α R) (k : Nat) : Py (Spectrogram α R) → Py (Signal α R) → Prop
  | .ok r, .ok q => r.freqs = s.freqs ∧ r.resolution = s.resolution ∧ r.count = q.count ∧ r.length = q.length ∧
      r.rate = q.rate ∧ r.offset = q.offset ∧ r.labels = q.labels ∧
      (k < s.freqs → ∀ c i, r.channels.get c k i = q.channels.get c i)
  | .error e, .error e' => e = e'
  | _, _ => False

theorem isBin_self (s : Spectrogram α R) (k : Nat) : Cube.IsBin s.freqs k s.channels (s.binSignal k).channels :=
  ⟨rfl, rfl, rfl, fun _ _ _ => rfl⟩

theorem isBin_alloc (mem : Nat → Nat → Nat → α) (d0 D d2 k : Nat) :
    Cube.IsBin D k (allocCube mem d0 D d2) (alloc (fun c i => mem c k i) d0 d2) :=
  ⟨rfl, rfl, rfl, fun _ _ _ => rfl⟩

theorem sameSignal_new (s : Spectrogram α R) (k : Nat) {x : Py (Cube α)} {y : Py (Mat α)}
    (h : Cube.SameBin s.freqs k x y) :
    SameSignal s k (x >>= fun channels => .ok (new channels s.resolution s.rate s.offset (some s.labels)))
      (y >>= fun channels => .ok (Signal.new channels s.rate s.offset (some s.labels))) := by
  cases x <;> cases y
  · exact h
  · exact h.elim
  · exact h.elim
  · refine ⟨h.h1, rfl, h.h0, h.h2, rfl, rfl, ?_, h.get⟩
    exact congrArg (sanitizeLabels (some s.labels)) h.h0

theorem sameSignal_self (s : Spectrogram α R) (k : Nat) : SameSignal s k (.ok s) (.ok (s.binSignal k)) :=
  ⟨rfl, rfl, rfl, rfl, rfl, rfl, rfl, fun _ _ _ => rfl⟩

theorem sameSignal_offset (s : Spectrogram α R) (k : Nat) (o : Int) :
    SameSignal s k (.ok (new s.channels s.resolution s.rate o (some s.labels)))
      (.ok (Signal.new (s.binSignal k).channels s.rate o (some s.labels))) :=
  ⟨rfl, rfl, rfl, rfl, rfl, rfl, rfl, fun _ _ _ => rfl⟩

/-! ### C85 -/

/-- C85: padding a spectrogram pads each of its frequency bins like a signal. -/
theorem C85_pad (mem : Nat → Nat → Nat → α) (s : Spectrogram α R) (length : Nat) (value : α) (k : Nat) :
    SameSignal s k (s.pad mem length value) ((s.binSignal k).pad (fun c i => mem c k i) length value) := by
  have hb := isBin_self s k
  have ha := isBin_alloc mem s.count s.freqs length k
  unfold pad Signal.pad
  by_cases h : length = s.length
  · rw [if_pos h, if_pos (show length = (s.binSignal k).length from h)]
    exact sameSignal_self s k
  · rw [if_neg h, if_neg (show ¬ length = (s.binSignal k).length from h)]
    by_cases h1 : length < s.length
    · simp only [if_pos h1, if_pos (show length < (s.binSignal k).length from h1)]
      exact sameSignal_new s k (Cube.assign_bin ha (Or.inl (hb.slice _)) .all)
    · simp only [if_neg h1, if_neg (show ¬ length < (s.binSignal k).length from h1)]
      apply sameSignal_new s k
      refine (Cube.assign_bin ha (Or.inl hb) _).bind ?_
      intro C M hC
      exact Cube.assign_bin hC (Or.inr ⟨_, rfl, rfl⟩) _

/-- C85: shifting a spectrogram in any mode shifts each of its frequency bins like a signal (and fails, if
shifting the bin fails). -/
theorem C85_shift [Zero α] (mem : Nat → Nat → Nat → α) (s : Spectrogram α R) (n : Option Int) (mode : ShiftMode)
    (k : Nat) :
    SameSignal s k (s.shift mem n mode) ((s.binSignal k).shift (fun c i => mem c k i) n mode) := by
  have hb := isBin_self s k
  unfold shift Signal.shift
  by_cases h : n = some 0
  · rw [if_pos h, if_pos h]
    exact sameSignal_self s k
  · rw [if_neg h, if_neg h]
    cases n with
    | none =>
      cases mode
      · exact sameSignal_offset s k 0
      · exact (rfl : PyExc.typeError = .typeError)
      · exact (rfl : PyExc.typeError = .typeError)
      · exact (rfl : PyExc.typeError = .typeError)
    | some n =>
      cases mode with
      | offset => exact sameSignal_offset s k _
      | crop =>
        have ha := isBin_alloc mem s.count s.freqs s.length k
        apply sameSignal_new s k
        by_cases h1 : n < 0
        · rw [if_pos h1, if_pos h1]
          refine (Cube.assign_bin ha (Or.inl (hb.slice _)) _).bind ?_
          intro C M hC
          exact Cube.assign_bin hC (Or.inr ⟨_, rfl, rfl⟩) _
        · rw [if_neg h1, if_neg h1]
          refine (Cube.assign_bin ha (Or.inr ⟨_, rfl, rfl⟩) _).bind ?_
          intro C M hC
          exact Cube.assign_bin hC (Or.inl (hb.slice _)) _
      | pad =>
        have ha := isBin_alloc mem s.count s.freqs (s.length + n.natAbs) k
        apply sameSignal_new s k
        by_cases h1 : n < 0
        · rw [if_pos h1, if_pos h1]
          refine (Cube.assign_bin ha (Or.inl hb) _).bind ?_
          intro C M hC
          exact Cube.assign_bin hC (Or.inr ⟨_, rfl, rfl⟩) _
        · rw [if_neg h1, if_neg h1]
          refine (Cube.assign_bin ha (Or.inr ⟨_, rfl, rfl⟩) _).bind ?_
          intro C M hC
          exact Cube.assign_bin hC (Or.inl hb) _
      | cycle =>
        have ha := isBin_alloc mem s.count s.freqs s.length k
        apply sameSignal_new s k
        refine (Cube.assign_bin ha (Or.inl (hb.slice _)) _).bind ?_
        intro C M hC
        exact Cube.assign_bin hC (Or.inl (hb.slice _)) _

/-- From statements about all bins to one about the spectrogram. -/
theorem of_bins (s : Spectrogram α R) (x : Py (Spectrogram α R)) (y : Nat → Py (Signal α R))
    (P : Nat → Signal α R → Prop) (hxy : ∀ k, SameSignal s k x (y k))
    (hy : ∀ k, ∃ q, y k = .ok q ∧ P k q) :
    ∃ r, x = .ok r ∧ r.freqs = s.freqs ∧ r.resolution = s.resolution ∧
      ∀ k, ∃ q, P k q ∧ r.count = q.count ∧ r.length = q.length ∧ r.rate = q.rate ∧ r.offset = q.offset ∧
        r.labels = q.labels ∧ (k < s.freqs → ∀ c i, r.sample c k i = q.sample c i) := by
  obtain ⟨q0, hq0, -⟩ := hy 0
  have h0 := hxy 0
  rw [hq0] at h0
  cases x with
  | error e => exact h0.elim
  | ok r =>
    refine ⟨r, rfl, h0.1, h0.2.1, ?_⟩
    intro k
    obtain ⟨q, hq, hP⟩ := hy k
    have h := hxy k
    rw [hq] at h
    obtain ⟨g1, g2, g3, g4, g5, g6, g7, g8⟩ := h
    refine ⟨q, hP, g3, g4, g5, g6, g7, ?_⟩
    intro hk c i
    unfold sample Signal.sample
    rw [g3, g4, g1, g8 hk]
    simp only [hk, true_and]

/-! ### C84 -/

/-- C84: `pad` returns a spectrogram with the requested length, the old values and the given value at all new
time indices, whatever the allocated memory contained; all other parameters are kept. -/
theorem C84_pad (mem : Nat → Nat → Nat → α) (s : Spectrogram α R) (hs : s.WF) (length : Nat) (value : α) :
    ∃ r, s.pad mem length value = .ok r ∧
      r.count = s.count ∧ r.freqs = s.freqs ∧ r.length = length ∧ r.resolution = s.resolution ∧
      r.rate = s.rate ∧ r.offset = s.offset ∧ r.labels = s.labels ∧
      ∀ c k i, c < s.count → k < s.freqs → i < length →
        r.sample c k i = if i < s.length then s.sample c k i else some value := by
  obtain ⟨r, hr, h1, h2, h3⟩ := of_bins s _ _ _ (C85_pad mem s length value)
    (fun k => Signal.C05_pad (fun c i => mem c k i) (s.binSignal k) hs length value)
  obtain ⟨q, hq, g1, g2, g3, g4, g5, -⟩ := h3 0
  refine ⟨r, hr, g1.trans hq.1, h1, g2.trans hq.2.1, h2, g3.trans hq.2.2.1, g4.trans hq.2.2.2.1,
    g5.trans hq.2.2.2.2.1, ?_⟩
  intro c k i hc hk hi
  obtain ⟨q, hq, -, -, -, -, -, g6⟩ := h3 k
  rw [g6 hk, hq.2.2.2.2.2 c i hc hi, binSignal_sample s hk]
  rfl

/-- an example: two channels with two bins and three time samples -/
def demo84 : Spectrogram Nat Nat :=
  new (Cube.ofLists 2 3 [[[1, 2, 3], [4, 5, 6]], [[7, 8, 9], [10, 11, 12]]]) 10 48 7 (some ["a", "b"])

example : demo84.WF ∧ ∃ r, demo84.pad (fun _ _ _ => 99) 5 0 = .ok r ∧ r.sample 1 1 2 = some 12 ∧
    r.sample 1 1 4 = some 0 := ⟨rfl, _, rfl, rfl, rfl⟩

/-- C05 for spectrograms: the common samples are unchanged, the additional ones have the given value and nothing is changed
by padding to the present length. -/
theorem C05_spectrogram_pad (mem : Nat → Nat → Nat → α) (s : Spectrogram α R) (hs : s.WF) (length : Nat) (value : α) :
    ∃ r, s.pad mem length value = .ok r ∧
      r.count = s.count ∧ r.freqs = s.freqs ∧ r.length = length ∧ r.resolution = s.resolution ∧
      r.rate = s.rate ∧ r.offset = s.offset ∧ r.labels = s.labels ∧
      (∀ c k i, c < s.count → k < s.freqs → i < length →
        r.sample c k i = if i < s.length then s.sample c k i else some value) ∧
      (length = s.length → r = s) := by
  obtain ⟨r, hr, h1, h2, h3, h4, h5, h6, h7, h8⟩ := C84_pad mem s hs length value
  refine ⟨r, hr, h1, h2, h3, h4, h5, h6, h7, h8, fun h => ?_⟩
  unfold pad at hr
  rw [if_pos h] at hr
  exact (Except.ok.inj hr).symm

example : demo84.WF ∧ demo84.pad (fun _ _ _ => 99) 3 0 = .ok demo84 ∧ demo84.length = 3 := ⟨rfl, rfl, rfl⟩

/-- C84, mode OFFSET: every value moves by `n` sample periods; nothing else changes. -/
theorem C84_offset [Zero α] (mem : Nat → Nat → Nat → α) (s : Spectrogram α R) (hs : s.WF) (n : Int) :
    ∃ r, s.shift mem (some n) .offset = .ok r ∧ r.channels = s.channels ∧ r.resolution = s.resolution ∧
      r.rate = s.rate ∧ r.labels = s.labels ∧ ∀ c k t, r.at_ c k (t + n) = s.at_ c k t := by
  have key : ∃ r, s.shift mem (some n) .offset = .ok r ∧ r.channels = s.channels ∧ r.resolution = s.resolution ∧
      r.rate = s.rate ∧ r.labels = s.labels ∧ r.offset = s.offset + n := by
    unfold shift
    by_cases h : n = 0
    · subst h; exact ⟨s, by simp, rfl, rfl, rfl, rfl, by simp⟩
    · rw [if_neg (by simpa using h)]
      exact ⟨_, rfl, rfl, rfl, rfl, Signal.sanitize_self hs, rfl⟩
  obtain ⟨r, h1, h2, h3, h4, h5, h6⟩ := key
  refine ⟨r, h1, h2, h3, h4, h5, ?_⟩
  intro c k t
  unfold at_
  rw [h6, show t + n - (s.offset + n) = t - s.offset by omega]
  have e : ∀ i, r.sample c k i = s.sample c k i := by
    intro i
    unfold sample count freqs length
    rw [h2]
  by_cases h : s.offset ≤ t
  · rw [if_pos h, if_pos (by omega), e]
  · rw [if_neg h, if_neg (by omega)]

/-- C84: `shift(None)` removes the offset and leaves the values as they are. -/
theorem C84_offset_none [Zero α] (mem : Nat → Nat → Nat → α) (s : Spectrogram α R) (hs : s.WF) :
    ∃ r, s.shift mem none .offset = .ok r ∧ r.offset = 0 ∧ r.channels = s.channels ∧
      r.resolution = s.resolution ∧ r.rate = s.rate ∧ r.labels = s.labels :=
  ⟨_, rfl, rfl, rfl, rfl, rfl, Signal.sanitize_self hs⟩

/-- C84, mode CROP: shape and offset are kept, the value at the index `i` is the former one at `i - n` if there
was one and zero otherwise. -/
theorem C84_crop [Zero α] (mem : Nat → Nat → Nat → α) (s : Spectrogram α R) (hs : s.WF) (n : Int) :
    ∃ r, s.shift mem (some n) .crop = .ok r ∧ r.count = s.count ∧ r.freqs = s.freqs ∧ r.length = s.length ∧
      r.resolution = s.resolution ∧ r.rate = s.rate ∧ r.offset = s.offset ∧ r.labels = s.labels ∧
      ∀ c k i, c < s.count → k < s.freqs → i < s.length →
        r.sample c k i = if 0 ≤ (i : Int) - n ∧ (i : Int) - n < s.length
          then s.sample c k ((i : Int) - n).toNat else some 0 := by
  obtain ⟨r, hr, h1, h2, h3⟩ := of_bins s _ _ _ (C85_shift mem s (some n) .crop)
    (fun k => Signal.C06_crop (fun c i => mem c k i) (s.binSignal k) hs n)
  obtain ⟨q, hq, g1, g2, g3, g4, g5, -⟩ := h3 0
  refine ⟨r, hr, g1.trans hq.1, h1, g2.trans hq.2.1, h2, g3.trans hq.2.2.1, g4.trans hq.2.2.2.1,
    g5.trans hq.2.2.2.2.1, ?_⟩
  intro c k i hc hk hi
  obtain ⟨q, hq, -, -, -, -, -, g6⟩ := h3 k
  rw [g6 hk, hq.2.2.2.2.2 c i hc hi, binSignal_sample s hk]
  rfl

example : ∃ r, demo84.shift (fun _ _ _ => 99) (some (-2)) .crop = .ok r ∧ r.sample 1 0 0 = some 9 ∧
    r.sample 1 0 1 = some 0 := ⟨_, rfl, rfl, rfl⟩

/-- What C84 demands of the result of `shift(n, PAD)`: the value at the index `i` is the former one at `i - n`. -/
def PadSpec [Zero α] (s r : Spectrogram α R) (n : Int) : Prop :=
  r.count = s.count ∧ r.freqs = s.freqs ∧ r.length = s.length + n.natAbs ∧ r.resolution = s.resolution ∧
  r.rate = s.rate ∧ r.offset = s.offset ∧ r.labels = s.labels ∧
  ∀ c k i, c < s.count → k < s.freqs → i < r.length → r.sample c k i =
    if 0 ≤ (i : Int) - n ∧ (i : Int) - n < s.length then s.sample c k ((i : Int) - n).toNat else some 0

/-- C84, mode PAD, for non-negative shifts.  `_partial`: false for negative shifts, see
`C84_negative_violated`. -/
theorem C84_shift_pad_partial [Zero α] (mem : Nat → Nat → Nat → α) (s : Spectrogram α R) (hs : s.WF) (n : Int)
    (hn : 0 ≤ n) : ∃ r, s.shift mem (some n) .pad = .ok r ∧ PadSpec s r n := by
  obtain ⟨r, hr, h1, h2, h3⟩ := of_bins s _ _ _ (C85_shift mem s (some n) .pad)
    (fun k => Signal.C07_pad_partial (fun c i => mem c k i) (s.binSignal k) hs n hn)
  obtain ⟨q, ⟨hq, -⟩, g1, g2, g3, g4, g5, -⟩ := h3 0
  have hl : r.length = s.length + n.natAbs := g2.trans hq.2.1
  refine ⟨r, hr, g1.trans hq.1, h1, hl, h2, g3.trans hq.2.2.1, g4.trans hq.2.2.2.1,
    g5.trans hq.2.2.2.2.1, ?_⟩
  intro c k i hc hk hi
  obtain ⟨q, ⟨hq, -⟩, -, g7, -, -, -, g6⟩ := h3 k
  rw [g6 hk, hq.2.2.2.2.2 c i hc (by rw [← g7]; exact hi), binSignal_sample s hk]
  rfl

example : demo84.WF ∧ (0 : Int) ≤ 2 ∧ ∃ r, demo84.shift (fun _ _ _ => 99) (some 2) .pad = .ok r ∧
    r.sample 1 1 1 = some 0 ∧ r.sample 1 1 2 = some 10 ∧ r.length = 5 := ⟨rfl, by decide, _, rfl, rfl, rfl, rfl⟩

/-- C84 is violated for negative shifts in the mode PAD: the values are not moved. -/
theorem C84_negative_violated : ∃ (s r : Spectrogram Nat Nat) (n : Int),
    s.WF ∧ s.shift (fun _ _ _ => 99) (some n) .pad = .ok r ∧ ¬ PadSpec s r n := by
  refine ⟨demo84, _, -1, rfl, rfl, ?_⟩
  intro h
  have h1 := h.2.2.2.2.2.2.2 0 0 0 (by decide) (by decide) (by decide)
  have h2 : some 1 = some 2 := h1
  cases h2

/-- C84, mode CYCLE, for `|n| ≤ length`: the cyclic rotation.  `_partial`: false for larger shifts, see
`C84_large_shift_violated`. -/
theorem C84_cycle_partial [Zero α] (mem : Nat → Nat → Nat → α) (s : Spectrogram α R) (hs : s.WF) (n : Int)
    (hn : n.natAbs ≤ s.length) :
    ∃ r, s.shift mem (some n) .cycle = .ok r ∧ r.count = s.count ∧ r.freqs = s.freqs ∧ r.length = s.length ∧
      r.resolution = s.resolution ∧ r.rate = s.rate ∧ r.offset = s.offset ∧ r.labels = s.labels ∧
      ∀ c k i, c < s.count → k < s.freqs → i < s.length →
        r.sample c k (((i : Int) + n) % s.length).toNat = s.sample c k i := by
  obtain ⟨r, hr, h1, h2, h3⟩ := of_bins s _ _ _ (C85_shift mem s (some n) .cycle)
    (fun k => Signal.C08_cycle_partial (fun c i => mem c k i) (s.binSignal k) hs n hn)
  obtain ⟨q, hq, g1, g2, g3, g4, g5, -⟩ := h3 0
  refine ⟨r, hr, g1.trans hq.1, h1, g2.trans hq.2.1, h2, g3.trans hq.2.2.1, g4.trans hq.2.2.2.1,
    g5.trans hq.2.2.2.2.1, ?_⟩
  intro c k i hc hk hi
  obtain ⟨q, hq, -, -, -, -, -, g6⟩ := h3 k
  rw [g6 hk]
  exact (hq.2.2.2.2.2 c i hc hi).trans (binSignal_sample s hk c i)

example : demo84.WF ∧ (-1 : Int).natAbs ≤ demo84.length ∧
    ∃ r, demo84.shift (fun _ _ _ => 99) (some (-1)) .cycle = .ok r ∧
      r.sample 1 1 0 = some 11 ∧ r.sample 1 1 1 = some 12 ∧ r.sample 1 1 2 = some 10 :=
  ⟨rfl, by decide, _, rfl, rfl, rfl, rfl⟩

/-- C84 is violated for shifts in the mode CYCLE, which are longer than the spectrogram: the values are not
rotated. -/
theorem C84_large_shift_violated : ∃ (s r : Spectrogram Nat Nat) (n : Int),
    s.WF ∧ s.shift (fun _ _ _ => 99) (some n) .cycle = .ok r ∧
    ∃ c k i, c < s.count ∧ k < s.freqs ∧ i < s.length ∧
      r.sample c k (((i : Int) + n) % s.length).toNat ≠ s.sample c k i := by
  refine ⟨demo84, _, 4, rfl, rfl, 0, 0, 0, by decide, by decide, by decide, ?_⟩
  intro h
  have h2 : some 2 = some 1 := h
  cases h2

end Spectrogram
end Verif
