import Verif.StepSlice
import Verif.SignalProps
import Verif.SpectrumSliceProps
import Mathlib.Tactic.Linarith

/-
Property C141: slices with steps and tuples of keys.
-/

namespace Verif
namespace StepSlice

/-! ### Specification -/

/-- the index, that is meant by a possibly negative index for a sequence with `n` elements -/
def wrap (n : Nat) (i : Int) : Int := if i < 0 then i + n else i

/-- The elements with the indices `x`, that python's documentation specifies for a slice of a sequence with `n` elements: the
ones between the bounds, whose distance to the first one is a multiple of the step. -/
def Selects (s : StepSlice) (n x : Nat) : Prop :=
  x < n ∧
  if 0 < s.stride then
    (∀ a, s.start = some a → wrap n a ≤ x) ∧ (∀ b, s.stop = some b → x < wrap n b) ∧
      s.stride ∣ x - max 0 (wrap n (s.start.getD 0))
  else
    (∀ a, s.start = some a → x ≤ wrap n a) ∧ (∀ b, s.stop = some b → wrap n b < x) ∧
      s.stride ∣ min ((n : Int) - 1) (wrap n (s.start.getD (-1))) - x

/-! ### Lemmas -/

theorem lt_count_pos {s : StepSlice} (h : 0 < s.stride) (n i : Nat) :
    i < s.count n ↔ s.first n + i * s.stride < s.last n := by
  unfold count
  rw [if_neg (by omega)]
  split_ifs with hl
  · have h1 := Int.le_ediv_iff_mul_le (a := (i : Int)) (b := s.last n - s.first n - 1) h
    have h2 : 0 ≤ (s.last n - s.first n - 1) / s.stride := Int.ediv_nonneg (by omega) h.le
    omega
  · have : 0 ≤ (i : Int) * s.stride := by positivity
    omega

theorem lt_count_neg {s : StepSlice} (h : s.stride < 0) (n i : Nat) :
    i < s.count n ↔ s.last n < s.first n + i * s.stride := by
  unfold count
  rw [if_pos h]
  have e : (i : Int) * -s.stride = -(i * s.stride) := by ring
  split_ifs with hl
  · have h1 := Int.le_ediv_iff_mul_le (a := (i : Int)) (b := s.first n - s.last n - 1) (c := -s.stride) (by omega)
    have h2 : 0 ≤ (s.first n - s.last n - 1) / -s.stride := Int.ediv_nonneg (by omega) (by omega)
    omega
  · have : 0 ≤ (i : Int) * -s.stride := mul_nonneg (by omega) (by omega)
    omega

theorem bound_range (n : Nat) (step missing : Int) (h : -1 ≤ missing ∧ missing ≤ n) (b : Option Int) :
    -1 ≤ bound n step missing b ∧ bound n step missing b ≤ n := by
  cases b with
  | none => exact h
  | some i =>
    simp only [bound]
    split_ifs <;> omega

theorem first_range (s : StepSlice) (n : Nat) :
    if s.stride < 0 then -1 ≤ s.first n ∧ s.first n < n else 0 ≤ s.first n ∧ s.first n ≤ n := by
  unfold first
  cases s.start with
  | none => simp only [bound]; split_ifs <;> omega
  | some i => simp only [bound]; split_ifs <;> omega

theorem last_range (s : StepSlice) (n : Nat) :
    if s.stride < 0 then -1 ≤ s.last n ∧ s.last n < n else 0 ≤ s.last n ∧ s.last n ≤ n := by
  unfold last
  cases s.stop with
  | none => simp only [bound]; split_ifs <;> omega
  | some i => simp only [bound]; split_ifs <;> omega

/-- the index of a selected element as an integer -/
theorem index_eq {s : StepSlice} (h0 : s.stride ≠ 0) {n i : Nat} (hi : i < s.count n) :
    (s.index n i : Int) = s.first n + i * s.stride ∧ s.index n i < n := by
  have h1 := s.first_range n
  have h2 := s.last_range n
  unfold index
  by_cases h : s.stride < 0
  · rw [if_pos h] at h1 h2
    rw [lt_count_neg h] at hi
    have : 0 ≤ (i : Int) * -s.stride := mul_nonneg (by omega) (by omega)
    rw [mul_neg] at this
    omega
  · rw [if_neg h] at h1 h2
    have h : 0 < s.stride := by omega
    rw [lt_count_pos h] at hi
    have : 0 ≤ (i : Int) * s.stride := by positivity
    omega

theorem first_pos {s : StepSlice} (h : 0 < s.stride) (n : Nat) :
    s.first n = min (n : Int) (max 0 (wrap n (s.start.getD 0))) := by
  unfold first wrap
  cases s.start with
  | none => simp only [bound, Option.getD_none]; split_ifs <;> omega
  | some i => simp only [bound, Option.getD_some]; split_ifs <;> omega

theorem last_pos {s : StepSlice} (h : 0 < s.stride) (n : Nat) :
    s.last n = min (n : Int) (max 0 (match s.stop with | none => (n : Int) | some b => wrap n b)) := by
  unfold last wrap
  cases s.stop with
  | none => simp only [bound]; split_ifs <;> omega
  | some i => simp only [bound]; split_ifs <;> omega

theorem first_neg {s : StepSlice} (h : s.stride < 0) (n : Nat) :
    s.first n = max (-1 : Int) (min ((n : Int) - 1) (wrap n (s.start.getD (-1)))) := by
  unfold first wrap
  cases s.start with
  | none => simp only [bound, Option.getD_none]; split_ifs <;> omega
  | some i => simp only [bound, Option.getD_some]; split_ifs <;> omega

theorem last_neg {s : StepSlice} (h : s.stride < 0) (n : Nat) :
    s.last n = max (-1 : Int) (min ((n : Int) - 1) (match s.stop with | none => (-1 : Int) | some b => wrap n b)) := by
  unfold last wrap
  cases s.stop with
  | none =>
    simp only [bound]
    split_ifs
    omega
  | some i => simp only [bound]; split_ifs <;> omega

/-! ### Properties -/

/-- C141: A slice selects exactly the elements, that python's documentation specifies, in the order, that is given by the sign
of the step. -/
theorem C141_indices (s : StepSlice) (h0 : s.step ≠ some 0) (n : Nat) :
    (∀ x, s.Selects n x ↔ ∃ i, i < s.count n ∧ s.index n i = x) ∧
    ∀ i, i + 1 < s.count n → (s.index n (i + 1) : Int) = s.index n i + s.stride := by
  have hs : s.stride ≠ 0 := by
    unfold stride
    cases hst : s.step with
    | none => simp
    | some k =>
      intro h
      rw [hst] at h0
      exact h0 (congrArg some h)
  refine ⟨fun x => ?_, fun i hi => ?_⟩
  · unfold Selects
    by_cases h : 0 < s.stride
    · rw [if_pos h]
      have h1 := first_pos h n
      have h2 := last_pos h n
      constructor
      · rintro ⟨hx, ha, hb, k, hk⟩
        have hfx : max 0 (wrap n (s.start.getD 0)) ≤ x := by
          cases e : s.start with
          | none => simp [wrap]
          | some a =>
            have := ha a e
            simp only [Option.getD_some]
            omega
        have hk0 : 0 ≤ k := by
          by_contra hneg
          have : s.stride * k < 0 := mul_neg_of_pos_of_neg h (by omega)
          omega
        obtain ⟨m, rfl⟩ := Int.eq_ofNat_of_zero_le hk0
        have hlt : m < s.count n := by
          rw [lt_count_pos h, mul_comm]
          have hxl : (x : Int) < s.last n := by
            rw [h2]
            cases e : s.stop with
            | none => simp only; omega
            | some b =>
              have := hb b e
              simp only
              omega
          omega
        refine ⟨m, hlt, ?_⟩
        have := (index_eq hs hlt).1
        rw [mul_comm] at this
        omega
      · rintro ⟨i, hi, rfl⟩
        obtain ⟨e1, e2⟩ := index_eq hs hi
        rw [lt_count_pos h] at hi
        have hpos : 0 ≤ (i : Int) * s.stride := by positivity
        refine ⟨e2, ?_, ?_, ?_⟩
        · intro a ha
          rw [ha, Option.getD_some] at h1
          omega
        · intro b hb
          rw [hb] at h2
          simp only at h2
          omega
        · refine ⟨i, ?_⟩
          rw [mul_comm]
          omega
    · have h : s.stride < 0 := by omega
      rw [if_neg (by omega)]
      have h1 := first_neg h n
      have h2 := last_neg h n
      constructor
      · rintro ⟨hx, ha, hb, k, hk⟩
        have hfx : (x : Int) ≤ min ((n : Int) - 1) (wrap n (s.start.getD (-1))) := by
          cases e : s.start with
          | none => simp only [wrap, Option.getD_none]; split_ifs <;> omega
          | some a =>
            have := ha a e
            simp only [Option.getD_some]
            omega
        have hk0 : k ≤ 0 := by
          by_contra hneg
          have : s.stride * k < 0 := mul_neg_of_neg_of_pos h (by omega)
          omega
        obtain ⟨m, hm⟩ := Int.eq_ofNat_of_zero_le (a := -k) (by omega)
        obtain rfl : k = -(m : Int) := by omega
        rw [mul_neg, mul_comm] at hk
        have hlt : m < s.count n := by
          rw [lt_count_neg h]
          have hxl : s.last n < (x : Int) := by
            rw [h2]
            cases e : s.stop with
            | none => simp only; omega
            | some b =>
              have := hb b e
              simp only
              omega
          omega
        refine ⟨m, hlt, ?_⟩
        have := (index_eq hs hlt).1
        omega
      · rintro ⟨i, hi, rfl⟩
        obtain ⟨e1, e2⟩ := index_eq hs hi
        rw [lt_count_neg h] at hi
        have hpos : 0 ≤ (i : Int) * -s.stride := mul_nonneg (by omega) (by omega)
        rw [mul_neg] at hpos
        refine ⟨e2, ?_, ?_, ?_⟩
        · intro a ha
          rw [ha, Option.getD_some] at h1
          omega
        · intro b hb
          rw [hb] at h2
          simp only at h2
          omega
        · refine ⟨-i, ?_⟩
          rw [mul_neg, mul_comm]
          omega
  · rw [(index_eq hs hi).1, (index_eq hs (Nat.lt_of_succ_lt hi)).1]
    push_cast
    ring

example : ({ start := some (-2), stop := some 0, step := some (-3) } : StepSlice).count 10 = 3 ∧
    (List.range 3).map (({ start := some (-2), stop := some 0, step := some (-3) } : StepSlice).index 10) = [8, 5, 2] := by
  decide

/-- slices without a step -/
def ofSlice (p : PySlice) : StepSlice := { start := p.start, stop := p.stop }

theorem first_ofSlice (p : PySlice) (n : Nat) : (ofSlice p).first n = p.lo n := by
  have h : (0 : Int) < (ofSlice p).stride := one_pos
  rw [first_pos h]
  unfold wrap ofSlice PySlice.lo
  cases p.start with
  | none => simp
  | some a =>
    simp only [Option.getD_some, clampBound]
    split_ifs <;> omega

theorem last_ofSlice (p : PySlice) (n : Nat) : (ofSlice p).last n = p.hi n := by
  have h : (0 : Int) < (ofSlice p).stride := one_pos
  rw [last_pos h]
  unfold ofSlice PySlice.hi
  cases p.stop with
  | none => simp
  | some a =>
    simp only [clampBound, wrap]
    split_ifs <;> omega

theorem count_ofSlice (p : PySlice) (n : Nat) : (ofSlice p).count n = p.count n := by
  unfold count PySlice.count
  rw [first_ofSlice, last_ofSlice]
  simp only [stride, ofSlice, Option.getD_none, Int.ediv_one]
  split_ifs <;> omega

theorem index_ofSlice (p : PySlice) (n i : Nat) : (ofSlice p).index n i = p.lo n + i := by
  unfold index
  rw [first_ofSlice]
  simp only [stride, ofSlice, Option.getD_none]
  omega

theorem nonzero {s : StepSlice} (h0 : s.step ≠ some 0) : s.stride ≠ 0 := by
  unfold stride
  cases hst : s.step with
  | none => simp
  | some k =>
    intro h
    rw [hst] at h0
    exact h0 (congrArg some h)

/-- the elements of a sliced tuple -/
theorem list_get {β : Type} (s : StepSlice) (h0 : s.step ≠ some 0) (l : List β) :
    ∃ r, s.list l = .ok r ∧ r.length = s.count l.length ∧ ∀ i, i < s.count l.length → r[i]? = l[s.index l.length i]? := by
  have h : ∀ i ∈ List.range (s.count l.length), l[s.index l.length i]? ≠ none := by
    intro i hi
    have := (index_eq (nonzero h0) (List.mem_range.mp hi)).2
    simp [this]
  have key : ∀ (m : List Nat), (∀ i ∈ m, l[s.index l.length i]? ≠ none) →
      (m.filterMap fun i => l[s.index l.length i]?).length = m.length ∧
      ∀ j : Nat, (m.filterMap fun i => l[s.index l.length i]?)[j]? = m[j]?.bind fun i => l[s.index l.length i]? := by
    intro m hm
    induction m with
    | nil => simp
    | cons a m ih =>
      obtain ⟨x, hx⟩ := Option.ne_none_iff_exists'.mp (hm a (by simp))
      obtain ⟨e1, e2⟩ := ih fun i hi => hm i (by simp [hi])
      rw [List.filterMap_cons_some (f := fun i => l[s.index l.length i]?) hx]
      refine ⟨by simp [e1], fun j => ?_⟩
      cases j with
      | zero => simp [hx]
      | succ j => simp [e2]
  obtain ⟨e1, e2⟩ := key _ h
  refine ⟨_, if_neg h0, by simpa using e1, fun i hi => ?_⟩
  rw [e2, List.getElem?_range hi]
  rfl

theorem list_ofSlice {β : Type} (p : PySlice) (l : List β) : (ofSlice p).list l = .ok (sliceList l p) := by
  obtain ⟨r, h1, h2, h3⟩ := list_get (ofSlice p) (by simp [ofSlice]) l
  rw [h1]
  congr 1
  rw [count_ofSlice] at h2 h3
  have hhi := p.hi_le l.length
  refine List.ext_getElem? fun i => ?_
  by_cases hi : i < p.count l.length
  · rw [h3 i hi, index_ofSlice]
    unfold sliceList
    rw [List.getElem?_take_of_lt hi, List.getElem?_drop]
  · rw [List.getElem?_eq_none (by omega), List.getElem?_eq_none]
    unfold sliceList
    simp
    omega

theorem mat_ofSlice {α : Type} (A : Mat α) (r c : PySlice) : mat A (ofSlice r) (ofSlice c) = .ok (A.slice r c) := by
  unfold mat
  rw [if_neg (by simp [ofSlice])]
  simp only [count_ofSlice, index_ofSlice, Mat.slice]

theorem cube_ofSlice {α : Type} (A : Cube α) (r s t : PySlice) :
    cube A (ofSlice r) (ofSlice s) (ofSlice t) = .ok (A.slice r s t) := by
  unfold cube
  rw [if_neg (by simp [ofSlice])]
  simp only [count_ofSlice, index_ofSlice, Cube.slice]

/-- a key without a step -/
def withoutStep : Indexing.Key → Indexing.AxisKey
  | .idx i => .idx i
  | .slice a b => .slice a b none

theorem axisSlice_withoutStep (n : Nat) (k : Indexing.Key) :
    Indexing.axisSlice n (withoutStep k) = (Indexing.keyToSlice n k).map ofSlice := by
  cases k with
  | idx i =>
    cases i with
    | int k => rfl
    | float q =>
      simp only [withoutStep, Indexing.axisSlice, Indexing.keyToSlice, Option.map_map]
      rfl
  | slice a b =>
    simp only [withoutStep, Indexing.axisSlice, Indexing.keyToSlice]
    rw [show Indexing.boundOf n none = some none from rfl]
    cases Indexing.boundOf n a <;> cases Indexing.boundOf n b <;> rfl

end StepSlice

open StepSlice Indexing

variable {α R : Type}

/-- C141: Without steps, the operator `[]` of signals behaves as described by the properties C03 and C04. -/
theorem C141_signal_without_step (s : Signal α R) (k0 k1 : Key) :
    s.getAny (.single (withoutStep k0)) = (s.getChannels k0).map .ok ∧
    s.getAny (.tuple [withoutStep k0, withoutStep k1]) = (s.getItem k0 k1).map .ok := by
  constructor
  · simp only [Signal.getAny, Signal.getChannels, axisSlice_withoutStep, Option.map_map]
    congr 1
    funext c
    show (do let channels ← mat s.channels (ofSlice c) (ofSlice .all); _) = _
    rw [mat_ofSlice]
    show (do let labels ← (ofSlice c).list s.labels; _) = _
    rw [list_ofSlice]
    rfl
  · simp only [Signal.getAny, Signal.getItem, tupleSlices, axisSlice_withoutStep]
    cases keyToSlice s.count k0 with
    | none => rfl
    | some c =>
      cases keyToSlice s.length k1 with
      | none => rfl
      | some t =>
        simp only [Option.map_some]
        rw [mat_ofSlice]
        show some (do let labels ← (ofSlice c).list s.labels; _) = _
        rw [list_ofSlice]
        rfl

/-- C141: Without steps, the operator `[]` of spectrums behaves as described by the property C86. -/
theorem C141_spectrum_without_step (s : Spectrum α R) (k0 k1 : Key) :
    s.getAny (.single (withoutStep k0)) = (s.getChannels k0).map .ok ∧
    s.getAny (.tuple [withoutStep k0, withoutStep k1]) = (s.getItem k0 k1).map .ok := by
  constructor
  · simp only [Spectrum.getAny, Spectrum.getChannels, axisSlice_withoutStep, Option.map_map]
    congr 1
    funext c
    show (do let channels ← mat s.channels (ofSlice c) (ofSlice .all); _) = _
    rw [mat_ofSlice]
    show (do let labels ← (ofSlice c).list s.labels; _) = _
    rw [list_ofSlice]
    rfl
  · simp only [Spectrum.getAny, Spectrum.getItem, tupleSlices, axisSlice_withoutStep]
    cases keyToSlice s.count k0 with
    | none => rfl
    | some c =>
      cases keyToSlice s.length k1 with
      | none => rfl
      | some t =>
        simp only [Option.map_some, List.headD_cons]
        rw [mat_ofSlice]
        show some (do let labels ← (ofSlice c).list s.labels; _) = _
        rw [list_ofSlice]
        rfl

/-- C141: Without steps, the operator `[]` of spectrograms behaves as described by the property C86. -/
theorem C141_spectrogram_without_step (s : Spectrogram α R) (k0 k1 k2 : Key) :
    s.getAny (.single (withoutStep k0)) = (s.getChannels k0).map .ok ∧
    s.getAny (.tuple [withoutStep k0, withoutStep k1]) = (s.getBins k0 k1).map .ok ∧
    s.getAny (.tuple [withoutStep k0, withoutStep k1, withoutStep k2]) = (s.getItem k0 k1 k2).map .ok := by
  refine ⟨?_, ?_, ?_⟩
  · simp only [Spectrogram.getAny, Spectrogram.getChannels, axisSlice_withoutStep, Option.map_map]
    congr 1
    funext c
    show (do let channels ← cube s.channels (ofSlice c) (ofSlice .all) (ofSlice .all); _) = _
    rw [cube_ofSlice]
    show (do let labels ← (ofSlice c).list s.labels; _) = _
    rw [list_ofSlice]
    rfl
  · simp only [Spectrogram.getAny, Spectrogram.getBins, tupleSlices, axisSlice_withoutStep]
    cases keyToSlice s.count k0 with
    | none => rfl
    | some c =>
      cases keyToSlice s.freqs k1 with
      | none => rfl
      | some f =>
        show some (do let channels ← cube s.channels (ofSlice c) (ofSlice f) (ofSlice .all); _) = _
        rw [cube_ofSlice]
        show some (do let labels ← (ofSlice c).list s.labels; _) = _
        rw [list_ofSlice]
        rfl
  · simp only [Spectrogram.getAny, Spectrogram.getItem, tupleSlices, axisSlice_withoutStep]
    cases keyToSlice s.count k0 with
    | none => rfl
    | some c =>
      cases keyToSlice s.freqs k1 with
      | none => rfl
      | some f =>
        cases keyToSlice s.length k2 with
        | none => rfl
        | some t =>
          simp only [Option.map_some]
          rw [cube_ofSlice]
          show some (do let labels ← (ofSlice c).list s.labels; _) = _
          rw [list_ofSlice]
          rfl

/-- C141: Without steps, the operator `[]` of filters behaves as described by the property C61. -/
theorem C141_filter_without_step {K : Type} (a : Filter.Channels α K) (k : Key) :
    a.getAny (.single (withoutStep k)) = (a.getItem k).map .ok := by
  simp only [Filter.Channels.getAny, Filter.Channels.getItem, axisSlice_withoutStep, Option.map_map]
  congr 1
  funext c
  simp only [Function.comp, list_ofSlice]
  rfl

example : (Signal.demo.getItem (.idx (.int 1)) (.slice (some (.int 1)) none)).isSome := by rfl

/-- C141: The channels and the samples of a sliced signal are the selected ones (see `C141_indices`) and each channel keeps its
label. The sampling rate does not change. -/
theorem C141_signal (s : Signal α R) (hs : s.WF) (k0 k1 : AxisKey) (C T : StepSlice) (hC : axisSlice s.count k0 = some C)
    (hT : axisSlice s.length k1 = some T) (hc : C.step ≠ some 0) (ht : T.step ≠ some 0) :
    ∃ r, s.getAny (.tuple [k0, k1]) = some (.ok r) ∧ r.rate = s.rate ∧ r.count = C.count s.count ∧
      r.length = T.count s.length ∧
      (∀ c i, c < r.count → i < r.length → r.sample c i = s.sample (C.index s.count c) (T.index s.length i)) ∧
      ∀ c, c < r.count → r.labels[c]? = s.labels[C.index s.count c]? := by
  obtain ⟨l, h1, h2, h3⟩ := C.list_get hc s.labels
  rw [show s.labels.length = s.count from hs] at h2 h3
  have hm : mat s.channels C T = .ok ⟨C.count s.count, T.count s.length,
      fun i j => s.channels.get (C.index s.count i) (T.index s.length j)⟩ := if_neg (by simp [hc, ht])
  refine ⟨Signal.new ⟨C.count s.count, T.count s.length,
      fun i j => s.channels.get (C.index s.count i) (T.index s.length j)⟩ s.rate (stepOffset s.offset s.length T) (some l),
    ?_, rfl, rfl, rfl, ?_, ?_⟩
  · simp only [Signal.getAny, tupleSlices, hC, hT, Option.map_some, hm, h1]
    rfl
  · intro c i h4 h5
    have e1 := (index_eq (nonzero hc) (show c < C.count s.count from h4)).2
    have e2 := (index_eq (nonzero ht) (show i < T.count s.length from h5)).2
    unfold Signal.sample
    rw [if_pos ⟨h4, h5⟩, if_pos ⟨e1, e2⟩]
    rfl
  · intro c h4
    have h4 : c < C.count s.count := h4
    rw [← h3 c h4]
    simp [Signal.new, sanitizeLabels, h2]

example : axisSlice Signal.demo.length (.slice none none (some (.int (-1)))) = some { step := some (-1) } ∧
    Signal.demo.WF ∧ ({ step := some (-1) } : StepSlice).step ≠ some 0 := ⟨rfl, rfl, by decide⟩

/-- C141: the same for spectrums -/
theorem C141_spectrum (s : Spectrum α R) (hs : s.WF) (k0 k1 : AxisKey) (C F : StepSlice) (hC : axisSlice s.count k0 = some C)
    (hF : axisSlice s.length k1 = some F) (hc : C.step ≠ some 0) (hf : F.step ≠ some 0) :
    ∃ r, s.getAny (.tuple [k0, k1]) = some (.ok r) ∧ r.resolution = s.resolution ∧ r.count = C.count s.count ∧
      r.length = F.count s.length ∧
      (∀ c i, c < r.count → i < r.length → r.sample c i = s.sample (C.index s.count c) (F.index s.length i)) ∧
      ∀ c, c < r.count → r.labels[c]? = s.labels[C.index s.count c]? := by
  obtain ⟨l, h1, h2, h3⟩ := C.list_get hc s.labels
  rw [show s.labels.length = s.count from hs] at h2 h3
  have hm : mat s.channels C F = .ok ⟨C.count s.count, F.count s.length,
      fun i j => s.channels.get (C.index s.count i) (F.index s.length j)⟩ := if_neg (by simp [hc, hf])
  refine ⟨Spectrum.new ⟨C.count s.count, F.count s.length,
      fun i j => s.channels.get (C.index s.count i) (F.index s.length j)⟩ s.resolution (some l), ?_, rfl, rfl, rfl, ?_, ?_⟩
  · simp only [Spectrum.getAny, tupleSlices, hC, hF, Option.map_some, List.headD_cons, hm, h1]
    rfl
  · intro c i h4 h5
    have e1 := (index_eq (nonzero hc) (show c < C.count s.count from h4)).2
    have e2 := (index_eq (nonzero hf) (show i < F.count s.length from h5)).2
    unfold Spectrum.sample
    rw [if_pos ⟨h4, h5⟩, if_pos ⟨e1, e2⟩]
    rfl
  · intro c h4
    have h4 : c < C.count s.count := h4
    rw [← h3 c h4]
    simp [Spectrum.new, sanitizeLabels, h2]

/-- a spectrum for examples: two channels with three bins each -/
def demoSpectrum : Spectrum Nat ℚ := Spectrum.new (Mat.ofRows 3 [[1, 2, 3], [4, 5, 6]]) 10 (some ["a", "b"])

example : axisSlice demoSpectrum.length (.slice none none (some (.int 2))) = some { step := some 2 } ∧ demoSpectrum.WF :=
  ⟨rfl, rfl⟩

/-- C141: the same for spectrograms -/
theorem C141_spectrogram (s : Spectrogram α R) (hs : s.WF) (k0 k1 k2 : AxisKey) (C F T : StepSlice)
    (hC : axisSlice s.count k0 = some C) (hF : axisSlice s.freqs k1 = some F) (hT : axisSlice s.length k2 = some T)
    (hc : C.step ≠ some 0) (hf : F.step ≠ some 0) (ht : T.step ≠ some 0) :
    ∃ r, s.getAny (.tuple [k0, k1, k2]) = some (.ok r) ∧ r.resolution = s.resolution ∧ r.rate = s.rate ∧
      r.count = C.count s.count ∧ r.freqs = F.count s.freqs ∧ r.length = T.count s.length ∧
      (∀ c k i, c < r.count → k < r.freqs → i < r.length →
        r.sample c k i = s.sample (C.index s.count c) (F.index s.freqs k) (T.index s.length i)) ∧
      ∀ c, c < r.count → r.labels[c]? = s.labels[C.index s.count c]? := by
  obtain ⟨l, h1, h2, h3⟩ := C.list_get hc s.labels
  rw [show s.labels.length = s.count from hs] at h2 h3
  have hm : cube s.channels C F T = .ok ⟨C.count s.count, F.count s.freqs, T.count s.length,
      fun i j k => s.channels.get (C.index s.count i) (F.index s.freqs j) (T.index s.length k)⟩ := if_neg (by simp [hc, hf, ht])
  refine ⟨Spectrogram.new ⟨C.count s.count, F.count s.freqs, T.count s.length,
      fun i j k => s.channels.get (C.index s.count i) (F.index s.freqs j) (T.index s.length k)⟩ s.resolution s.rate
      (stepOffset s.offset s.length T) (some l), ?_, rfl, rfl, rfl, rfl, rfl, ?_, ?_⟩
  · simp only [Spectrogram.getAny, tupleSlices, hC, hF, hT, Option.map_some, hm, h1]
    rfl
  · intro c k i h4 h5 h6
    have e1 := (index_eq (nonzero hc) (show c < C.count s.count from h4)).2
    have e2 := (index_eq (nonzero hf) (show k < F.count s.freqs from h5)).2
    have e3 := (index_eq (nonzero ht) (show i < T.count s.length from h6)).2
    unfold Spectrogram.sample
    rw [if_pos ⟨h4, h5, h6⟩, if_pos ⟨e1, e2, e3⟩]
    rfl
  · intro c h4
    have h4 : c < C.count s.count := h4
    rw [← h3 c h4]
    simp [Spectrogram.new, sanitizeLabels, h2]

example : (⟨⟨1, 2, 3, fun c k i => c + k + i⟩, 10, 48000, 0, ["a"]⟩ : Spectrogram Nat Nat).WF := rfl

/-- C141: Slicing a filter selects its transfer functions and their labels together. -/
theorem C141_filter {K : Type} (a : Filter.Channels α K) (hl : a.labels.length = a.transferFunctions.length) (k : AxisKey)
    (C : StepSlice) (hC : axisSlice a.transferFunctions.length k = some C) (hc : C.step ≠ some 0) :
    ∃ r, a.getAny (.single k) = some (.ok r) ∧ r.transferFunctions.length = C.count a.transferFunctions.length ∧
      r.labels.length = r.transferFunctions.length ∧
      ∀ c, c < r.transferFunctions.length →
        r.transferFunctions[c]? = a.transferFunctions[C.index a.transferFunctions.length c]? ∧
        r.labels[c]? = a.labels[C.index a.transferFunctions.length c]? := by
  obtain ⟨l, h1, h2, h3⟩ := C.list_get hc a.labels
  obtain ⟨t, g1, g2, g3⟩ := C.list_get hc a.transferFunctions
  rw [hl] at h2 h3
  refine ⟨Filter.Channels.new t l, ?_, g2, ?_, fun c h4 => ?_⟩
  · simp only [Filter.Channels.getAny, hC, Option.map_some, h1, g1]
    rfl
  · simp [Filter.Channels.new, sanitizeLabels, h2, g2]
  · have h4 : c < C.count a.transferFunctions.length := by rw [← g2]; exact h4
    refine ⟨g3 c h4, ?_⟩
    rw [← h3 c h4]
    simp [Filter.Channels.new, sanitizeLabels, h2, g2]

example : axisSlice 3 (.slice (some (.float (1 / 2))) none (some (.int (-2)))) =
    some { start := some 2, step := some (-2) } ∧
    ({ start := some 2, step := some (-2) } : StepSlice).count 3 = 2 := by decide +kernel

/-- the first one of the selected samples keeps its time, if the step is positive -/
theorem stepOffset_eq (offset : Int) (n : Nat) (T : StepSlice) (h : 0 < T.stride) (hn : 0 < T.count n)
    (hstart : ∀ a, T.start = some a → -(n : Int) ≤ a) : stepOffset offset n T = offset + T.index n 0 := by
  have h1 := (index_eq h.ne' hn).1
  have h2 := (index_eq h.ne' hn).2
  have h3 := first_pos h n
  rw [h3] at h1
  unfold stepOffset wrap at *
  cases e : T.start with
  | none =>
    rw [e] at h1
    simp only [Option.getD_none] at h1
    simp at h1
    simp [h1]
  | some a =>
    have := hstart a e
    rw [e] at h1
    simp only [Option.getD_some] at h1 ⊢
    split_ifs at h1 ⊢ <;> omega

/-- C141: Every selected sample of a signal or a spectrogram with the given offset stays at its time, if the step is one.
`_partial`: This is wrong for other steps, see `C141_time_violated`, and for starts below `-length`, see `C04_violated`. -/
theorem C141_time_partial (offset : Int) (n : Nat) (T : StepSlice) (h : T.stride = 1)
    (hstart : ∀ a, T.start = some a → -(n : Int) ≤ a) (i : Nat) (hi : i < T.count n) :
    stepOffset offset n T + i = offset + T.index n i := by
  have h0 : 0 < T.count n := by omega
  have h1 := (index_eq (by omega) hi).1
  have h2 := (index_eq (by omega) h0).1
  rw [stepOffset_eq offset n T (by omega) h0 hstart, h1, h2, h]
  push_cast
  ring

example : ({ start := some (-3), step := some 1 } : StepSlice).stride = 1 ∧
    ({ start := some (-3), step := some 1 } : StepSlice).count 4 = 3 := by decide

/-- C141 is violated: for a step other than one, at least one of two or more selected samples moves to a different time, because
the sampling rate is not changed. With negative steps, even the offset does not belong to the first selected sample. -/
theorem C141_time_violated (s r : Signal α R) (k0 k1 : AxisKey) (C T : StepSlice) (hC : axisSlice s.count k0 = some C)
    (hT : axisSlice s.length k1 = some T) (h : s.getAny (.tuple [k0, k1]) = some (.ok r)) (h1 : T.stride ≠ 1)
    (h2 : 2 ≤ T.count s.length) :
    r.rate = s.rate ∧ ∃ i, i < r.length ∧ r.offset + i ≠ s.offset + T.index s.length i := by
  simp only [Signal.getAny, tupleSlices, hC, hT, Option.map_some, Option.some.injEq] at h
  by_cases hz : C.step = some 0 ∨ T.step = some 0
  · unfold mat at h
    rw [if_pos hz] at h
    cases h
  · cases hl : C.list s.labels with
    | error e =>
      unfold mat at h
      rw [if_neg hz, hl] at h
      cases h
    | ok l =>
      unfold mat at h
      rw [if_neg hz, hl] at h
      cases h
      refine ⟨rfl, ?_⟩
      by_contra hcon
      push Not at hcon
      have e0 := hcon 0 (show 0 < T.count s.length by omega)
      have e1 := hcon 1 (show 1 < T.count s.length by omega)
      have a0 := (index_eq (nonzero fun h => hz (.inr h)) (show 0 < T.count s.length by omega)).1
      have a1 := (index_eq (nonzero fun h => hz (.inr h)) (show 1 < T.count s.length by omega)).1
      rw [a0] at e0
      rw [a1] at e1
      push_cast at e0 e1
      apply h1
      linarith

/-- The hypotheses are satisfied by `signal[:, ::-1]`, whose offset is different from that of `reversed(signal)` -/
example : ∃ r, Signal.demo.getAny (.tuple [.slice none none none, .slice none none (some (.int (-1)))]) = some (.ok r) ∧
    ({ step := some (-1) } : StepSlice).stride ≠ 1 ∧ 2 ≤ ({ step := some (-1) } : StepSlice).count Signal.demo.length ∧
    r.channels.get 0 0 = 3 ∧ r.offset = 7 ∧ Signal.demo.reversed.offset = -5 := by
  refine ⟨_, rfl, by decide, by decide, by decide, by decide, by decide⟩

/-- C141 is violated by spectrums, too: the values are moved to other frequencies, because the resolution is not changed. In
`spectrum[:, ::2]`, the value of the frequency `20.0` is found at the frequency `10.0`. -/
theorem C141_frequency_violated : ∃ r, demoSpectrum.getAny (.tuple [.slice none none none, .slice none none (some (.int 2))]) =
      some (.ok r) ∧
    demoSpectrum.sample 0 2 = some 3 ∧ 2 * demoSpectrum.resolution = 20 ∧ r.sample 0 1 = some 3 ∧ 1 * r.resolution = 10 := by
  refine ⟨_, rfl, by decide, ?_, by decide, ?_⟩
  · show (2 : ℚ) * 10 = 20
    norm_num
  · show (1 : ℚ) * 10 = 10
    norm_num

/-- C141: Steps along the axis of the channels do not have an influence on the times of the samples. -/
theorem C141_channels (s r : Signal α R) (k : AxisKey) (h : s.getAny (.single k) = some (.ok r)) :
    r.rate = s.rate ∧ r.offset = s.offset ∧ r.length = s.length := by
  simp only [Signal.getAny] at h
  cases hC : axisSlice s.count k with
  | none => simp [hC] at h
  | some C =>
    rw [hC, Option.map_some, Option.some.injEq] at h
    unfold mat at h
    by_cases hz : C.step = some 0
    · rw [if_pos (.inl hz)] at h
      cases h
    · rw [if_neg (by simp [hz, StepSlice.all])] at h
      cases hl : C.list s.labels with
      | error e =>
        rw [hl] at h
        cases h
      | ok l =>
        rw [hl] at h
        cases h
        refine ⟨rfl, rfl, ?_⟩
        show StepSlice.all.count s.length = s.length
        exact (count_ofSlice .all s.length).trans (by simp [PySlice.count, PySlice.hi, PySlice.lo, PySlice.all])

example : ∃ r, Signal.demo.getAny (.single (.slice none none (some (.int (-1))))) = some (.ok r) ∧ r.labels = ["b", "a"] ∧
    r.channels.get 0 0 = 4 := ⟨_, rfl, by decide, by decide⟩

/-- C141: A step of zero is a `ValueError`. -/
theorem C141_zero (s : Signal α R) (k0 k1 : AxisKey) (C T : StepSlice) (hC : axisSlice s.count k0 = some C)
    (hT : axisSlice s.length k1 = some T) (h : C.step = some 0 ∨ T.step = some 0) :
    s.getAny (.tuple [k0, k1]) = some (.error .valueError) := by
  simp only [Signal.getAny, tupleSlices, hC, hT, Option.map_some, mat, if_pos h]
  rfl

/-- A float, that is too small for the length of the signal, is rounded to zero. -/
example : axisSlice 3 (.slice none none (some (.float (1 / 10)))) = some { step := some 0 } := by decide +kernel

/-- C141 is violated: a tuple with one key can be used for spectrums and spectrograms, where it has the same effect as the key
itself, but it raises an `IndexError` for signals and a `TypeError` for filters, although the documentation of the operator
allows tuples for all of them. -/
theorem C141_tuple_violated {K : Type} (s : Signal α R) (p : Spectrum α R) (g : Spectrogram α R) (a : Filter.Channels α K)
    (k : AxisKey) (hs : (axisSlice s.count k).isSome) (ha : (axisSlice a.transferFunctions.length k).isSome) :
    p.getAny (.tuple [k]) = p.getAny (.single k) ∧ g.getAny (.tuple [k]) = g.getAny (.single k) ∧
    s.getAny (.tuple [k]) = some (.error .indexError) ∧ a.getAny (.tuple [k]) = some (.error .typeError) := by
  obtain ⟨c, hc⟩ := Option.isSome_iff_exists.mp hs
  obtain ⟨d, hd⟩ := Option.isSome_iff_exists.mp ha
  refine ⟨?_, ?_, ?_, ?_⟩
  · simp only [Spectrum.getAny, tupleSlices]
    cases axisSlice p.count k <;> rfl
  · simp only [Spectrogram.getAny, tupleSlices]
    cases axisSlice g.count k <;> rfl
  · simp only [Signal.getAny, tupleSlices, hc, Option.map_some]
  · simp only [Filter.Channels.getAny, tupleSlices, hd, Option.map_some]

example : (axisSlice 2 (.idx (.int 0))).isSome := rfl

/-- C141: Surplus keys are ignored. (numpy raises an `IndexError` for them.) -/
theorem C141_surplus (s : Signal α R) (p : Spectrum α R) (g : Spectrogram α R) (k0 k1 k2 : AxisKey) (l : List AxisKey) :
    s.getAny (.tuple (k0 :: k1 :: l)) = s.getAny (.tuple [k0, k1]) ∧
    p.getAny (.tuple (k0 :: k1 :: l)) = p.getAny (.tuple [k0, k1]) ∧
    g.getAny (.tuple (k0 :: k1 :: k2 :: l)) = g.getAny (.tuple [k0, k1, k2]) := by
  refine ⟨?_, ?_, ?_⟩ <;> simp only [Signal.getAny, Spectrum.getAny, Spectrogram.getAny, tupleSlices]

/-- C141 is violated: negative floats are no steps from the back to the front, because the conversion of floats adds the length
until they are not negative. The order of the elements is never reversed. (The test in `test_signal.py:74` expects
`signal[0:3:-0.66]` to have the same effect as `signal[0:3:-2]`, but with the bounds, that are used there, both slices are empty.) -/
theorem C141_float_step_violated (n : Nat) (hn : 0 < n) (q : ℚ) (a b : Option Idx) (ha : (boundOf n a).isSome)
    (hb : (boundOf n b).isSome) : ∃ s k, axisSlice n (.slice a b (some (.float q))) = some s ∧ s.step = some k ∧ 0 ≤ k := by
  obtain ⟨a', ha⟩ := Option.isSome_iff_exists.mp ha
  obtain ⟨b', hb⟩ := Option.isSome_iff_exists.mp hb
  have key : ∃ k, Indexing.index n (.float q) = some k ∧ 0 ≤ k := by
    unfold Indexing.index
    dsimp only
    split_ifs with h
    · exact ⟨_, rfl, h⟩
    · exact ⟨_, rfl, Int.emod_nonneg _ (by omega)⟩
    · omega
  obtain ⟨k, hk, h0⟩ := key
  refine ⟨⟨a', b', some k⟩, k, ?_, rfl, h0⟩
  have hc : boundOf n (some (.float q)) = some (some k) := by simp only [boundOf, hk, Option.map_some]
  simp only [axisSlice, ha, hb, hc]

/-- For three channels, `-0.66` is the step one, not minus two. -/
example : axisSlice 3 (.slice none none (some (.float (-66 / 100)))) = some { step := some 1 } ∧
    ({ step := some 1 } : StepSlice).count 3 = 3 ∧ ({ step := some (-2) } : StepSlice).count 3 = 2 := by decide +kernel

end Verif
