import Verif.Signal
import Verif.NumpyLemmas
import Verif.IndexingProps

/-
Properties C04 (slicing keeps the time), C05 (padding), C06–C08 (shifting), C09 (reversing).
-/

namespace Verif

namespace Signal

variable {α R : Type}

/-! ### Specification vocabulary -/

/-- The sample with the index `i` of channel `c`, if there is one. -/
def sample (s : Signal α R) (c i : Nat) : Option α :=
  if c < s.count ∧ i < s.length then some (s.channels.get c i) else none

/-- The signal as a function of time: the sample of channel `c` at the time index `t` (i.e. at the time
`t / sampling_rate`), if there is one. The first sample is located at the signal's offset. -/
def at_ (s : Signal α R) (c : Nat) (t : Int) : Option α :=
  if s.offset ≤ t then s.sample c (t - s.offset).toNat else none

/-- There is one label per channel. This holds for all signals, because the constructor
enforces it (`new_wf`). -/
def WF (s : Signal α R) : Prop := s.labels.length = s.count

theorem new_wf (m : Mat α) (r : R) (o : Int) (l : Option (List String)) : (new m r o l).WF := by
  simp [WF, new, count, C01_labels_length]

@[simp] theorem new_channels (m : Mat α) (r : R) (o : Int) (l : Option (List String)) :
    (new m r o l).channels = m := rfl
@[simp] theorem new_rate (m : Mat α) (r : R) (o : Int) (l : Option (List String)) :
    (new m r o l).rate = r := rfl
@[simp] theorem new_offset (m : Mat α) (r : R) (o : Int) (l : Option (List String)) :
    (new m r o l).offset = o := rfl
@[simp] theorem new_count (m : Mat α) (r : R) (o : Int) (l : Option (List String)) :
    (new m r o l).count = m.rows := rfl
@[simp] theorem new_length (m : Mat α) (r : R) (o : Int) (l : Option (List String)) :
    (new m r o l).length = m.cols := rfl

theorem sanitize_self {l : List String} {n : Nat} (h : l.length = n) :
    sanitizeLabels (some l) n = l := by
  simp [sanitizeLabels, h]

theorem new_labels_self (s : Signal α R) (hs : s.WF) (m : Mat α) (hm : m.rows = s.count) (r : R) (o : Int) :
    (new m r o (some s.labels)).labels = s.labels :=
  sanitize_self (hs.trans hm.symm)

theorem sample_of_lt {s : Signal α R} {c i : Nat} (hc : c < s.count) (hi : i < s.length) :
    s.sample c i = some (s.channels.get c i) := if_pos ⟨hc, hi⟩

theorem sample_eq_some {s : Signal α R} {c i : Nat} {x : α} :
    s.sample c i = some x ↔ c < s.count ∧ i < s.length ∧ s.channels.get c i = x := by
  unfold sample
  constructor
  · intro h
    by_cases h' : c < s.count ∧ i < s.length
    · rw [if_pos h'] at h
      exact ⟨h'.1, h'.2, Option.some.inj h⟩
    · rw [if_neg h'] at h
      cases h
  · rintro ⟨h1, h2, h3⟩
    rw [if_pos ⟨h1, h2⟩, h3]

theorem at_eq_some {s : Signal α R} {c : Nat} {t : Int} {x : α} :
    s.at_ c t = some x ↔ c < s.count ∧ s.offset ≤ t ∧ t < s.offset + s.length ∧
      s.channels.get c (t - s.offset).toNat = x := by
  unfold at_
  by_cases h : s.offset ≤ t
  · rw [if_pos h, sample_eq_some]
    constructor
    · rintro ⟨h1, h2, h3⟩; exact ⟨h1, h, by omega, h3⟩
    · rintro ⟨h1, h2, h3, h4⟩; exact ⟨h1, by omega, h4⟩
  · rw [if_neg h]
    constructor
    · intro h; cases h
    · rintro ⟨_, h1, _⟩; exact absurd h1 h

/-! ### C04 -/

theorem getItem_some {s r : Signal α R} {k0 k1 : Indexing.Key} (h : s.getItem k0 k1 = some r) :
    ∃ c t, Indexing.keyToSlice s.count k0 = some c ∧ Indexing.keyToSlice s.length k1 = some t ∧
      r = new (s.channels.slice c t) s.rate (s.sliceOffset t) (some (sliceList s.labels c)) := by
  unfold getItem at h
  split at h
  · rename_i c t hc ht
    exact ⟨c, t, hc, ht, (Option.some.inj h).symm⟩
  · simp at h

theorem sliceOffset_eq (s : Signal α R) (T : PySlice)
    (hstart : ∀ a, T.start = some a → -(s.length : Int) ≤ a) (hlt : T.lo s.length < s.length) :
    s.sliceOffset T = s.offset + (T.lo s.length : Int) := by
  obtain ⟨start, stop⟩ := T
  cases start with
  | none => simp [sliceOffset, PySlice.lo]
  | some a =>
    have h := hstart a rfl
    simp only [PySlice.lo, sliceOffset] at *
    by_cases h0 : a = 0
    · subst h0; simp
    · rw [if_neg h0]
      by_cases hneg : a < 0
      · rw [if_pos hneg, clampBound_neg hneg]; omega
      · rw [if_neg hneg, clampBound_nonneg (by omega)]
        rw [clampBound_nonneg (by omega)] at hlt
        omega

/-- C04: if the start of the time slice is not below `-length`, every sample of `signal[k0, k1]` is
located at the same time index as in the original signal; and the result contains exactly the selected
channels `c` (`C.Selects`) and sample indices `i` (`T.Selects`).
`_partial`: false for `start < -length`, see `C04_violated`. -/
theorem C04_slice_time_partial (s r : Signal α R) (k0 k1 : Indexing.Key) (C T : PySlice)
    (hC : Indexing.keyToSlice s.count k0 = some C) (hT : Indexing.keyToSlice s.length k1 = some T)
    (h : s.getItem k0 k1 = some r) (hstart : ∀ a, T.start = some a → -(s.length : Int) ≤ a) :
    r.rate = s.rate ∧
    (∀ c t x, r.at_ c t = some x → s.at_ (C.lo s.count + c) t = some x ∧
      C.Selects s.count (C.lo s.count + c) ∧ T.Selects s.length (t - s.offset).toNat) ∧
    (∀ c i x, C.Selects s.count c → T.Selects s.length i → s.sample c i = some x →
      r.at_ (c - C.lo s.count) (s.offset + i) = some x) := by
  obtain ⟨C', T', hC', hT', rfl⟩ := getItem_some h
  rw [hC] at hC'; rw [hT] at hT'
  obtain rfl := Option.some.inj hC'
  obtain rfl := Option.some.inj hT'
  have hoff := s.sliceOffset_eq T hstart
  have hhi := T.hi_le s.length
  have hChi := C.hi_le s.count
  refine ⟨rfl, ?_, ?_⟩
  · intro c t x hx
    rw [at_eq_some] at hx ⊢
    simp only [new_count, new_length, new_offset, new_channels, Mat.slice_rows, Mat.slice_cols,
      Mat.slice_get, PySlice.count] at hx
    obtain ⟨h1, h2, h3, h4⟩ := hx
    simp only [PySlice.Selects]
    change c < C.hi s.count - C.lo s.count at h1
    change t < s.sliceOffset T + ↑(T.hi s.length - T.lo s.length) at h3
    change s.channels.get (C.lo s.count + c) (T.lo s.length + _) = x at h4
    have h5 := hoff (by omega)
    refine ⟨⟨by omega, by omega, by omega, ?_⟩, by omega, by omega⟩
    rw [← h4]
    congr 1
    omega
  · intro c i x hc hi hx
    rw [sample_eq_some] at hx
    rw [at_eq_some]
    obtain ⟨h1, h2, h3⟩ := hx
    simp only [PySlice.Selects] at hc hi
    have h5 := hoff (by omega)
    refine ⟨?_, ?_, ?_, ?_⟩
    · show _ < C.hi s.count - C.lo s.count
      omega
    · show s.sliceOffset T ≤ _
      omega
    · show _ < s.sliceOffset T + ↑(T.hi s.length - T.lo s.length)
      omega
    · show s.channels.get (C.lo s.count + _) (T.lo s.length + (s.offset + i - s.sliceOffset T).toNat) = x
      rw [← h3]
      congr 1
      all_goals omega

/-- a signal for examples: two channels with three samples each -/
def demo : Signal Nat Nat :=
  new (Mat.ofRows 3 [[1, 2, 3], [4, 5, 6]]) 48000 7 (some ["a", "b"])

example : Indexing.keyToSlice demo.length (.slice (some (.int (-2))) none) = some (.drop (-2)) := by
  rfl

example : demo.getItem (.slice none none) (.slice (some (.int (-2))) none) =
    some (new (demo.channels.slice .all (.drop (-2))) 48000 8 (some ["a", "b"])) := by
  rfl

/-- C04 is violated if the start of the time slice is below `-length`: numpy returns the samples from
the first one on, but the offset is reduced, so that all samples move to an earlier time. -/
theorem C04_violated : ∃ (s r : Signal Nat Nat) (k : Indexing.Key),
    s.getItem (.slice none none) k = some r ∧
    ∃ t x, r.at_ 0 t = some x ∧ s.at_ 0 t ≠ some x :=
  ⟨demo, _, .slice (some (.int (-5))) none, rfl, 5, 1, rfl, by simp [at_, demo]⟩

/-- C04 for one key: slicing only the channels does not change the time axis. -/
theorem C04_channels_time (s r : Signal α R) (k : Indexing.Key) (h : s.getChannels k = some r) :
    ∃ C, Indexing.keyToSlice s.count k = some C ∧ r.rate = s.rate ∧ r.offset = s.offset ∧
      ∀ c t x, r.at_ c t = some x ↔ c < C.count s.count ∧ s.at_ (C.lo s.count + c) t = some x := by
  unfold getChannels at h
  obtain ⟨C, hC, rfl⟩ := Option.map_eq_some_iff.mp h
  refine ⟨C, hC, rfl, rfl, ?_⟩
  intro c t x
  have hChi := C.hi_le s.count
  rw [at_eq_some, at_eq_some]
  show (c < C.count s.count ∧ s.offset ≤ t ∧ t < s.offset + ↑s.length ∧
    s.channels.get (C.lo s.count + c) (0 + (t - s.offset).toNat) = x) ↔ _
  rw [Nat.zero_add]
  unfold PySlice.count
  constructor
  · rintro ⟨h1, h2, h3, h4⟩; exact ⟨h1, by omega, h2, h3, h4⟩
  · rintro ⟨h1, _, h2, h3, h4⟩; exact ⟨h1, h2, h3, h4⟩

/-- The labels are selected with the same slice as the channels. -/
theorem C04_labels (s r : Signal α R) (hs : s.WF) (k0 k1 : Indexing.Key) (h : s.getItem k0 k1 = some r) :
    ∃ C, Indexing.keyToSlice s.count k0 = some C ∧
      ∀ c, c < r.count → r.labels[c]? = s.labels[C.lo s.count + c]? := by
  obtain ⟨C, T, hC, hT, rfl⟩ := getItem_some h
  refine ⟨C, hC, ?_⟩
  intro c hc
  have hhi := C.hi_le s.count
  have hl : (sliceList s.labels C).length = C.count s.count := by
    unfold sliceList
    rw [hs, List.length_take, List.length_drop, hs]
    unfold PySlice.count
    omega
  change c < C.count s.count at hc
  show (sanitizeLabels (some (sliceList s.labels C)) (C.count s.count))[c]? = _
  rw [sanitize_self hl]
  unfold sliceList
  rw [hs, List.getElem?_take_of_lt hc, List.getElem?_drop]

/-! ### C05 -/

/-- C05: `pad` returns a signal with the requested length, the old samples and the given value in all
new samples, whatever the allocated memory contained; all parameters are kept. -/
theorem C05_pad (mem : Nat → Nat → α) (s : Signal α R) (hs : s.WF) (length : Nat) (value : α) :
    ∃ r, s.pad mem length value = .ok r ∧
      r.count = s.count ∧ r.length = length ∧ r.rate = s.rate ∧ r.offset = s.offset ∧
      r.labels = s.labels ∧
      ∀ c i, c < s.count → i < length →
        r.sample c i = if i < s.length then s.sample c i else some value := by
  unfold pad
  by_cases h : length = s.length
  · rw [if_pos h]
    refine ⟨s, rfl, rfl, h.symm, rfl, rfl, rfl, ?_⟩
    intro c i hc hi
    rw [if_pos (by omega)]
  · rw [if_neg h]
    by_cases h1 : length < s.length
    · simp only [if_pos h1]
      obtain ⟨B, hB, b1, b2, b3, _⟩ := Mat.assign_cols (A := alloc mem s.count length)
        (S := s.channels.slice .all (.range 0 length)) (c := .all) 0 length rfl rfl rfl
        (by simp; have : s.length = s.channels.cols := rfl; omega)
      rw [hB]
      refine ⟨_, rfl, b1, b2, rfl, rfl, new_labels_self s hs B b1 _ _, ?_⟩
      intro c i hc hi
      rw [sample_of_lt (by rw [new_count, b1]; exact hc) (by rw [new_length, b2]; exact hi),
        if_pos (by omega), sample_of_lt hc (by omega)]
      rw [new_channels, b3 c i hc (by omega) hi]
      simp
    · simp only [if_neg h1]
      obtain ⟨B, hB, b1, b2, b3, _⟩ := Mat.assign_cols (A := alloc mem s.count length)
        (S := s.channels) (c := .range 0 s.length) 0 s.length (by simp)
        (by simp [alloc]; omega) rfl rfl
      rw [hB]
      obtain ⟨D, hD, d1, d2, d3, d4⟩ := Mat.assign_cols_scalar (A := B)
        (c := .drop s.length) value s.length length (by rw [b2]; simp [alloc]; omega)
        (by rw [b2]; rfl)
      simp only [bind, Except.bind, hD]
      have e1 : D.rows = s.count := d1.trans b1
      have e2 : D.cols = length := d2.trans b2
      refine ⟨_, rfl, e1, e2, rfl, rfl, new_labels_self s hs D e1 _ _, ?_⟩
      intro c i hc hi
      rw [sample_of_lt (by rw [new_count, e1]; exact hc) (by rw [new_length, e2]; exact hi)]
      by_cases h2 : i < s.length
      · rw [if_pos h2, sample_of_lt hc h2, new_channels, d4 c i (by omega), b3 c i hc (by omega) h2]
        rfl
      · rw [if_neg h2, new_channels, d3 c i (by rw [b1]; exact hc) (by omega) hi]

example : demo.WF ∧ ∃ r, demo.pad (fun _ _ => 99) 5 0 = .ok r ∧ r.sample 1 2 = some 6 ∧ r.sample 1 4 = some 0 :=
  ⟨rfl, _, rfl, rfl, rfl⟩

/-- C05: padding and cropping back restores the signal's samples. -/
theorem C05_pad_crop (mem mem' : Nat → Nat → α) (s : Signal α R) (hs : s.WF) (length : Nat) (value v : α)
    (hl : s.length ≤ length) :
    ∃ p r, s.pad mem length value = .ok p ∧ p.pad mem' s.length v = .ok r ∧
      r.offset = s.offset ∧ r.rate = s.rate ∧ r.labels = s.labels ∧ r.channels.Eqv s.channels := by
  obtain ⟨p, hp, h1, h2, h3, h4, h5, h6⟩ := C05_pad mem s hs length value
  have hpw : p.WF := by rw [WF, h5, h1]; exact hs
  obtain ⟨r, hr, g1, g2, g3, g4, g5, g6⟩ := C05_pad mem' p hpw s.length v
  refine ⟨p, r, hp, hr, by rw [g4, h4], by rw [g3, h3], by rw [g5, h5], ?_, ?_, ?_⟩
  · exact g1.trans h1
  · exact g2
  · intro c t hc ht
    have hc' : c < s.count := by rw [← h1, ← g1]; exact hc
    have ht' : t < s.length := by rw [← g2]; exact ht
    have e1 := g6 c t (by rw [h1]; exact hc') ht'
    have e2 := h6 c t hc' (by omega)
    rw [if_pos (by omega)] at e1
    rw [if_pos ht', sample_of_lt hc' ht'] at e2
    rw [e2, sample_of_lt hc ht] at e1
    exact Option.some.inj e1

/-! ### C06 -/

theorem shift_offset_fields [Zero α] (mem : Nat → Nat → α) (s : Signal α R) (hs : s.WF) (n : Int) : ∃ r,
      s.shift mem (some n) .offset = .ok r ∧ r.channels = s.channels ∧ r.rate = s.rate ∧
      r.labels = s.labels ∧ r.offset = s.offset + n := by
  unfold shift
  by_cases h : n = 0
  · subst h; exact ⟨s, by simp, rfl, rfl, rfl, by simp⟩
  · rw [if_neg (by simpa using h)]
    exact ⟨_, rfl, rfl, rfl, sanitize_self hs, rfl⟩

/-- C06, mode OFFSET: every sample moves by `n` sample periods; nothing else changes. -/
theorem C06_offset [Zero α] (mem : Nat → Nat → α) (s : Signal α R) (hs : s.WF) (n : Int) :
    ∃ r, s.shift mem (some n) .offset = .ok r ∧ r.channels = s.channels ∧ r.rate = s.rate ∧
      r.labels = s.labels ∧ ∀ c t, r.at_ c (t + n) = s.at_ c t := by
  obtain ⟨r, h1, h2, h3, h4, h5⟩ := shift_offset_fields mem s hs n
  refine ⟨r, h1, h2, h3, h4, ?_⟩
  intro c t
  apply Option.ext
  intro x
  rw [at_eq_some, at_eq_some, h5, h2]
  have e1 : r.count = s.count := by unfold count; rw [h2]
  have e2 : r.length = s.length := by unfold length; rw [h2]
  rw [e1, e2, show t + n - (s.offset + n) = t - s.offset by omega]
  constructor
  · rintro ⟨g1, g2, g3, g4⟩; exact ⟨g1, by omega, by omega, g4⟩
  · rintro ⟨g1, g2, g3, g4⟩; exact ⟨g1, by omega, by omega, g4⟩

/-- C06, mode OFFSET: shifts add up. -/
theorem C06_offset_compose [Zero α] (mem mem' mem'' : Nat → Nat → α) (s : Signal α R) (hs : s.WF)
    (n m : Int) : ∃ r q q', s.shift mem (some n) .offset = .ok r ∧ r.shift mem' (some m) .offset = .ok q ∧
      s.shift mem'' (some (n + m)) .offset = .ok q' ∧ q = q' := by
  obtain ⟨r, h1, h2, h3, h4, h5⟩ := shift_offset_fields mem s hs n
  have hr : r.WF := by simp only [WF, count, h4, h2]; exact hs
  obtain ⟨q, g1, g2, g3, g4, g5⟩ := shift_offset_fields mem' r hr m
  obtain ⟨q', f1, f2, f3, f4, f5⟩ := shift_offset_fields mem'' s hs (n + m)
  refine ⟨r, q, q', h1, g1, f1, ?_⟩
  obtain ⟨_, _, _, _⟩ := q
  obtain ⟨_, _, _, _⟩ := q'
  simp only [mk.injEq] at *
  refine ⟨?_, ?_, ?_, ?_⟩
  · rw [g2, h2, f2]
  · rw [g3, h3, f3]
  · rw [g5, f5, h5]; omega
  · rw [g4, h4, f4]

/-- C06: `shift(None)` removes the offset and leaves the samples as they are. -/
theorem C06_offset_none [Zero α] (mem : Nat → Nat → α) (s : Signal α R) (hs : s.WF) :
    ∃ r, s.shift mem none .offset = .ok r ∧ r.offset = 0 ∧ r.channels = s.channels ∧
      r.rate = s.rate ∧ r.labels = s.labels :=
  ⟨_, rfl, rfl, rfl, rfl, sanitize_self hs⟩

/-- C06, mode CROP: shape and offset are kept, sample `i` is the former sample `i - n` if there was one
and zero otherwise. -/
theorem C06_crop [Zero α] (mem : Nat → Nat → α) (s : Signal α R) (hs : s.WF) (n : Int) :
    ∃ r, s.shift mem (some n) .crop = .ok r ∧ r.count = s.count ∧ r.length = s.length ∧
      r.rate = s.rate ∧ r.offset = s.offset ∧ r.labels = s.labels ∧
      ∀ c i, c < s.count → i < s.length →
        r.sample c i = if 0 ≤ (i : Int) - n ∧ (i : Int) - n < s.length
          then s.sample c ((i : Int) - n).toNat else some 0 := by
  unfold shift
  by_cases h : n = 0
  · subst h
    refine ⟨s, by simp, rfl, rfl, rfl, rfl, rfl, ?_⟩
    intro c i hc hi
    rw [if_pos (by omega)]
    simp
  · rw [if_neg (by simpa using h)]
    have hL : s.channels.cols = s.length := rfl
    by_cases hn : n < 0
    · simp only [if_pos hn]
      obtain ⟨B, hB, b1, b2, b3, _⟩ := Mat.assign_cols (A := alloc mem s.count s.length)
        (S := s.channels.slice .all (.drop (-n))) (c := .range 0 n) 0 (n + s.length).toNat (by simp)
        (by rw [PySlice.hi_range, clampBound_neg hn]; rfl) rfl
        (by rw [Mat.slice_cols, PySlice.count_drop, hL, clampBound_nonneg (by omega)]; omega)
      obtain ⟨D, hD, d1, d2, d3, d4⟩ := Mat.assign_cols_scalar (A := B) (c := .drop n) (0 : α)
        (n + s.length).toNat s.length (by rw [b2, PySlice.lo_drop, clampBound_neg hn]; rfl)
        (by rw [b2]; rfl)
      simp only [bind, Except.bind, hB, hD]
      have e1 : D.rows = s.count := d1.trans b1
      have e2 : D.cols = s.length := d2.trans b2
      refine ⟨_, rfl, e1, e2, rfl, rfl, new_labels_self s hs D e1 _ _, ?_⟩
      intro c i hc hi
      rw [sample_of_lt (by rw [new_count, e1]; exact hc) (by rw [new_length, e2]; exact hi), new_channels]
      by_cases h2 : (i : Int) - n < s.length
      · rw [if_pos (by omega), sample_of_lt hc (by omega), d4 c i (by omega), b3 c i hc (by omega) (by omega),
          Mat.slice_all_get, PySlice.lo_drop, hL, clampBound_nonneg (by omega)]
        congr 2
        omega
      · rw [if_neg (by omega), d3 c i (by rw [b1]; exact hc) (by omega) hi]
    · simp only [if_neg hn]
      obtain ⟨B, hB, b1, b2, b3, _⟩ := Mat.assign_cols_scalar (A := alloc mem s.count s.length)
        (c := .range 0 n) (0 : α) 0 (min n.toNat s.length) (by simp)
        (by rw [PySlice.hi_range, clampBound_nonneg (by omega)]; rfl)
      obtain ⟨D, hD, d1, d2, d3, d4⟩ := Mat.assign_cols (A := B) (c := .drop n)
        (S := s.channels.slice .all (.range 0 (-n)))
        (min n.toNat s.length) s.length (by rw [b2, PySlice.lo_drop, clampBound_nonneg (by omega)]; rfl)
        (by rw [b2]; rfl) (by rw [b1]; rfl)
        (by rw [Mat.slice_cols, PySlice.count_range, hL, clampBound_neg (by omega), clampBound_zero]; omega)
      simp only [bind, Except.bind, hB, hD]
      have e1 : D.rows = s.count := d1.trans b1
      have e2 : D.cols = s.length := d2.trans b2
      refine ⟨_, rfl, e1, e2, rfl, rfl, new_labels_self s hs D e1 _ _, ?_⟩
      intro c i hc hi
      rw [sample_of_lt (by rw [new_count, e1]; exact hc) (by rw [new_length, e2]; exact hi), new_channels]
      by_cases h2 : 0 ≤ (i : Int) - n
      · rw [if_pos (by omega), sample_of_lt hc (by omega), d3 c i (by rw [b1]; exact hc) (by omega) hi,
          Mat.slice_all_get, PySlice.lo_range, clampBound_zero]
        congr 2
        omega
      · rw [if_neg (by omega), d4 c i (by omega), b3 c i hc (by omega) (by omega)]

example : ∃ r, demo.shift (fun _ _ => 99) (some (-2)) .crop = .ok r ∧
    r.sample 1 0 = some 6 ∧ r.sample 1 1 = some 0 := ⟨_, rfl, rfl, rfl⟩

/-! ### C07 -/

/-- What C07 demands of the result of `shift(n, PAD)`: all parameters are kept, the channels are longer
by `|n|` samples, and the samples are moved like in the mode CROP, i.e. the sample `i` of the
result is the former sample `i - n`.  (For negative shifts, the documentation additionally demands that no
sample is lost, which contradicts the fixed offset; this is not required here.) -/
def PadSpec [Zero α] (s r : Signal α R) (n : Int) : Prop :=
  r.count = s.count ∧ r.length = s.length + n.natAbs ∧ r.rate = s.rate ∧ r.offset = s.offset ∧
  r.labels = s.labels ∧
  ∀ c i, c < s.count → i < r.length → r.sample c i =
    if 0 ≤ (i : Int) - n ∧ (i : Int) - n < s.length then s.sample c ((i : Int) - n).toNat else some 0

/-- C07 for non-negative shifts: the samples are moved by `n`, preceded by zeros, and none is lost.
`_partial`: false for negative shifts, see `C07_negative_violated`. -/
theorem C07_pad_partial [Zero α] (mem : Nat → Nat → α) (s : Signal α R) (hs : s.WF) (n : Int)
    (hn : 0 ≤ n) :
    ∃ r, s.shift mem (some n) .pad = .ok r ∧ PadSpec s r n ∧
      ∀ c i, c < s.count → i < s.length → r.sample c (i + n.toNat) = s.sample c i := by
  suffices ∃ r, s.shift mem (some n) .pad = .ok r ∧ PadSpec s r n by
    obtain ⟨r, hr, h⟩ := this
    refine ⟨r, hr, h, ?_⟩
    intro c i hc hi
    rw [h.2.2.2.2.2 c _ hc (by rw [h.2.1]; omega), if_pos (by omega)]
    congr 1
    omega
  unfold shift
  by_cases h : n = 0
  · subst h
    refine ⟨s, by simp, ⟨rfl, by simp, rfl, rfl, rfl, ?_⟩⟩
    intro c i _ hi
    rw [if_pos (by omega)]; simp
  · rw [if_neg (by simpa using h)]
    simp only [if_neg (show ¬ n < 0 by omega)]
    obtain ⟨B, hB, b1, b2, b3, _⟩ := Mat.assign_cols_scalar (A := alloc mem s.count (s.length + n.natAbs))
      (c := .range 0 n) (0 : α) 0 n.toNat (by simp)
      (by rw [PySlice.hi_range, clampBound_nonneg (by omega)]; simp only [alloc]; omega)
    obtain ⟨D, hD, d1, d2, d3, d4⟩ := Mat.assign_cols (A := B) (c := .drop n)
      (S := s.channels) n.toNat (s.length + n.natAbs)
      (by rw [b2, PySlice.lo_drop, clampBound_nonneg (by omega)]; simp only [alloc]; omega)
      (by rw [b2]; rfl) (by rw [b1]; rfl) (by show s.length = _; omega)
    simp only [bind, Except.bind, hB, hD]
    have e1 : D.rows = s.count := d1.trans b1
    have e2 : D.cols = s.length + n.natAbs := d2.trans b2
    refine ⟨_, rfl, ⟨e1, e2, rfl, rfl, new_labels_self s hs D e1 _ _, ?_⟩⟩
    intro c i hc hi
    rw [new_length, e2] at hi
    rw [sample_of_lt (by rw [new_count, e1]; exact hc) (by rw [new_length, e2]; exact hi), new_channels]
    by_cases h2 : 0 ≤ (i : Int) - n
    · rw [if_pos (by omega), sample_of_lt hc (by omega), d3 c i (by rw [b1]; exact hc) (by omega) hi]
      congr 2
      omega
    · rw [if_neg (by omega), d4 c i (by omega), b3 c i hc (by omega) (by omega)]

example : demo.WF ∧ ∃ r, demo.shift (fun _ _ => 99) (some 2) .pad = .ok r ∧ r.sample 1 1 = some 0 ∧
    r.sample 1 2 = some 4 ∧ r.length = 5 := ⟨rfl, _, rfl, rfl, rfl, rfl⟩

/-- C07 is violated for negative shifts: the samples are not moved at all, whatever the signal is. Zeros
are appended and that is all. -/
theorem C07_negative_not_moved [Zero α] (mem : Nat → Nat → α) (s : Signal α R) (n : Int)
    (hn : n < 0) :
    ∃ r, s.shift mem (some n) .pad = .ok r ∧ r.offset = s.offset ∧ r.length = s.length + n.natAbs ∧
      ∀ c i, c < s.count → i < r.length →
        r.sample c i = if i < s.length then s.sample c i else some 0 := by
  unfold shift
  rw [if_neg (by simp; omega)]
  simp only [if_pos hn]
  obtain ⟨B, hB, b1, b2, b3, _⟩ := Mat.assign_cols (A := alloc mem s.count (s.length + n.natAbs))
    (S := s.channels) (c := .range 0 s.length) 0 s.length (by simp)
    (by simp [alloc]) rfl rfl
  obtain ⟨D, hD, d1, d2, d3, d4⟩ := Mat.assign_cols_scalar (A := B)
    (c := .drop s.length) (0 : α) s.length (s.length + n.natAbs) (by rw [b2]; simp [alloc])
    (by rw [b2]; rfl)
  simp only [bind, Except.bind, hB, hD]
  have e1 : D.rows = s.count := d1.trans b1
  have e2 : D.cols = s.length + n.natAbs := d2.trans b2
  refine ⟨_, rfl, rfl, e2, ?_⟩
  intro c i hc hi
  rw [new_length, e2] at hi
  rw [sample_of_lt (by rw [new_count, e1]; exact hc) (by rw [new_length, e2]; exact hi), new_channels]
  by_cases h2 : i < s.length
  · rw [if_pos h2, sample_of_lt hc h2, d4 c i (by omega), b3 c i hc (by omega) h2]
    rfl
  · rw [if_neg h2, d3 c i (by rw [b1]; exact hc) (by omega) hi]

/-- C07 is violated for negative shifts in the mode PAD: the samples are not moved by the shift; the signal keeps
its first samples and the zeros are not inserted where the shift demands them. -/
theorem C07_negative_violated : ∃ (s r : Signal Nat Nat) (n : Int),
    s.WF ∧ s.shift (fun _ _ => 99) (some n) .pad = .ok r ∧ ¬ PadSpec s r n := by
  refine ⟨demo, _, -1, rfl, rfl, ?_⟩
  intro h
  have h1 := h.2.2.2.2.2 0 0 (by decide) (by decide)
  have h2 : some 1 = some 2 := h1
  cases h2

/-! ### C08 -/

/-- Both assignments of the mode CYCLE succeed for all shifts; this is their result. -/
theorem shift_cycle [Zero α] (mem : Nat → Nat → α) (s : Signal α R) (hs : s.WF) (n : Int) (h : n ≠ 0) :
    ∃ r, s.shift mem (some n) .cycle = .ok r ∧ r.count = s.count ∧ r.length = s.length ∧
      r.rate = s.rate ∧ r.offset = s.offset ∧ r.labels = s.labels ∧
      ∀ c i, c < s.count → i < s.length →
        (i < clampBound s.length n →
          r.sample c i = s.sample c (clampBound s.length (-n) + i)) ∧
        (¬ i < clampBound s.length n →
          r.sample c i = s.sample c (i - clampBound s.length n)) := by
  unfold shift
  rw [if_neg (by simpa using h)]
  simp only
  have hL : s.channels.cols = s.length := rfl
  have hsum : clampBound s.length n + clampBound s.length (-n) = s.length := by
    unfold clampBound; split <;> split <;> omega
  obtain ⟨B, hB, b1, b2, b3, _⟩ := Mat.assign_cols (A := alloc mem s.count s.length)
    (S := s.channels.slice .all (.drop (-n))) (c := .range 0 n) 0 (clampBound s.length n) (by simp)
    rfl rfl
    (by rw [Mat.slice_cols, PySlice.count_drop, hL]; omega)
  obtain ⟨D, hD, d1, d2, d3, d4⟩ := Mat.assign_cols (A := B) (c := .drop n)
    (S := s.channels.slice .all (.range 0 (-n)))
    (clampBound s.length n) s.length (by rw [b2]; rfl) (by rw [b2]; rfl) (by rw [b1]; rfl)
    (by rw [Mat.slice_cols, PySlice.count_range, hL, clampBound_zero]; omega)
  simp only [bind, Except.bind, hB, hD]
  have e1 : D.rows = s.count := d1.trans b1
  have e2 : D.cols = s.length := d2.trans b2
  refine ⟨_, rfl, e1, e2, rfl, rfl, new_labels_self s hs D e1 _ _, ?_⟩
  intro c i hc hi
  rw [sample_of_lt (by rw [new_count, e1]; exact hc) (by rw [new_length, e2]; exact hi), new_channels]
  constructor
  · intro hi'
    rw [d4 c i (by omega), b3 c i hc (by omega) hi', sample_of_lt hc (by omega), Mat.slice_all_get]
    rfl
  · intro hi'
    rw [d3 c i (by rw [b1]; exact hc) (by omega) hi, sample_of_lt hc (by omega), Mat.slice_all_get,
      PySlice.lo_range, clampBound_zero, Nat.zero_add]

/-- C08 for `|n| ≤ length`: the cyclic rotation.
`_partial`: false for larger shifts, see `C08_large_shift_violated`. -/
theorem C08_cycle_partial [Zero α] (mem : Nat → Nat → α) (s : Signal α R) (hs : s.WF) (n : Int)
    (hn : n.natAbs ≤ s.length) :
    ∃ r, s.shift mem (some n) .cycle = .ok r ∧ r.count = s.count ∧ r.length = s.length ∧
      r.rate = s.rate ∧ r.offset = s.offset ∧ r.labels = s.labels ∧
      ∀ c i, c < s.count → i < s.length →
        r.sample c (((i : Int) + n) % s.length).toNat = s.sample c i := by
  by_cases h : n = 0
  · subst h
    refine ⟨s, by simp [shift], rfl, rfl, rfl, rfl, rfl, ?_⟩
    intro c i hc hi
    rw [Int.add_zero, Int.emod_eq_of_lt (by omega) (by omega)]
    simp
  · obtain ⟨r, h1, h2, h3, h4, h5, h6, h7⟩ := shift_cycle mem s hs n h
    refine ⟨r, h1, h2, h3, h4, h5, h6, ?_⟩
    intro c i hc hi
    have hmod : ((((i : Int) + n) % s.length).toNat : Int) = i + n ∧ 0 ≤ (i : Int) + n ∧ (i : Int) + n < s.length ∨
        ((((i : Int) + n) % s.length).toNat : Int) = i + n - s.length ∧ (s.length : Int) ≤ i + n ∨
        ((((i : Int) + n) % s.length).toNat : Int) = i + n + s.length ∧ (i : Int) + n < 0 := by
      have hp : (0 : Int) < s.length := by omega
      have h0 := Int.emod_nonneg ((i : Int) + n) (show (s.length : Int) ≠ 0 by omega)
      rw [Int.toNat_of_nonneg h0]
      by_cases h1 : (i : Int) + n < 0
      · right; right
        refine ⟨?_, h1⟩
        rw [← Int.add_emod_right]
        exact Int.emod_eq_of_lt (by omega) (by omega)
      · by_cases h2 : (s.length : Int) ≤ i + n
        · right; left
          refine ⟨?_, h2⟩
          rw [← Int.sub_emod_right]
          exact Int.emod_eq_of_lt (by omega) (by omega)
        · left
          exact ⟨Int.emod_eq_of_lt (by omega) (by omega), by omega, by omega⟩
    generalize (((i : Int) + n) % s.length).toNat = k at hmod ⊢
    obtain ⟨g1, g2⟩ := h7 c k hc (by omega)
    by_cases hn0 : n < 0
    · rw [clampBound_neg hn0, clampBound_nonneg (by omega)] at g1
      rw [clampBound_neg hn0] at g2
      by_cases h2 : (i : Int) + n < 0
      · rw [g2 (by omega)]
        congr 1
        omega
      · rw [g1 (by omega)]
        congr 1
        omega
    · rw [clampBound_nonneg (by omega), clampBound_neg (by omega)] at g1
      rw [clampBound_nonneg (by omega)] at g2
      by_cases h2 : (i : Int) + n < s.length
      · rw [g2 (by omega)]
        congr 1
        omega
      · rw [g1 (by omega)]
        congr 1
        omega

example : demo.WF ∧ (-1 : Int).natAbs ≤ demo.length ∧
    ∃ r, demo.shift (fun _ _ => 99) (some (-1)) .cycle = .ok r ∧
      r.sample 1 0 = some 5 ∧ r.sample 1 1 = some 6 ∧ r.sample 1 2 = some 4 :=
  ⟨rfl, by decide, _, rfl, rfl, rfl, rfl⟩

/-- C08 is violated for `|n| > length`: the signal is not rotated at all. -/
theorem C08_large_shift_identity [Zero α] (mem : Nat → Nat → α) (s : Signal α R) (hs : s.WF) (n : Int)
    (hn : s.length < n.natAbs) :
    ∃ r, s.shift mem (some n) .cycle = .ok r ∧ r.count = s.count ∧ r.length = s.length ∧
      r.labels = s.labels ∧
      ∀ c i, c < s.count → i < s.length → r.sample c i = s.sample c i := by
  obtain ⟨r, h1, h2, h3, h4, h5, h6, h7⟩ := shift_cycle mem s hs n (by omega)
  refine ⟨r, h1, h2, h3, h6, ?_⟩
  intro c i hc hi
  obtain ⟨g1, g2⟩ := h7 c i hc hi
  by_cases hn0 : n < 0
  · rw [clampBound_neg hn0] at g2
    rw [g2 (by omega)]
    congr 1
    omega
  · rw [clampBound_nonneg (by omega), clampBound_neg (by omega)] at g1
    rw [g1 (by omega)]
    congr 1
    omega

/-- C08 is violated for shifts, which are longer than the signal: the samples stay, where they were, instead of
being rotated. -/
theorem C08_large_shift_violated : ∃ (s r : Signal Nat Nat) (n : Int),
    s.WF ∧ s.shift (fun _ _ => 99) (some n) .cycle = .ok r ∧
    ∃ c i, c < s.count ∧ i < s.length ∧
      r.sample c (((i : Int) + n) % s.length).toNat ≠ s.sample c i := by
  refine ⟨demo, _, 4, rfl, rfl, 0, 0, by decide, by decide, ?_⟩
  intro h
  have h2 : some 2 = some 1 := h
  cases h2

/-- C08: the rotation by `-n` undoes the rotation by `n` (for all shifts, as large shifts do nothing). -/
theorem C08_cycle_inverse [Zero α] (mem mem' : Nat → Nat → α) (s : Signal α R) (hs : s.WF) (n : Int) :
    ∃ r q, s.shift mem (some n) .cycle = .ok r ∧ r.shift mem' (some (-n)) .cycle = .ok q ∧
      q.count = s.count ∧ q.length = s.length ∧
      ∀ c i, c < s.count → i < s.length → q.sample c i = s.sample c i := by
  by_cases hn : n.natAbs ≤ s.length
  · obtain ⟨r, hr, h1, h2, h3, h4, h5, h6⟩ := C08_cycle_partial mem s hs n hn
    have hrw : r.WF := by rw [WF, h5, h1]; exact hs
    obtain ⟨q, hq, g1, g2, g3, g4, g5, g6⟩ := C08_cycle_partial mem' r hrw (-n) (by rw [h2]; omega)
    refine ⟨r, q, hr, hq, by omega, by omega, ?_⟩
    intro c i hc hi
    have hp : (0 : Int) < s.length := by omega
    have h0 := Int.emod_nonneg ((i : Int) + n) (show (s.length : Int) ≠ 0 by omega)
    have hlt := Int.emod_lt_of_pos ((i : Int) + n) hp
    have e := g6 c (((i : Int) + n) % s.length).toNat (by omega) (by omega)
    rw [h6 c i hc hi, h2, Int.toNat_of_nonneg h0, Int.emod_add_emod,
      show (i : Int) + n + -n = i by omega,
      Int.emod_eq_of_lt (by omega : (0 : Int) ≤ i) (by omega : (i : Int) < s.length)] at e
    simpa using e
  · obtain ⟨r, hr, h1, h2, h3, h4⟩ := C08_large_shift_identity mem s hs n (by omega)
    have hrw : r.WF := by rw [WF, h3, h1]; exact hs
    obtain ⟨q, hq, g1, g2, g3, g4⟩ := C08_large_shift_identity mem' r hrw (-n) (by rw [h2]; omega)
    refine ⟨r, q, hr, hq, by omega, by omega, ?_⟩
    intro c i hc hi
    rw [g4 c i (by omega) (by omega), h4 c i hc hi]

/-! ### C09 -/

/-- C09: reversing a signal twice restores it. -/
theorem C09_reversed_involutive (s : Signal α R) (hs : s.WF) :
    s.reversed.reversed.rate = s.rate ∧ s.reversed.reversed.offset = s.offset ∧
    s.reversed.reversed.labels = s.labels ∧ s.reversed.reversed.channels.Eqv s.channels := by
  refine ⟨rfl, ?_, ?_, rfl, rfl, ?_⟩
  · show (s.length : Int) - (s.length - s.offset - 1) - 1 = s.offset
    omega
  · have h1 : s.reversed.labels = s.labels := sanitize_self hs
    have h2 : s.reversed.count = s.count := rfl
    show sanitizeLabels (some s.reversed.labels) s.reversed.count = s.labels
    rw [h1, h2]; exact sanitize_self hs
  · intro c t hc ht
    change t < s.length at ht
    show s.channels.get c (s.length - 1 - (s.length - 1 - t)) = s.channels.get c t
    congr 1
    omega

/-- The order of the samples is reversed (and only their order). -/
theorem C09_reversed_samples (s : Signal α R) (c i : Nat) (hc : c < s.count) (hi : i < s.length) :
    s.reversed.sample c i = s.sample c (s.length - 1 - i) := by
  have h : s.reversed.sample c i = some _ := sample_of_lt hc hi
  rw [h, sample_of_lt hc (by omega)]
  rfl

/-- Where the samples of the reversed signal really are: `2 * (length - 1)` samples later than documented. -/
theorem C09_time_shifted (s : Signal α R) (c : Nat) (t : Int) :
    s.reversed.at_ c t = s.at_ c (-(t - 2 * (s.length - 1))) := by
  apply Option.ext
  intro x
  rw [at_eq_some, at_eq_some]
  show (c < s.count ∧ (s.length : Int) - s.offset - 1 ≤ t ∧ t < (s.length : Int) - s.offset - 1 + s.length ∧
    s.channels.get c (s.length - 1 - (t - ((s.length : Int) - s.offset - 1)).toNat) = x) ↔ _
  constructor
  · rintro ⟨h1, h2, h3, h4⟩
    refine ⟨h1, by omega, by omega, ?_⟩
    rw [← h4]
    congr 1
    omega
  · rintro ⟨h1, h2, h3, h4⟩
    refine ⟨h1, by omega, by omega, ?_⟩
    rw [← h4]
    congr 1
    omega

/-- C09 at negated times, for signals with one sample.
`_partial`: false for all longer signals, see `C09_negated_time_violated`. -/
theorem C09_negated_time_partial (s : Signal α R) (h : s.length = 1) (c : Nat) (t : Int) :
    s.reversed.at_ c t = s.at_ c (-t) := by
  rw [C09_time_shifted, h]
  congr 1
  omega

/-- C09 is violated: the reversed signal is not the original signal at negated times. -/
theorem C09_negated_time_violated (s : Signal α R) (hc : 0 < s.count) (hl : 2 ≤ s.length) :
    ∃ t, s.reversed.at_ 0 t = some (s.channels.get 0 0) ∧ s.at_ 0 (-t) = none := by
  refine ⟨2 * (s.length - 1) - s.offset, ?_, ?_⟩
  · rw [C09_time_shifted, at_eq_some]
    refine ⟨hc, by omega, by omega, ?_⟩
    congr 1
    omega
  · unfold at_
    rw [if_neg (by omega)]

example : 0 < demo.count ∧ 2 ≤ demo.length ∧ demo.reversed.offset = -5 ∧ demo.offset + demo.length - 1 = 9 := by
  decide

end Signal
end Verif
