import Verif.SpectrogramShiftProps
import Verif.SignalLawsProps

/-
Properties C86 (slicing of spectrums and spectrograms), C87 (equality and hashes of spectrums and spectrograms)
and C88 (arithmetic of spectrums and spectrograms with numbers and arrays).
-/

namespace Verif

namespace Spectrogram

variable {α R : Type}

theorem sample_eq_some {s : Spectrogram α R} {c k i : Nat} {x : α} :
    s.sample c k i = some x ↔ c < s.count ∧ k < s.freqs ∧ i < s.length ∧ s.channels.get c k i = x := by
  unfold sample
  by_cases h : c < s.count ∧ k < s.freqs ∧ i < s.length
  · rw [if_pos h]
    exact ⟨fun g => ⟨h.1, h.2.1, h.2.2, Option.some.inj g⟩, fun g => congrArg some g.2.2.2⟩
  · rw [if_neg h]
    exact ⟨fun g => (by cases g), fun g => absurd ⟨g.1, g.2.1, g.2.2.1⟩ h⟩

theorem at_eq_some {s : Spectrogram α R} {c k : Nat} {t : Int} {x : α} :
    s.at_ c k t = some x ↔ c < s.count ∧ k < s.freqs ∧ s.offset ≤ t ∧ t < s.offset + s.length ∧
      s.channels.get c k (t - s.offset).toNat = x := by
  unfold at_
  by_cases h : s.offset ≤ t
  · rw [if_pos h, sample_eq_some]
    exact ⟨fun ⟨h1, h2, h3, h4⟩ => ⟨h1, h2, h, by omega, h4⟩, fun ⟨h1, h2, h3, h4, h5⟩ => ⟨h1, h2, by omega, h5⟩⟩
  · rw [if_neg h]
    exact ⟨fun g => (by cases g), fun g => absurd g.2.2.1 h⟩

/-! ### C86 -/

theorem sliceOffset_signal (s : Spectrogram α R) (T : PySlice) :
    s.sliceOffset T = (s.binSignal 0).sliceOffset T := rfl

theorem labels_of_slice {l : List String} {n : Nat} (hl : l.length = n) (C : PySlice) {c : Nat} (hc : c < C.count n) :
    (sanitizeLabels (some (sliceList l C)) (C.count n))[c]? = l[C.lo n + c]? := by
  have hhi := C.hi_le n
  have h2 : (sliceList l C).length = C.count n := by
    unfold sliceList
    rw [hl, List.length_take, List.length_drop, hl]
    unfold PySlice.count
    omega
  rw [Signal.sanitize_self h2]
  unfold sliceList
  rw [hl, List.getElem?_take_of_lt hc, List.getElem?_drop]

/-- C86: if the start of the time slice is not below `-length`, the values of `spectrogram[k0, k1, k2]` are
located at the same times as in the original spectrogram, and exactly the selected channels, frequency bins and
time indices are in the result; the bins are counted from the first selected one.
`_partial`: false for `start < -length`, see `C86_violated`. -/
theorem C86_slice_partial (s r : Spectrogram α R) (k0 k1 k2 : Indexing.Key) (C F T : PySlice)
    (hC : Indexing.keyToSlice s.count k0 = some C) (hF : Indexing.keyToSlice s.freqs k1 = some F)
    (hT : Indexing.keyToSlice s.length k2 = some T) (h : s.getItem k0 k1 k2 = some r)
    (hstart : ∀ a, T.start = some a → -(s.length : Int) ≤ a) :
    r.rate = s.rate ∧ r.resolution = s.resolution ∧ r.count = C.count s.count ∧ r.freqs = F.count s.freqs ∧
    r.length = T.count s.length ∧
    ∀ c k t x, r.at_ c k t = some x ↔ c < C.count s.count ∧ k < F.count s.freqs ∧ s.offset ≤ t ∧
      T.Selects s.length (t - s.offset).toNat ∧ s.at_ (C.lo s.count + c) (F.lo s.freqs + k) t = some x := by
  unfold getItem at h
  rw [hC, hF, hT] at h
  obtain rfl := Option.some.inj h
  refine ⟨rfl, rfl, rfl, rfl, rfl, ?_⟩
  intro c k t x
  have hoff := (s.binSignal 0).sliceOffset_eq T hstart
  have hThi := T.hi_le s.length
  have hChi := C.hi_le s.count
  have hFhi := F.hi_le s.freqs
  rw [at_eq_some, at_eq_some]
  show (c < C.count s.count ∧ k < F.count s.freqs ∧ s.sliceOffset T ≤ t ∧ t < s.sliceOffset T + (T.count s.length : Nat) ∧
    s.channels.get (C.lo s.count + c) (F.lo s.freqs + k) (T.lo s.length + (t - s.sliceOffset T).toNat) = x) ↔ _
  rw [sliceOffset_signal]
  change T.lo s.length < s.length → (s.binSignal 0).sliceOffset T = s.offset + (T.lo s.length : Int) at hoff
  generalize (s.binSignal 0).sliceOffset T = o at hoff ⊢
  unfold PySlice.Selects
  constructor
  · rintro ⟨h1, h2, h3, h4, h5⟩
    unfold PySlice.count at h1 h2 h4
    have e := hoff (by omega)
    subst e
    refine ⟨h1, h2, by omega, ⟨by omega, by omega⟩, by omega, by omega, by omega, by omega, ?_⟩
    rw [← h5]
    congr 1
    omega
  · rintro ⟨h1, h2, h3, ⟨h4, h5⟩, h6, h7, h8, h9, h10⟩
    have e := hoff (by omega)
    subst e
    refine ⟨h1, h2, by omega, ?_, ?_⟩
    · unfold PySlice.count; omega
    · rw [← h10]
      congr 1
      omega

example : ∃ r, demo84.getItem (.idx (.int 1)) (.slice (some (.int 1)) none) (.slice (some (.int (-2))) none) = some r ∧
    r.at_ 0 0 8 = some 11 ∧ demo84.at_ 1 1 8 = some 11 ∧ r.at_ 0 0 7 = none ∧ r.labels = ["b"] :=
  ⟨_, rfl, rfl, rfl, rfl, rfl⟩

/-- C86 is violated, if the start of the time slice is below `-length`: the values are moved to an earlier
time. -/
theorem C86_violated : ∃ (s r : Spectrogram Nat Nat) (k : Indexing.Key),
    s.getItem (.slice none none) (.slice none none) k = some r ∧
    ∃ t x, r.at_ 0 0 t = some x ∧ s.at_ 0 0 t ≠ some x :=
  ⟨demo84, _, .slice (some (.int (-5))) none, rfl, 5, 1, rfl, by simp [at_, demo84, new]⟩

/-- C86 for two keys: the time axis is not changed. -/
theorem C86_bins (s r : Spectrogram α R) (k0 k1 : Indexing.Key) (C F : PySlice)
    (hC : Indexing.keyToSlice s.count k0 = some C) (hF : Indexing.keyToSlice s.freqs k1 = some F)
    (h : s.getBins k0 k1 = some r) :
    r.rate = s.rate ∧ r.resolution = s.resolution ∧ r.offset = s.offset ∧ r.length = s.length ∧
    ∀ c k t x, r.at_ c k t = some x ↔ c < C.count s.count ∧ k < F.count s.freqs ∧
      s.at_ (C.lo s.count + c) (F.lo s.freqs + k) t = some x := by
  unfold getBins at h
  rw [hC, hF] at h
  obtain rfl := Option.some.inj h
  refine ⟨rfl, rfl, rfl, rfl, ?_⟩
  intro c k t x
  have hChi := C.hi_le s.count
  have hFhi := F.hi_le s.freqs
  rw [at_eq_some, at_eq_some]
  show (c < C.count s.count ∧ k < F.count s.freqs ∧ s.offset ≤ t ∧ t < s.offset + (s.length : Nat) ∧
    s.channels.get (C.lo s.count + c) (F.lo s.freqs + k) (0 + (t - s.offset).toNat) = x) ↔ _
  rw [Nat.zero_add]
  unfold PySlice.count
  constructor
  · rintro ⟨h1, h2, h3, h4, h5⟩; exact ⟨h1, h2, by omega, by omega, h3, h4, h5⟩
  · rintro ⟨h1, h2, -, -, h3, h4, h5⟩; exact ⟨h1, h2, h3, h4, h5⟩

/-- C86 for one key: only channels are selected. -/
theorem C86_channels (s r : Spectrogram α R) (k : Indexing.Key) (h : s.getChannels k = some r) :
    ∃ C, Indexing.keyToSlice s.count k = some C ∧ r.rate = s.rate ∧ r.resolution = s.resolution ∧
      r.offset = s.offset ∧ r.length = s.length ∧ r.freqs = s.freqs ∧
      ∀ c k t x, r.at_ c k t = some x ↔ c < C.count s.count ∧ s.at_ (C.lo s.count + c) k t = some x := by
  unfold getChannels at h
  obtain ⟨C, hC, rfl⟩ := Option.map_eq_some_iff.mp h
  refine ⟨C, hC, rfl, rfl, rfl, rfl, rfl, ?_⟩
  intro c k t x
  have hChi := C.hi_le s.count
  rw [at_eq_some, at_eq_some]
  show (c < C.count s.count ∧ k < s.freqs ∧ s.offset ≤ t ∧ t < s.offset + (s.length : Nat) ∧
    s.channels.get (C.lo s.count + c) (0 + k) (0 + (t - s.offset).toNat) = x) ↔ _
  rw [Nat.zero_add, Nat.zero_add]
  unfold PySlice.count
  constructor
  · rintro ⟨h1, h2, h3, h4, h5⟩; exact ⟨h1, by omega, h2, h3, h4, h5⟩
  · rintro ⟨h1, -, h2, h3, h4, h5⟩; exact ⟨h1, h2, h3, h4, h5⟩

/-- C86: the labels are selected with the same slice as the channels, for one, two and three keys. -/
theorem C86_labels (s r : Spectrogram α R) (hs : s.WF) (k0 k1 k2 : Indexing.Key)
    (h : s.getItem k0 k1 k2 = some r ∨ s.getBins k0 k1 = some r ∨ s.getChannels k0 = some r) :
    ∃ C, Indexing.keyToSlice s.count k0 = some C ∧
      ∀ c, c < r.count → r.labels[c]? = s.labels[C.lo s.count + c]? := by
  rcases h with h | h | h
  · unfold getItem at h
    split at h
    · rename_i C F T hC hF hT
      obtain rfl := Option.some.inj h
      exact ⟨C, hC, fun c hc => labels_of_slice hs C hc⟩
    · cases h
  · unfold getBins at h
    split at h
    · rename_i C F hC hF
      obtain rfl := Option.some.inj h
      exact ⟨C, hC, fun c hc => labels_of_slice hs C hc⟩
    · cases h
  · unfold getChannels at h
    obtain ⟨C, hC, rfl⟩ := Option.map_eq_some_iff.mp h
    exact ⟨C, hC, fun c hc => labels_of_slice hs C hc⟩

/-! ### C87 -/

theorem anyDifferent_false (beq : α → α → Bool) (A B : Cube α) :
    anyDifferent beq A B = false ↔
      ∀ c k i, c < A.d0 → k < A.d1 → i < A.d2 → beq (A.get c k i) (B.get c k i) = true := by
  unfold anyDifferent
  simp only [List.any_eq_false, List.mem_range, Bool.not_eq_true, Bool.not_eq_false']
  exact ⟨fun h c k i hc hk hi => h c hc k hk i hi, fun h c hc k hk i hi => h c k i hc hk hi⟩

/-- C87: `==` of spectrograms compares all parameters, labels and values. -/
theorem C87_spectrogram_iff [DecidableEq R] (beq : α → α → Bool) (s o : Spectrogram α R) :
    s.eq beq o = true ↔ s.resolution = o.resolution ∧ s.rate = o.rate ∧ s.offset = o.offset ∧
      s.labels = o.labels ∧ s.count = o.count ∧ s.freqs = o.freqs ∧ s.length = o.length ∧
      ∀ c k i, c < s.count → k < s.freqs → i < s.length →
        beq (s.channels.get c k i) (o.channels.get c k i) = true := by
  have key := anyDifferent_false beq s.channels o.channels
  unfold eq
  by_cases h1 : s.resolution = o.resolution
  · by_cases h2 : s.rate = o.rate
    · by_cases h3 : s.offset = o.offset
      · by_cases h4 : s.count = o.count ∧ s.freqs = o.freqs ∧ s.length = o.length
        · cases h5 : anyDifferent beq s.channels o.channels with
          | true =>
            have hn : ¬ ∀ c k i, c < s.count → k < s.freqs → i < s.length →
                beq (s.channels.get c k i) (o.channels.get c k i) = true := by
              intro h
              rw [key.mpr h] at h5
              cases h5
            rw [if_neg (not_not.mpr h1), if_neg (not_not.mpr h2), if_neg (not_not.mpr h3), if_neg (not_not.mpr h4),
              if_pos rfl]
            exact ⟨fun h => (by cases h), fun h => (hn h.2.2.2.2.2.2.2).elim⟩
          | false =>
            have hy := key.mp h5
            by_cases h6 : s.labels = o.labels
            · rw [if_neg (not_not.mpr h1), if_neg (not_not.mpr h2), if_neg (not_not.mpr h3), if_neg (not_not.mpr h4),
                if_neg (by simp), if_neg (not_not.mpr h6)]
              exact ⟨fun _ => ⟨h1, h2, h3, h6, h4.1, h4.2.1, h4.2.2, hy⟩, fun _ => rfl⟩
            · rw [if_neg (not_not.mpr h1), if_neg (not_not.mpr h2), if_neg (not_not.mpr h3), if_neg (not_not.mpr h4),
                if_neg (by simp), if_pos h6]
              exact ⟨fun h => (by cases h), fun h => absurd h.2.2.2.1 h6⟩
        · rw [if_neg (not_not.mpr h1), if_neg (not_not.mpr h2), if_neg (not_not.mpr h3), if_pos h4]
          exact ⟨fun h => (by cases h), fun h => absurd ⟨h.2.2.2.2.1, h.2.2.2.2.2.1, h.2.2.2.2.2.2.1⟩ h4⟩
      · rw [if_neg (not_not.mpr h1), if_neg (not_not.mpr h2), if_pos h3]
        exact ⟨fun h => (by cases h), fun h => absurd h.2.2.1 h3⟩
    · rw [if_neg (not_not.mpr h1), if_pos h2]
      exact ⟨fun h => (by cases h), fun h => absurd h.2.1 h2⟩
  · rw [if_pos h1]
    exact ⟨fun h => (by cases h), fun h => absurd h.1 h1⟩

/-- C87: `==` of spectrograms is reflexive without NaN, symmetric and transitive, if the comparison of values
is. -/
theorem C87_spectrogram_equivalence [DecidableEq R] (beq : α → α → Bool) :
    (∀ s : Spectrogram α R, (∀ c k i, c < s.count → k < s.freqs → i < s.length →
      beq (s.channels.get c k i) (s.channels.get c k i) = true) → s.eq beq s = true) ∧
    ((∀ x y, beq x y = true → beq y x = true) → ∀ s o : Spectrogram α R, s.eq beq o = true → o.eq beq s = true) ∧
    ((∀ x y z, beq x y = true → beq y z = true → beq x z = true) →
      ∀ a b c : Spectrogram α R, a.eq beq b = true → b.eq beq c = true → a.eq beq c = true) := by
  refine ⟨?_, ?_, ?_⟩
  · intro s h
    exact (C87_spectrogram_iff beq s s).mpr ⟨rfl, rfl, rfl, rfl, rfl, rfl, rfl, h⟩
  · intro hs s o h
    rw [C87_spectrogram_iff] at h ⊢
    obtain ⟨h1, h2, h3, h4, h5, h6, h7, h8⟩ := h
    exact ⟨h1.symm, h2.symm, h3.symm, h4.symm, h5.symm, h6.symm, h7.symm,
      fun c k i hc hk hi => hs _ _ (h8 c k i (h5 ▸ hc) (h6 ▸ hk) (h7 ▸ hi))⟩
  · intro ht a b c h g
    rw [C87_spectrogram_iff] at h g ⊢
    obtain ⟨h1, h2, h3, h4, h5, h6, h7, h8⟩ := h
    obtain ⟨g1, g2, g3, g4, g5, g6, g7, g8⟩ := g
    exact ⟨h1.trans g1, h2.trans g2, h3.trans g3, h4.trans g4, h5.trans g5, h6.trans g6, h7.trans g7,
      fun c k i hc hk hi => ht _ _ _ (h8 c k i hc hk hi) (g8 c k i (h5 ▸ hc) (h6 ▸ hk) (h7 ▸ hi))⟩

/-- C87: equal spectrograms have equal hashes, if equal values have equal hashes. -/
theorem C87_spectrogram_hash [DecidableEq R] (beq : α → α → Bool) (hashSample : α → Int)
    (hh : ∀ x y, beq x y = true → hashSample x = hashSample y)
    (hashTuple : (Nat × Nat × Nat) × List Int × List String → Int) (hashOuter : Int × R × R × Int → Int)
    (s o : Spectrogram α R) (h : s.eq beq o = true) :
    s.hash hashSample hashTuple hashOuter = o.hash hashSample hashTuple hashOuter := by
  rw [C87_spectrogram_iff] at h
  obtain ⟨h1, h2, h3, h4, h5, h6, h7, h8⟩ := h
  unfold hash
  have e : s.channels.flat.map hashSample = o.channels.flat.map hashSample := by
    unfold Cube.flat
    rw [show o.channels.d0 = s.count from h5.symm, show o.channels.d1 = s.freqs from h6.symm,
      show o.channels.d2 = s.length from h7.symm, List.map_flatMap, List.map_flatMap]
    refine List.flatMap_congr fun c hc => ?_
    rw [List.map_flatMap, List.map_flatMap]
    refine List.flatMap_congr fun k hk => ?_
    rw [List.map_map, List.map_map]
    refine List.map_congr_left fun i hi => ?_
    exact hh _ _ (h8 c k i (List.mem_range.mp hc) (List.mem_range.mp hk) (List.mem_range.mp hi))
  rw [e, h1, h2, h3, h4, h5, h6, h7]

example : demo84.eq (· == ·) demo84 = true ∧
    demo84.eq (· == ·) { demo84 with offset := 8 } = false ∧
    demo84.eq (· == ·) { demo84 with resolution := 11 } = false ∧
    demo84.eq (· == ·) { demo84 with labels := ["a", "c"] } = false := ⟨rfl, rfl, rfl, rfl⟩

/-! ### C88 -/

/-- The element of an array, which belongs to the value `i` in the bin `k` of channel `c` according to numpy's
broadcasting rules. -/
def element (other : Cube α) (c k i : Nat) : α :=
  other.get (if other.d0 = 1 then 0 else c) (if other.d1 = 1 then 0 else k) (if other.d2 = 1 then 0 else i)

/-- The array can be broadcast to the spectrogram's shape. -/
def Fits (s : Spectrogram α R) (other : Cube α) : Prop :=
  (other.d0 = s.count ∨ other.d0 = 1) ∧ (other.d1 = s.freqs ∨ other.d1 = 1) ∧
    (other.d2 = s.length ∨ other.d2 = 1)

theorem element_self (s : Spectrogram α R) {c k i : Nat} (hc : c < s.count) (hk : k < s.freqs) (hi : i < s.length) :
    element s.channels c k i = s.channels.get c k i := by
  unfold element
  change c < s.channels.d0 at hc
  change k < s.channels.d1 at hk
  change i < s.channels.d2 at hi
  have e1 : (if s.channels.d0 = 1 then 0 else c) = c := by split <;> omega
  have e2 : (if s.channels.d1 = 1 then 0 else k) = k := by split <;> omega
  have e3 : (if s.channels.d2 = 1 then 0 else i) = i := by split <;> omega
  rw [e1, e2, e3]

theorem ufunc_ok (mem : Nat → Nat → Nat → α) (f : α → α → α) (s : Spectrogram α R) (A B : Cube α)
    (hA : Fits s A) (hB : Fits s B) :
    ∃ C, Cube.ufunc2 f A B (allocCube mem s.count s.freqs s.length) .all .all .all = .ok C ∧ C.d0 = s.count ∧
      C.d1 = s.freqs ∧ C.d2 = s.length ∧ ∀ c k i, c < s.count → k < s.freqs → i < s.length →
        C.get c k i = f (element A c k i) (element B c k i) := by
  obtain ⟨C, hC, u⟩ := Cube.ufunc2_ok (f := f) (A := A) (B := B) (out := allocCube mem s.count s.freqs s.length)
    (r := .all) (s := .all) (t := .all) 0 s.count 0 s.freqs 0 s.length ⟨rfl, rfl⟩ ⟨rfl, rfl⟩ ⟨rfl, rfl⟩
    hA hB
  refine ⟨C, hC, u.e0, u.e1, u.e2, ?_⟩
  intro c k i hc hk hi
  rw [u.inside c k i ⟨⟨Nat.zero_le _, hc⟩, ⟨Nat.zero_le _, hk⟩, Nat.zero_le _, hi⟩]
  rfl

/-- C88: `spectrogram ∘ other` and `other ∘ spectrogram` for a number or an array: the parameters and labels
are kept, the values are combined in this order. -/
theorem C88_spectrogram (mem : Nat → Nat → Nat → α) (f : α → α → α) (s : Spectrogram α R) (hs : s.WF)
    (other : Cube α) (h : Fits s other) :
    (∃ r, algebraArray mem f s other = .ok r ∧ r.resolution = s.resolution ∧ r.rate = s.rate ∧
      r.offset = s.offset ∧ r.labels = s.labels ∧ r.count = s.count ∧ r.freqs = s.freqs ∧ r.length = s.length ∧
      ∀ c k i x, s.sample c k i = some x → r.sample c k i = some (f x (element other c k i))) ∧
    (∃ r, algebraArrayRight mem f s other = .ok r ∧ r.resolution = s.resolution ∧ r.rate = s.rate ∧
      r.offset = s.offset ∧ r.labels = s.labels ∧ r.count = s.count ∧ r.freqs = s.freqs ∧ r.length = s.length ∧
      ∀ c k i x, s.sample c k i = some x → r.sample c k i = some (f (element other c k i) x)) := by
  have hf : Fits s s.channels := ⟨Or.inl rfl, Or.inl rfl, Or.inl rfl⟩
  constructor
  · obtain ⟨C, hC, c0, c1, c2, c3⟩ := ufunc_ok mem f s s.channels other hf h
    unfold algebraArray
    simp only [bind, Except.bind, hC]
    refine ⟨_, rfl, rfl, rfl, rfl, Signal.sanitize_self (hs.trans c0.symm), c0, c1, c2, ?_⟩
    intro c k i x hx
    rw [sample_eq_some] at hx ⊢
    obtain ⟨h1, h2, h3, h4⟩ := hx
    refine ⟨h1.trans_eq c0.symm, h2.trans_eq c1.symm, h3.trans_eq c2.symm, ?_⟩
    show C.get c k i = _
    rw [c3 c k i h1 h2 h3, element_self s h1 h2 h3, h4]
  · obtain ⟨C, hC, c0, c1, c2, c3⟩ := ufunc_ok mem f s other s.channels h hf
    unfold algebraArrayRight
    simp only [bind, Except.bind, hC]
    refine ⟨_, rfl, rfl, rfl, rfl, Signal.sanitize_self (hs.trans c0.symm), c0, c1, c2, ?_⟩
    intro c k i x hx
    rw [sample_eq_some] at hx ⊢
    obtain ⟨h1, h2, h3, h4⟩ := hx
    refine ⟨h1.trans_eq c0.symm, h2.trans_eq c1.symm, h3.trans_eq c2.symm, ?_⟩
    show C.get c k i = _
    rw [c3 c k i h1 h2 h3, element_self s h1 h2 h3, h4]

example : Fits demo84 (.scalar 3) ∧ Fits demo84 (.ofMat (Mat.ofRows 3 [[1, 2, 3]])) ∧
    ¬ Fits demo84 (.ofMat (Mat.ofRows 2 [[1, 2]])) := by unfold Fits; decide

example : ∃ r, algebraArrayRight (fun _ _ _ => 99) (· - ·) demo84 (.scalar 20) = .ok r ∧
    r.sample 1 1 2 = some 8 ∧ r.labels = ["a", "b"] := ⟨_, rfl, rfl, rfl⟩

/-- C88: arrays of other shapes are rejected. -/
theorem C88_spectrogram_wrong_shape (mem : Nat → Nat → Nat → α) (f : α → α → α) (s : Spectrogram α R)
    (other : Cube α) (h : ¬ Fits s other) : algebraArray mem f s other = .error .valueError ∧
      algebraArrayRight mem f s other = .error .valueError := by
  have hs := Cube.broadcastTo_ok (S := s.channels) (n0 := s.count) (n1 := s.freqs) (n2 := s.length)
    ⟨Or.inl rfl, Or.inl rfl, Or.inl rfl⟩
  have ho := Cube.broadcastTo_error (S := other) (n0 := s.count) (n1 := s.freqs) (n2 := s.length) h
  constructor
  · unfold algebraArray Cube.ufunc2
    rw [show s.channels.broadcastTo (PySlice.all.count (allocCube mem s.count s.freqs s.length).d0)
        (PySlice.all.count (allocCube mem s.count s.freqs s.length).d1)
        (PySlice.all.count (allocCube mem s.count s.freqs s.length).d2) = _ from hs,
      show other.broadcastTo (PySlice.all.count (allocCube mem s.count s.freqs s.length).d0)
        (PySlice.all.count (allocCube mem s.count s.freqs s.length).d1)
        (PySlice.all.count (allocCube mem s.count s.freqs s.length).d2) = .error .valueError from ho]
    rfl
  · unfold algebraArrayRight Cube.ufunc2
    rw [show other.broadcastTo (PySlice.all.count (allocCube mem s.count s.freqs s.length).d0)
        (PySlice.all.count (allocCube mem s.count s.freqs s.length).d1)
        (PySlice.all.count (allocCube mem s.count s.freqs s.length).d2) = .error .valueError from ho]
    rfl

end Spectrogram

namespace Spectrum

variable {α R : Type}

/-- The value of channel `c` in the frequency bin `k`, if there is one. -/
def sample (s : Spectrum α R) (c k : Nat) : Option α :=
  if c < s.count ∧ k < s.length then some (s.channels.get c k) else none

/-- There is one label per channel; the constructor enforces this. -/
def WF (s : Spectrum α R) : Prop := s.labels.length = s.count

theorem sample_eq_some {s : Spectrum α R} {c k : Nat} {x : α} :
    s.sample c k = some x ↔ c < s.count ∧ k < s.length ∧ s.channels.get c k = x := by
  unfold sample
  by_cases h : c < s.count ∧ k < s.length
  · rw [if_pos h]
    exact ⟨fun g => ⟨h.1, h.2, Option.some.inj g⟩, fun g => congrArg some g.2.2⟩
  · rw [if_neg h]
    exact ⟨fun g => (by cases g), fun g => absurd ⟨g.1, g.2.1⟩ h⟩

/-- C86 for spectrums: exactly the selected channels and bins are in the result; as documented, the bins are
counted from the first selected one. -/
theorem C86_spectrum (s r : Spectrum α R) (k0 k1 : Indexing.Key) (C F : PySlice)
    (hC : Indexing.keyToSlice s.count k0 = some C) (hF : Indexing.keyToSlice s.length k1 = some F)
    (h : s.getItem k0 k1 = some r) :
    r.resolution = s.resolution ∧ r.count = C.count s.count ∧ r.length = F.count s.length ∧
    ∀ c k x, r.sample c k = some x ↔ c < C.count s.count ∧ k < F.count s.length ∧
      s.sample (C.lo s.count + c) (F.lo s.length + k) = some x := by
  unfold getItem at h
  rw [hC, hF] at h
  obtain rfl := Option.some.inj h
  refine ⟨rfl, rfl, rfl, ?_⟩
  intro c k x
  have hChi := C.hi_le s.count
  have hFhi := F.hi_le s.length
  rw [sample_eq_some, sample_eq_some]
  show (c < C.count s.count ∧ k < F.count s.length ∧ s.channels.get (C.lo s.count + c) (F.lo s.length + k) = x) ↔ _
  unfold PySlice.count
  constructor
  · rintro ⟨h1, h2, h3⟩; exact ⟨h1, h2, by omega, by omega, h3⟩
  · rintro ⟨h1, h2, -, -, h3⟩; exact ⟨h1, h2, h3⟩

/-- C86 for spectrums with one key: only channels are selected. -/
theorem C86_spectrum_channels (s r : Spectrum α R) (k : Indexing.Key) (h : s.getChannels k = some r) :
    ∃ C, Indexing.keyToSlice s.count k = some C ∧ r.resolution = s.resolution ∧ r.length = s.length ∧
      ∀ c k x, r.sample c k = some x ↔ c < C.count s.count ∧ s.sample (C.lo s.count + c) k = some x := by
  unfold getChannels at h
  obtain ⟨C, hC, rfl⟩ := Option.map_eq_some_iff.mp h
  refine ⟨C, hC, rfl, rfl, ?_⟩
  intro c k x
  have hChi := C.hi_le s.count
  rw [sample_eq_some, sample_eq_some]
  show (c < C.count s.count ∧ k < s.length ∧ s.channels.get (C.lo s.count + c) (0 + k) = x) ↔ _
  rw [Nat.zero_add]
  unfold PySlice.count
  constructor
  · rintro ⟨h1, h2, h3⟩; exact ⟨h1, by omega, h2, h3⟩
  · rintro ⟨h1, -, h2, h3⟩; exact ⟨h1, h2, h3⟩

/-- C86: the labels of spectrums are selected with the same slice as the channels. -/
theorem C86_spectrum_labels (s r : Spectrum α R) (hs : s.WF) (k0 k1 : Indexing.Key)
    (h : s.getItem k0 k1 = some r ∨ s.getChannels k0 = some r) :
    ∃ C, Indexing.keyToSlice s.count k0 = some C ∧
      ∀ c, c < r.count → r.labels[c]? = s.labels[C.lo s.count + c]? := by
  rcases h with h | h
  · unfold getItem at h
    split at h
    · rename_i C F hC hF
      obtain rfl := Option.some.inj h
      exact ⟨C, hC, fun c hc => Spectrogram.labels_of_slice hs C hc⟩
    · cases h
  · unfold getChannels at h
    obtain ⟨C, hC, rfl⟩ := Option.map_eq_some_iff.mp h
    exact ⟨C, hC, fun c hc => Spectrogram.labels_of_slice hs C hc⟩

/-- an example -/
def demo86 : Spectrum Nat Nat := new (Mat.ofRows 3 [[1, 2, 3], [4, 5, 6]]) 10 (some ["a", "b"])

example : demo86.WF ∧ ∃ r, demo86.getItem (.idx (.int 1)) (.slice (some (.int 1)) none) = some r ∧
    r.sample 0 0 = some 5 ∧ r.labels = ["b"] := ⟨rfl, _, rfl, rfl, rfl⟩

/-- a signal with the same parameters, to which the comparison of spectrums can be reduced -/
def asSignal (s : Spectrum α R) : Signal α R := ⟨s.channels, s.resolution, 0, s.labels⟩

theorem eq_asSignal [DecidableEq R] (beq : α → α → Bool) (s o : Spectrum α R) :
    s.eq beq o = s.asSignal.eq beq o.asSignal := by
  unfold eq Signal.eq
  rw [if_neg (show ¬ s.asSignal.offset ≠ o.asSignal.offset from not_not.mpr rfl)]
  rfl

/-- C87: `==` of spectrums compares the resolution, the shape, the labels and the values. -/
theorem C87_spectrum_iff [DecidableEq R] (beq : α → α → Bool) (s o : Spectrum α R) :
    s.eq beq o = true ↔ s.resolution = o.resolution ∧ s.labels = o.labels ∧ s.count = o.count ∧
      s.length = o.length ∧
      ∀ c k, c < s.count → k < s.length → beq (s.channels.get c k) (o.channels.get c k) = true := by
  rw [eq_asSignal, Signal.C13_eq_iff]
  exact ⟨fun ⟨h1, _, h3, h4, h5, h6⟩ => ⟨h1, h3, h4, h5, h6⟩, fun ⟨h1, h3, h4, h5, h6⟩ => ⟨h1, rfl, h3, h4, h5, h6⟩⟩

/-- C87: `==` of spectrums is reflexive without NaN, symmetric and transitive, if the comparison of values is. -/
theorem C87_spectrum_equivalence [DecidableEq R] (beq : α → α → Bool) :
    (∀ s : Spectrum α R, (∀ c k, c < s.count → k < s.length →
      beq (s.channels.get c k) (s.channels.get c k) = true) → s.eq beq s = true) ∧
    ((∀ x y, beq x y = true → beq y x = true) → ∀ s o : Spectrum α R, s.eq beq o = true → o.eq beq s = true) ∧
    ((∀ x y z, beq x y = true → beq y z = true → beq x z = true) →
      ∀ a b c : Spectrum α R, a.eq beq b = true → b.eq beq c = true → a.eq beq c = true) := by
  refine ⟨?_, ?_, ?_⟩
  · intro s h; rw [eq_asSignal]; exact Signal.C13_refl_partial beq _ h
  · intro hs s o h; rw [eq_asSignal] at h ⊢; exact Signal.C13_symm beq hs _ _ h
  · intro ht a b c h g; rw [eq_asSignal] at h g ⊢; exact Signal.C13_trans beq ht _ _ _ h g

/-- C87: equal spectrums have equal hashes, if equal values have equal hashes. -/
theorem C87_spectrum_hash [DecidableEq R] (beq : α → α → Bool) (hashSample : α → Int)
    (hh : ∀ x y, beq x y = true → hashSample x = hashSample y)
    (hashTuple : (Nat × Nat) × List Int × List String → Int) (hashOuter : Int × R → Int)
    (s o : Spectrum α R) (h : s.eq beq o = true) :
    s.hash hashSample hashTuple hashOuter = o.hash hashSample hashTuple hashOuter := by
  rw [eq_asSignal] at h
  exact Signal.C13_hash beq hashSample hh hashTuple (fun p => hashOuter (p.1, p.2.1)) _ _ h

example : demo86.eq (· == ·) demo86 = true ∧ demo86.eq (· == ·) { demo86 with resolution := 11 } = false :=
  ⟨rfl, rfl⟩

/-- C88 for spectrums: `spectrum ∘ other` and `other ∘ spectrum` for a number or an array. -/
theorem C88_spectrum (mem : Nat → Nat → α) (f : α → α → α) (s : Spectrum α R) (hs : s.WF) (other : Mat α)
    (h : (other.rows = s.count ∨ other.rows = 1) ∧ (other.cols = s.length ∨ other.cols = 1)) :
    (∃ r, algebraArray mem f s other = .ok r ∧ r.resolution = s.resolution ∧ r.labels = s.labels ∧
      r.count = s.count ∧ r.length = s.length ∧
      ∀ c k x, s.sample c k = some x → r.sample c k = some (f x (Signal.element other c k))) ∧
    (∃ r, algebraArrayRight mem f s other = .ok r ∧ r.resolution = s.resolution ∧ r.labels = s.labels ∧
      r.count = s.count ∧ r.length = s.length ∧
      ∀ c k x, s.sample c k = some x → r.sample c k = some (f (Signal.element other c k) x)) := by
  have hf : Signal.Fits s.asSignal s.channels := ⟨Or.inl rfl, Or.inl rfl⟩
  constructor
  · obtain ⟨C, hC, c1, c2, c3⟩ := Signal.algebra_array_ok mem f s.asSignal s.channels other hf h
    unfold algebraArray
    rw [show Mat.ufunc2 f s.channels other (alloc mem s.count s.length) .all .all = .ok C from hC]
    refine ⟨_, rfl, rfl, Signal.sanitize_self (hs.trans c1.symm), c1, c2, ?_⟩
    intro c k x hx
    rw [sample_eq_some] at hx ⊢
    obtain ⟨h1, h2, h3⟩ := hx
    refine ⟨h1.trans_eq c1.symm, h2.trans_eq c2.symm, ?_⟩
    show C.get c k = _
    rw [c3 c k h1 h2, ← h3]
    exact congrArg₂ f (Signal.element_self s.asSignal h1 h2) rfl
  · obtain ⟨C, hC, c1, c2, c3⟩ := Signal.algebra_array_ok mem f s.asSignal other s.channels h hf
    unfold algebraArrayRight
    rw [show Mat.ufunc2 f other s.channels (alloc mem s.count s.length) .all .all = .ok C from hC]
    refine ⟨_, rfl, rfl, Signal.sanitize_self (hs.trans c1.symm), c1, c2, ?_⟩
    intro c k x hx
    rw [sample_eq_some] at hx ⊢
    obtain ⟨h1, h2, h3⟩ := hx
    refine ⟨h1.trans_eq c1.symm, h2.trans_eq c2.symm, ?_⟩
    show C.get c k = _
    rw [c3 c k h1 h2, ← h3]
    exact congrArg₂ f rfl (Signal.element_self s.asSignal h1 h2)

/-- C88 for `~spectrum`: the product of a spectrum without zeros with its inverse is one in each bin. -/
theorem C88_invert {K : Type} [Field K] (mem : Nat → Nat → K) (s : Spectrum K R) (hs : s.WF) :
    ∃ r, s.invert mem = .ok r ∧ r.resolution = s.resolution ∧ r.labels = s.labels ∧ r.count = s.count ∧
      r.length = s.length ∧ ∀ c k x, s.sample c k = some x → x ≠ 0 →
        ∃ y, r.sample c k = some y ∧ x * y = 1 := by
  obtain ⟨r, h1, h2, h3, h4, h5, h6⟩ := (C88_spectrum mem (· / ·) s hs (.scalar 1) ⟨Or.inr rfl, Or.inr rfl⟩).2
  refine ⟨r, h1, h2, h3, h4, h5, ?_⟩
  intro c k x hx hn
  refine ⟨_, h6 c k x hx, ?_⟩
  show x * (1 / x) = 1
  field_simp

example : ∃ r, algebraArrayRight (fun _ _ => 99) (· - ·) demo86 (.scalar 20) = .ok r ∧ r.sample 1 2 = some 14 :=
  ⟨_, rfl, rfl⟩

end Spectrum
end Verif
