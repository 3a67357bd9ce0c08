import Verif.ConvolutionOther
import Verif.ConvolutionSpectrumProps

/-
Property C99: convolving a signal with numbers and arrays.
-/

namespace Verif

open Finset

/-! ### Kernels for one sample -/

theorem npFull_one {α : Type} [AddCommMonoid α] [Mul α] (la : Nat) (a b : Nat → α) {k : Nat} (hk : k < la) :
    npFull la 1 a b k = a k * b 0 := by
  unfold npFull
  rw [Finset.sum_eq_single k]
  · rw [if_pos (by omega), Nat.sub_self]
  · intro i _ hi
    rw [if_neg (by omega)]
  · intro h
    exact absurd (Finset.mem_range.mpr hk) h

theorem circularConv_one {la : Nat} (a b : Nat → ℝ) {k : Nat} (hk : k < la) :
    circularConv la 1 a b k = a k * b 0 := by
  have h : 0 < la := by omega
  obtain ⟨h0, h1, _⟩ := evenLength_bounds la 1 h
  rw [circularConv_eq h, Finset.sum_eq_single k]
  · unfold ext
    rw [if_pos (by omega), if_pos (by simp)]
    simp
  · intro i hi hne
    rw [Finset.mem_range] at hi
    have : ext 1 0 b (((k : Int) - 1 * (i : Int)) % (evenLength (max la 1) : Nat)) = 0 := by
      unfold ext
      rw [if_neg]
      rintro ⟨_, g⟩
      have g0 : ((k : Int) - 1 * (i : Int)) % (evenLength (max la 1) : Nat) = 0 := by
        have := Int.emod_nonneg ((k : Int) - 1 * (i : Int)) (b := (evenLength (max la 1) : Nat)) (by omega)
        omega
      obtain ⟨q, hq⟩ := Int.dvd_of_emod_eq_zero g0
      have hq0 : q = 0 := by
        by_contra hc
        rcases lt_or_gt_of_ne hc with hc | hc
        · nlinarith
        · nlinarith
      subst hq0
      omega
    rw [this, mul_zero]
  · intro h'
    exact absurd (Finset.mem_range.mpr (by omega)) h'

theorem corrSum_one {α : Type} [NonUnitalNonAssocCommSemiring α] (la : Nat) (a b : Nat → α) {d : Int} (h0 : d ≤ 0)
    (h1 : -d < la) : corrSum la 1 a b d = a (-d).toNat * b 0 := by
  unfold corrSum
  rw [Finset.sum_eq_single (-d).toNat]
  · unfold ext
    rw [if_pos (by omega)]
    congr 2
    omega
  · intro i _ hi
    unfold ext
    rw [if_neg (by omega), mul_zero]
  · intro h
    exact absurd (Finset.mem_range.mpr (by omega)) h

namespace Signal
variable {α R : Type}

/-! ### Arrays -/

section
variable [Mul α]

/-- **C99**: convolving or correlating a signal with an array gives the same channels, offset and sampling rate as
with a signal, that has the array as channels and the offset zero; the labels of the signal are kept.  This includes the
exceptions. -/
theorem C99_array (mem : Nat → Nat → α) (f : Convolver α) (s : Signal α R) (M : Mat α) (label : String) (rate : R)
    (labels : Option (List String)) :
    convolveOther mem f s (.matrix M) =
      (convolve f label s (new M rate 0 labels)).map fun r => new r.channels r.rate r.offset (some s.labels) := by
  show (do
    let (channels, offset) ← convolveWithArray f s M 0
    return new channels s.rate offset (some s.labels)) = Except.map _ (do
      let (channels, offset) ← convolveWithArray f s M 0
      return new channels s.rate offset (some (List.replicate s.count label)))
  cases convolveWithArray f s M 0 <;> rfl

/-- **C99**: an array with one dimension is the same as an array with one row. -/
theorem C99_vector (mem : Nat → Nat → α) (f : Convolver α) (s : Signal α R) (n : Nat) (v : Nat → α) :
    convolveOther mem f s (.vector n v) =
      convolveOther mem f s (.matrix { rows := 1, cols := n, get := fun _ j => v j }) := rfl

end

/-! ### Numbers -/

/-- The result of multiplying all samples of `s` with `x`, specified without the model's functions. -/
structure IsScaled [Mul α] (s : Signal α R) (x : α) (r : Signal α R) : Prop where
  count : r.count = s.count
  length : r.length = s.length
  rate : r.rate = s.rate
  offset : r.offset = s.offset
  labels : s.labels.length = s.count → r.labels = s.labels
  samples : ∀ c t, r.at_ c t = (s.at_ c t).map (· * x)

theorem isScaled_of [Mul α] {s r : Signal α R} {x : α} (h1 : r.count = s.count) (h2 : r.length = s.length)
    (h3 : r.rate = s.rate) (h4 : r.offset = s.offset) (h5 : r.labels = sanitizeLabels (some s.labels) r.count)
    (h : ∀ c i, c < s.count → i < s.length → r.channels.get c i = s.channels.get c i * x) : IsScaled s x r where
  count := h1
  length := h2
  rate := h3
  offset := h4
  labels hl := by
    rw [h5, h1]
    exact sanitize_self hl
  samples c t := by
    unfold at_ sample
    rw [h1, h2, h4]
    split
    · split
      · rename_i h6
        rw [h c _ h6.1 h6.2]; rfl
      · rfl
    · rfl

/-- **C99**: convolving or correlating a signal with a number multiplies its samples with the number. -/
theorem C99_scalar [Mul α] (mem : Nat → Nat → α) (f : Convolver α) (s : Signal α R) (x : α) :
    ∃ r, convolveOther mem f s (.scalar x) = .ok r ∧ IsScaled s x r := by
  obtain ⟨C, h1, h2, h3, h4, _⟩ := Mat.assign_ok (A := alloc mem s.count s.length)
    (S := { rows := s.channels.rows, cols := s.channels.cols, get := fun i j => s.channels.get i j * x })
    (r := .all) (c := .all) 0 s.count 0 s.length rfl rfl rfl rfl rfl rfl
  refine ⟨new C s.rate s.offset (some s.labels), ?_, ?_⟩
  · unfold convolveOther convolveWithOther
    dsimp only
    unfold convolveWithScalar
    dsimp only
    rw [h1]; rfl
  · refine isScaled_of h2 h3 rfl rfl rfl fun c i hc hi => ?_
    exact h4 c i (by omega) hc (by omega) hi

theorem one_sample [Mul α] {f : Convolver α} {kernel len off} (hf : Computes f kernel len off)
    (hlen : ∀ la, 0 < la → len la 1 = la) (hoff : ∀ la o0, 0 < la → off la 1 o0 0 = o0)
    (hker : ∀ (la : Nat) (a b : Nat → α) (k : Nat), k < la → kernel la 1 a b k = a k * b 0)
    (mem : Nat → Nat → α) (s : Signal α R) (hs : 0 < s.length) (x : α) :
    ∃ r, convolveOther mem f s (.vector 1 fun _ => x) = .ok r ∧ IsScaled s x r := by
  obtain ⟨C, h1, h2, h3, h4⟩ := hf.vector s.channels { rows := 1, cols := 1, get := fun _ _ => x } s.offset 0 hs
    (by show 0 < 1; omega) rfl
  refine ⟨new C s.rate (off s.channels.cols 1 s.offset 0) (some s.labels), ?_, ?_⟩
  · unfold convolveOther convolveWithOther
    dsimp only
    rw [h1]; rfl
  · have h5 : len s.channels.cols 1 = s.length := hlen _ hs
    refine isScaled_of h2 (h3.trans h5) rfl (hoff _ _ hs) rfl fun c i hc hi => ?_
    have h6 := h4 c i hc (by show i < len s.channels.cols 1; omega)
    show C.get c i = _
    rw [h6]
    exact hker _ _ _ _ hi

/-- **C99**: in each of the modes, convolving with an array of one sample is convolving with the number: it
multiplies the samples with it. -/
theorem C99_number [NonUnitalNonAssocCommSemiring α] (mem : Nat → Nat → α) (s : Signal α R) (hs : 0 < s.length) (x : α) :
    (∃ r, convolveOther mem (fullConvolution mem) s (.vector 1 fun _ => x) = .ok r ∧ IsScaled s x r) ∧
    (∃ r, convolveOther mem (sameConvolution mem) s (.vector 1 fun _ => x) = .ok r ∧ IsScaled s x r) ∧
    (∃ r, convolveOther mem (validConvolution mem) s (.vector 1 fun _ => x) = .ok r ∧ IsScaled s x r) := by
  refine ⟨one_sample (fullConvolution_computes mem) ?_ ?_ ?_ mem s hs x,
    one_sample (sameConvolution_computes mem) ?_ ?_ ?_ mem s hs x,
    one_sample (validConvolution_computes mem) ?_ ?_ ?_ mem s hs x⟩
  · intro la h; omega
  · intro la o h; simp
  · intro la a b k h; exact npFull_one la a b h
  · intro la h; omega
  · intro la o h
    rw [Nat.min_eq_right (by omega)]; simp
  · intro la a b k h
    show npFull la 1 a b ((min la 1 - 1) / 2 + k) = _
    rw [Nat.min_eq_right (by omega), show (1 - 1) / 2 + k = k by omega]
    exact npFull_one la a b h
  · intro la h; omega
  · intro la o h
    rw [Nat.min_eq_right (by omega)]; simp
  · intro la a b k h
    show npFull la 1 a b (min la 1 - 1 + k) = _
    rw [Nat.min_eq_right (by omega), show 1 - 1 + k = k by omega]
    exact npFull_one la a b h

/-- **C99**: the same for the modes, that compute the convolution in the frequency domain. -/
theorem C99_number_spectrum (mem : Nat → Nat → ℝ) (s : Signal ℝ R) (hs : 0 < s.length) (x : ℝ) :
    (∃ r, convolveOther mem (spectrumConvolution mem) s (.vector 1 fun _ => x) = .ok r ∧ IsScaled s x r) ∧
    (∃ r, convolveOther mem (spectrumPaddedConvolution mem) s (.vector 1 fun _ => x) = .ok r ∧ IsScaled s x r) := by
  refine ⟨one_sample (spectrumConvolution_computes mem) ?_ ?_ ?_ mem s hs x,
    one_sample (spectrumPaddedConvolution_computes mem) ?_ ?_ ?_ mem s hs x⟩
  · intro la h; omega
  · intro la o h; simp
  · intro la a b k h; exact circularConv_one a b h
  · intro la h; omega
  · intro la o h; simp
  · intro la a b k h; exact npFull_one la a b h

/-- a signal with two channels of three samples, that does not begin at zero -/
example : ∃ s : Signal ℚ ℚ, 0 < s.length ∧ s.labels.length = s.count ∧ s.offset ≠ 0 ∧
    s.at_ 1 (-5) = some 5 :=
  ⟨new { rows := 2, cols := 3, get := fun i j => 4 * i + j } 48000 (-6) none, by decide, by decide, by decide, by
    rw [at_eq_some]
    exact ⟨by decide, by decide, by decide, by show (4 * ((1 : Nat) : ℚ) + ((1 : Nat) : ℚ)) = 5; norm_num⟩⟩

/-! ### Correlation -/

/-- The reverse of a signal, with its samples multiplied by `x`. -/
structure IsReversedScaled [Mul α] (s : Signal α R) (x : α) (r : Signal α R) : Prop where
  count : r.count = s.count
  length : r.length = s.length
  samples : ∀ c t, r.at_ c t = (s.at_ c (-t)).map (· * x)

/-- **C99** (partial): correlating with an array of one sample gives, as documented, the convolution of the reverse of the
signal with the sample.  This does not hold for correlating with the number, see `C99_correlation_violated`. -/
theorem C99_correlation_partial [NonUnitalNonAssocCommSemiring α] (mem : Nat → Nat → α) (s : Signal α R)
    (hs : 0 < s.length) (x : α) :
    ∃ r, convolveOther mem (fullCorrelation mem) s (.vector 1 fun _ => x) = .ok r ∧ IsReversedScaled s x r := by
  obtain ⟨C, h1, h2, h3, h4⟩ := (fullCorrelation_computes mem).vector s.channels
    { rows := 1, cols := 1, get := fun _ _ => x } s.offset 0 hs (by show 0 < 1; omega) rfl
  have hl : C.cols = s.length := by rw [h3]; show s.length + 1 - 1 = _; omega
  refine ⟨new C s.rate (0 - s.offset - s.length + 1) (some s.labels), ?_, h2, hl, ?_⟩
  · unfold convolveOther convolveWithOther
    dsimp only
    rw [h1]; rfl
  · intro c t
    unfold at_ sample
    show (if 0 - s.offset - (s.length : Int) + 1 ≤ t then
      (if c < C.rows ∧ (t - (0 - s.offset - (s.length : Int) + 1)).toNat < C.cols then
        some (C.get c (t - (0 - s.offset - (s.length : Int) + 1)).toNat) else none) else none) = _
    rw [h2, hl]
    by_cases hc : c < s.count
    · by_cases hin : s.offset ≤ -t ∧ -t < s.offset + s.length
      · rw [if_pos (by omega), if_pos ⟨hc, by omega⟩, if_pos hin.1, if_pos ⟨hc, by omega⟩]
        rw [h4 c _ hc (by show _ < s.length + 1 - 1; omega)]
        show some (corrSum s.length 1 (s.channels.get c) (fun _ => x) _) = some (_ * x)
        rw [corrSum_one]
        · have e : (-(((0 : Nat) : Int) + ((t - (0 - s.offset - (s.length : Int) + 1)).toNat : Int) - (s.length : Int) + 1)).toNat
              = (-t - s.offset).toNat := by omega
          rw [← e]; rfl
        · show ((0 : Nat) : Int) + _ - (s.length : Int) + 1 ≤ 0; omega
        · show -(((0 : Nat) : Int) + _ - (s.length : Int) + 1) < (s.length : Int); omega
      · have e1 : (if s.offset ≤ -t then if c < s.count ∧ (-t - s.offset).toNat < s.length then
            some (s.channels.get c (-t - s.offset).toNat) else none else none) = none := by
          split
          · rw [if_neg (by omega)]
          · rfl
        rw [e1]
        split
        · rw [if_neg (by omega)]; rfl
        · rfl
    · have hc' : ¬ c < s.channels.rows := hc
      rw [if_neg (fun g : c < s.channels.rows ∧ _ => hc' g.1), if_neg (fun g : c < s.count ∧ _ => hc g.1)]
      simp

/-- **C99** is violated by correlating with a number: it does not reverse the signal, although correlating with an
array, that contains only this number, does. -/
theorem C99_correlation_violated :
    ∃ (s : Signal ℚ ℚ) (x : ℚ), 0 < s.length ∧ ∀ mem r, convolveOther mem (fullCorrelation mem) s (.scalar x) = .ok r →
      ¬ IsReversedScaled s x r := by
  refine ⟨new { rows := 1, cols := 2, get := fun _ j => j } 48000 0 none, 1, by decide, ?_⟩
  intro mem r hr h
  obtain ⟨r', h1, h2⟩ := C99_scalar mem (fullCorrelation mem)
    (new { rows := 1, cols := 2, get := fun _ j => j } 48000 0 none : Signal ℚ ℚ) 1
  rw [hr] at h1
  cases h1
  have h3 := h.samples 0 1
  rw [h2.samples 0 1] at h3
  revert h3
  have e1 : (new { rows := 1, cols := 2, get := fun _ j => j } 48000 0 none : Signal ℚ ℚ).at_ 0 1 = some 1 := by
    rw [at_eq_some]; exact ⟨by decide, by decide, by decide, by show ((1 : Nat) : ℚ) = 1; norm_num⟩
  have e2 : (new { rows := 1, cols := 2, get := fun _ j => j } 48000 0 none : Signal ℚ ℚ).at_ 0 (-1) = none := by
    unfold at_; rw [if_neg (by decide)]
  rw [e1, e2]
  simp

end Signal
end Verif
