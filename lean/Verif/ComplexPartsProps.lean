import Verif.ComplexParts
import Verif.SpectrumSliceProps
import Verif.SpectrumProps
import Mathlib.Analysis.Complex.Trigonometric

/-
Property C90: magnitude, phase, real and imaginary part, conjugation and negation of spectrums and spectrograms.
-/

namespace Verif

namespace Spectrum

/-- C90: the magnitude, the phase, the real and the imaginary part have the shape of the spectrum; magnitude and phase
are the polar coordinates of the samples, real and imaginary part the cartesian ones. -/
theorem C90_spectrum_parts (s : Spectrum ℂ ℝ) :
    (∀ A ∈ [s.magnitude, s.phase, s.real, s.imaginary], A.rows = s.count ∧ A.cols = s.length) ∧
    ∀ c k z, s.sample c k = some z →
      0 ≤ s.magnitude.get c k ∧ -Real.pi < s.phase.get c k ∧ s.phase.get c k ≤ Real.pi ∧
      s.magnitude.get c k * Complex.exp (s.phase.get c k * Complex.I) = z ∧
      s.real.get c k + s.imaginary.get c k * Complex.I = z ∧
      s.magnitude.get c k ^ 2 = s.real.get c k ^ 2 + s.imaginary.get c k ^ 2 := by
  constructor
  · intro A hA
    simp only [List.mem_cons, List.not_mem_nil, or_false] at hA
    rcases hA with rfl | rfl | rfl | rfl <;> exact ⟨rfl, rfl⟩
  · intro c k z h
    obtain ⟨_, _, rfl⟩ := sample_eq_some.mp h
    refine ⟨norm_nonneg _, Complex.neg_pi_lt_arg _, Complex.arg_le_pi _, Complex.norm_mul_exp_arg_mul_I _,
      Complex.re_add_im _, ?_⟩
    show ‖_‖ ^ 2 = Complex.re _ ^ 2 + Complex.im _ ^ 2
    rw [← Complex.normSq_eq_norm_sq, Complex.normSq_apply]
    ring

/-- C90: the phase is unique: every representation of a sample, that is not zero, by a positive magnitude and an angle
in the interval from -π (exclusive) to π (inclusive), is the one of `magnitude` and `phase`. -/
theorem C90_spectrum_polar_unique (s : Spectrum ℂ ℝ) (c k : Nat) (z : ℂ) (h : s.sample c k = some z) (r φ : ℝ)
    (hr : 0 < r) (h1 : -Real.pi < φ) (h2 : φ ≤ Real.pi) (hz : r * Complex.exp (φ * Complex.I) = z) :
    s.magnitude.get c k = r ∧ s.phase.get c k = φ := by
  obtain ⟨_, _, rfl⟩ := sample_eq_some.mp h
  constructor
  · show ‖_‖ = r
    rw [← hz, norm_mul, Complex.norm_exp_ofReal_mul_I, mul_one, Complex.norm_real, Real.norm_of_nonneg hr.le]
  · show Complex.arg _ = φ
    rw [← hz, Complex.exp_mul_I]
    exact Complex.arg_mul_cos_add_sin_mul_I hr ⟨h1, h2⟩

/-- what the operators, that return spectrums, leave unchanged -/
def Same {β γ : Type} (s : Spectrum β ℝ) (r : Spectrum γ ℝ) : Prop :=
  r.count = s.count ∧ r.length = s.length ∧ r.resolution = s.resolution ∧ r.labels = s.labels

theorem same_map {β γ : Type} (f : β → γ) (s : Spectrum β ℝ) (hs : s.WF) : Same s (s.mapSamples f) :=
  ⟨rfl, rfl, rfl, Signal.sanitize_self hs⟩

theorem sample_map {β γ : Type} (f : β → γ) (s : Spectrum β ℝ) (c k : Nat) (z : β) (h : s.sample c k = some z) :
    (s.mapSamples f).sample c k = some (f z) := by
  obtain ⟨h1, h2, rfl⟩ := sample_eq_some.mp h
  exact sample_eq_some.mpr ⟨h1, h2, rfl⟩

/-- C90: `abs`, `-` and `conjugate` keep everything but the samples; the magnitude is not changed by the negation and
the conjugation, the conjugation inverts the imaginary part, the negation both parts. -/
theorem C90_spectrum_operators (s : Spectrum ℂ ℝ) (hs : s.WF) :
    Same s s.abs ∧ Same s s.neg ∧ Same s s.conjugate ∧
    ∀ c k z, s.sample c k = some z →
      s.abs.sample c k = some (s.magnitude.get c k) ∧ s.neg.sample c k = some (-z) ∧
      s.conjugate.sample c k = some ⟨z.re, -z.im⟩ ∧
      s.conjugate.magnitude.get c k = s.magnitude.get c k ∧ s.neg.magnitude.get c k = s.magnitude.get c k := by
  refine ⟨same_map _ s hs, same_map _ s hs, same_map _ s hs, ?_⟩
  intro c k z h
  have e := (sample_eq_some.mp h).2.2
  refine ⟨?_, sample_map _ s c k z h, sample_map _ s c k z h, ?_, ?_⟩
  · have := sample_map (fun z => ‖z‖) s c k z h
    rw [← e] at this
    exact this
  · exact Complex.norm_conj _
  · exact norm_neg _

theorem neg_neg_channels (A : Mat ℂ) : (A.map fun z => -z).map (fun z => -z) = A := by
  cases A; simp [Mat.map]

theorem conj_conj_channels (A : Mat ℂ) : (A.map (starRingEnd ℂ)).map (starRingEnd ℂ) = A := by
  cases A; simp [Mat.map]

/-- C90: negating or conjugating twice returns the same spectrum. -/
theorem C90_spectrum_involution (s : Spectrum ℂ ℝ) (hs : s.WF) : s.neg.neg = s ∧ s.conjugate.conjugate = s := by
  have hl : ∀ f : ℂ → ℂ, ((s.mapSamples f).mapSamples f).labels = s.labels := by
    intro f
    have h1 : (s.mapSamples f).labels = s.labels := (same_map f s hs).2.2.2
    have h2 : (s.mapSamples f).WF := by
      show (s.mapSamples f).labels.length = s.count
      rw [h1]; exact hs
    exact ((same_map f _ h2).2.2.2).trans h1
  constructor
  · have h1 : s.neg.neg.channels = s.channels := neg_neg_channels s.channels
    have h2 : s.neg.neg.resolution = s.resolution := rfl
    have h3 : s.neg.neg.labels = s.labels := hl _
    cases s; cases hn : neg (neg _); simp_all
  · have h1 : s.conjugate.conjugate.channels = s.channels := conj_conj_channels s.channels
    have h2 : s.conjugate.conjugate.resolution = s.resolution := rfl
    have h3 : s.conjugate.conjugate.labels = s.labels := hl _
    cases s; cases hn : conjugate (conjugate _); simp_all

theorem bin_map (f : ℂ → ℂ) (s : Spectrum ℂ ℝ) (c k : Nat) : bin (s.mapSamples f) c k = (bin s c k).map f := by
  unfold bin
  show (if s.count = 1 ∨ c < s.count then some (f (s.channels.get (if s.count = 1 then 0 else c) k)) else none) = _
  split <;> rfl

theorem combine (mem : Nat → Nat → ℂ) (f : ℂ → ℂ → ℂ) (g : ℂ → ℂ) (pivot : Option ℂ) (label : String)
    (s : Spectrum ℂ ℝ) :
    ∃ r, algebra mem f pivot label s (s.mapSamples g) = .ok r ∧ r.count = s.count ∧ r.length = s.length ∧
      r.resolution = s.resolution ∧ ∀ c k z, s.sample c k = some z → r.sample c k = some (f z (g z)) := by
  obtain ⟨r, h1, h2, h3, h4, _, h5⟩ := C15_binwise_partial mem f pivot label s (s.mapSamples g) rfl
  have hc : r.count = s.count := by
    rw [h2]
    unfold resultCount
    show (if s.count = 1 then s.count else if s.count = 1 then s.count else max s.count s.count) = _
    split <;> simp
  refine ⟨r, h1, hc, h3, h4, ?_⟩
  intro c k z hz
  obtain ⟨q1, q2, rfl⟩ := sample_eq_some.mp hz
  refine sample_eq_some.mpr ⟨by omega, by omega, ?_⟩
  rw [h5 c k (by omega) (by omega), bin_map]
  have hb : bin s c k = some (s.channels.get c k) := by
    unfold bin
    rw [if_pos (Or.inr q1)]
    by_cases h : s.count = 1
    · rw [if_pos h, show c = 0 by omega]
    · rw [if_neg h]
  rw [hb]
  rfl

/-- C90: the product with the conjugate is the square of the magnitude and the sum with the negative spectrum is zero
(for the operators `*` and `+` of spectrums, `algebra`). -/
theorem C90_spectrum_products (mem : Nat → Nat → ℂ) (s : Spectrum ℂ ℝ) (pivot : Option ℂ) (label : String) :
    (∃ r, algebra mem (· * ·) pivot label s s.conjugate = .ok r ∧ r.count = s.count ∧ r.length = s.length ∧
      r.resolution = s.resolution ∧
      ∀ c k z, s.sample c k = some z → r.sample c k = some ((s.magnitude.get c k ^ 2 : ℝ) : ℂ)) ∧
    (∃ r, algebra mem (· + ·) pivot label s s.neg = .ok r ∧ r.count = s.count ∧ r.length = s.length ∧
      r.resolution = s.resolution ∧ ∀ c k z, s.sample c k = some z → r.sample c k = some 0) := by
  constructor
  · obtain ⟨r, h1, h2, h3, h4, h5⟩ := combine mem (· * ·) (starRingEnd ℂ) pivot label s
    refine ⟨r, h1, h2, h3, h4, fun c k z hz => (h5 c k z hz).trans ?_⟩
    obtain ⟨_, _, rfl⟩ := sample_eq_some.mp hz
    rw [Complex.mul_conj, Complex.normSq_eq_norm_sq]
    rfl
  · obtain ⟨r, h1, h2, h3, h4, h5⟩ := combine mem (· + ·) (fun z => -z) pivot label s
    refine ⟨r, h1, h2, h3, h4, fun c k z hz => (h5 c k z hz).trans ?_⟩
    rw [add_neg_cancel]

/-- the hypotheses of the theorems about spectrums -/
example : ∃ s : Spectrum ℂ ℝ, s.WF ∧ s.sample 1 2 = some (-Complex.I) ∧
    (0 : ℝ) < 1 ∧ -Real.pi < -(Real.pi / 2) ∧ -(Real.pi / 2) ≤ Real.pi ∧
    ((1 : ℝ) : ℂ) * Complex.exp ((-(Real.pi / 2) : ℝ) * Complex.I) = -Complex.I := by
  have := Real.pi_pos
  refine ⟨⟨⟨2, 3, fun _ _ => -Complex.I⟩, 1, ["a", "b"]⟩, rfl, rfl, one_pos, by linarith, by linarith, ?_⟩
  rw [Complex.exp_mul_I, ← Complex.ofReal_cos, ← Complex.ofReal_sin, Real.cos_neg, Real.sin_neg]
  simp

end Spectrum

namespace Spectrogram

/-- C90 for spectrograms: polar and cartesian coordinates -/
theorem C90_spectrogram_parts (s : Spectrogram ℂ ℝ) :
    (∀ A ∈ [s.magnitude, s.phase, s.real, s.imaginary], A.d0 = s.count ∧ A.d1 = s.freqs ∧ A.d2 = s.length) ∧
    ∀ c k i z, s.sample c k i = some z →
      0 ≤ s.magnitude.get c k i ∧ -Real.pi < s.phase.get c k i ∧ s.phase.get c k i ≤ Real.pi ∧
      s.magnitude.get c k i * Complex.exp (s.phase.get c k i * Complex.I) = z ∧
      s.real.get c k i + s.imaginary.get c k i * Complex.I = z ∧
      s.magnitude.get c k i ^ 2 = s.real.get c k i ^ 2 + s.imaginary.get c k i ^ 2 := by
  constructor
  · intro A hA
    simp only [List.mem_cons, List.not_mem_nil, or_false] at hA
    rcases hA with rfl | rfl | rfl | rfl <;> exact ⟨rfl, rfl, rfl⟩
  · intro c k i z h
    obtain ⟨_, _, _, rfl⟩ := sample_eq_some.mp h
    refine ⟨norm_nonneg _, Complex.neg_pi_lt_arg _, Complex.arg_le_pi _, Complex.norm_mul_exp_arg_mul_I _,
      Complex.re_add_im _, ?_⟩
    show ‖_‖ ^ 2 = Complex.re _ ^ 2 + Complex.im _ ^ 2
    rw [← Complex.normSq_eq_norm_sq, Complex.normSq_apply]
    ring

/-- what the operators, that return spectrograms, leave unchanged -/
def Same {β γ : Type} (s : Spectrogram β ℝ) (r : Spectrogram γ ℝ) : Prop :=
  r.count = s.count ∧ r.freqs = s.freqs ∧ r.length = s.length ∧ r.resolution = s.resolution ∧ r.rate = s.rate ∧
    r.offset = s.offset ∧ r.labels = s.labels

theorem same_map {β γ : Type} (f : β → γ) (s : Spectrogram β ℝ) (hs : s.WF) : Same s (s.mapSamples f) :=
  ⟨rfl, rfl, rfl, rfl, rfl, rfl, Signal.sanitize_self hs⟩

theorem sample_map {β γ : Type} (f : β → γ) (s : Spectrogram β ℝ) (c k i : Nat) (z : β)
    (h : s.sample c k i = some z) : (s.mapSamples f).sample c k i = some (f z) := by
  obtain ⟨h1, h2, h3, rfl⟩ := sample_eq_some.mp h
  exact sample_eq_some.mpr ⟨h1, h2, h3, rfl⟩

/-- C90 for spectrograms: `abs`, `-` and `conjugate` -/
theorem C90_spectrogram_operators (s : Spectrogram ℂ ℝ) (hs : s.WF) :
    Same s s.abs ∧ Same s s.neg ∧ Same s s.conjugate ∧
    ∀ c k i z, s.sample c k i = some z →
      s.abs.sample c k i = some (s.magnitude.get c k i) ∧ s.neg.sample c k i = some (-z) ∧
      s.conjugate.sample c k i = some ⟨z.re, -z.im⟩ ∧
      s.conjugate.magnitude.get c k i = s.magnitude.get c k i ∧
      s.neg.magnitude.get c k i = s.magnitude.get c k i := by
  refine ⟨same_map _ s hs, same_map _ s hs, same_map _ s hs, ?_⟩
  intro c k i z h
  have e := (sample_eq_some.mp h).2.2.2
  refine ⟨?_, sample_map _ s c k i z h, sample_map _ s c k i z h, ?_, ?_⟩
  · have := sample_map (fun z => ‖z‖) s c k i z h
    rw [← e] at this
    exact this
  · exact Complex.norm_conj _
  · exact norm_neg _

/-- C90 for spectrograms: negating or conjugating twice returns the same spectrogram. -/
theorem C90_spectrogram_involution (s : Spectrogram ℂ ℝ) (hs : s.WF) :
    s.neg.neg = s ∧ s.conjugate.conjugate = s := by
  have hl : ∀ f : ℂ → ℂ, ((s.mapSamples f).mapSamples f).labels = s.labels := by
    intro f
    have h1 : (s.mapSamples f).labels = s.labels := (same_map f s hs).2.2.2.2.2.2
    have h2 : (s.mapSamples f).WF := by
      show (s.mapSamples f).labels.length = s.count
      rw [h1]; exact hs
    exact ((same_map f _ h2).2.2.2.2.2.2).trans h1
  have hc : ∀ (f : ℂ → ℂ) (_ : ∀ z, f (f z) = z) (A : Cube ℂ), (A.map f).map f = A := by
    intro f hf A
    cases A
    simp [Cube.map, hf]
  have hall : ∀ (f : ℂ → ℂ) (_ : ∀ z, f (f z) = z), (s.mapSamples f).mapSamples f = s := by
    intro f hf
    have h1 : ((s.mapSamples f).mapSamples f).channels = s.channels := hc f hf s.channels
    have h2 := hl f
    have h3 : ((s.mapSamples f).mapSamples f).resolution = s.resolution := rfl
    have h4 : ((s.mapSamples f).mapSamples f).rate = s.rate := rfl
    have h5 : ((s.mapSamples f).mapSamples f).offset = s.offset := rfl
    cases s; cases hn : mapSamples f (mapSamples f _); simp_all
  exact ⟨hall _ neg_neg, hall _ Complex.conj_conj⟩

/-- the hypotheses of the theorems about spectrograms -/
example : ∃ s : Spectrogram ℂ ℝ, s.WF ∧ s.sample 1 2 0 = some (-Complex.I) :=
  ⟨⟨⟨2, 3, 1, fun _ _ _ => -Complex.I⟩, 1, 1, 0, ["a", "b"]⟩, rfl, rfl⟩

end Spectrogram
end Verif
