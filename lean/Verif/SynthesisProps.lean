import Verif.FourierProps
import Verif.SpectrumProps
import Verif.ComplexPartsProps

/-
C135: laws of the inverse Fourier transform.

The inverse Fourier transform evaluates a trigonometric polynomial, whose coefficients are the bins of the spectrum, at
the points in time of the samples. Padding or cropping the spectrum changes the sampling rate of the signal, but not the
polynomial.

/repo/sumpf/_data/_spectrums/_spectrum.py, lines 316-367.
-/

namespace Verif
namespace Fourier

open Finset Dft

/-! ### the polynomial -/

/-- the trigonometric polynomial with the coefficients `X 0`, …, `X M` for multiples of the frequency `r`; only the real
parts of the first and the last coefficient are used, because the polynomial has real values -/
noncomputable def wave (M : Nat) (X : Nat → ℂ) (r t : ℝ) : ℝ :=
  (X 0).re + (∑ k ∈ Ico 1 M, 2 * (X k * Complex.exp (2 * Real.pi * Complex.I * (k * r * t))).re) +
    (X M).re * Real.cos (2 * Real.pi * (M * r * t))

theorem hermitian_sum {M : Nat} (hM : 0 < M) (X : Nat → ℂ) (n : Nat) :
    (∑ k ∈ range (2 * M), hermitian M X k * omega (2 * M) ^ ((k : ℤ) * n)).re =
      (X 0).re + (∑ k ∈ Ico 1 M, 2 * (X k * omega (2 * M) ^ ((k : ℤ) * n)).re) +
        ((X M).re * omega (2 * M) ^ ((M : ℤ) * n)).re := by
  have hN : 2 * M ≠ 0 := by omega
  have h0 : hermitian M X 0 * omega (2 * M) ^ (((0 : Nat) : ℤ) * n) = ((X 0).re : ℂ) := by
    unfold hermitian
    rw [if_pos (.inl rfl)]
    simp
  have hm : hermitian M X M = ((X M).re : ℂ) := by
    unfold hermitian
    rw [if_pos (.inr rfl)]
  have hlow : ∑ k ∈ Ico 1 M, hermitian M X k * omega (2 * M) ^ ((k : ℤ) * n) =
      ∑ k ∈ Ico 1 M, X k * omega (2 * M) ^ ((k : ℤ) * n) := by
    refine sum_congr rfl fun k hk => ?_
    rw [mem_Ico] at hk
    unfold hermitian
    rw [if_neg (by omega), if_pos (by omega)]
  have hhigh : ∑ k ∈ Ico (M + 1) (2 * M), hermitian M X k * omega (2 * M) ^ ((k : ℤ) * n) =
      ∑ k ∈ Ico 1 M, (starRingEnd ℂ) (X k * omega (2 * M) ^ ((k : ℤ) * n)) := by
    refine sum_nbij' (fun k => 2 * M - k) (fun k => 2 * M - k) ?_ ?_ ?_ ?_ ?_
    · intro k hk; rw [mem_Ico] at *; omega
    · intro k hk; rw [mem_Ico] at *; omega
    · intro k hk; rw [mem_Ico] at *; omega
    · intro k hk; rw [mem_Ico] at *; omega
    · intro k hk
      rw [mem_Ico] at hk
      unfold hermitian
      rw [if_neg (by omega), if_neg (by omega), map_mul, conj_omega_zpow]
      congr 1
      rw [show (k : ℤ) * n = -(((2 * M - k : Nat) : ℤ) * n) + ((2 * M : Nat) : ℤ) * n by
        rw [Nat.cast_sub (by omega)]; ring, omega_period hN]
  have hsplit : ∑ k ∈ range (2 * M), hermitian M X k * omega (2 * M) ^ ((k : ℤ) * n) =
      ((X 0).re : ℂ) + ∑ k ∈ Ico 1 M, X k * omega (2 * M) ^ ((k : ℤ) * n) + (X M).re * omega (2 * M) ^ ((M : ℤ) * n) +
        ∑ k ∈ Ico 1 M, (starRingEnd ℂ) (X k * omega (2 * M) ^ ((k : ℤ) * n)) := by
    rw [range_eq_Ico, ← sum_Ico_consecutive _ (Nat.zero_le 1) (by omega : 1 ≤ 2 * M),
      ← sum_Ico_consecutive _ (by omega : 1 ≤ M) (by omega : M ≤ 2 * M),
      ← sum_Ico_consecutive _ (by omega : M ≤ M + 1) (by omega : M + 1 ≤ 2 * M), hlow, hhigh]
    rw [← range_eq_Ico, sum_range_one, h0, Nat.Ico_succ_singleton, sum_singleton, hm]
    ring
  rw [hsplit, Complex.add_re, Complex.add_re, Complex.add_re, Complex.ofReal_re, Complex.re_sum, Complex.re_sum]
  simp only [Complex.conj_re, ← mul_sum]
  ring

theorem omega_exp {M : Nat} (hM : 0 < M) {r : ℝ} (hr : r ≠ 0) (k n : Nat) :
    omega (2 * M) ^ ((k : ℤ) * n) = Complex.exp (2 * Real.pi * Complex.I * (k * r * ((n / (r * (2 * M : Nat)) : ℝ) : ℂ))) := by
  have h1 : (M : ℂ) ≠ 0 := Nat.cast_ne_zero.mpr (by omega)
  have h2 : (r : ℂ) ≠ 0 := Complex.ofReal_ne_zero.mpr hr
  rw [omega_zpow]
  congr 1
  push_cast
  field_simp

/-- the samples are the values of the polynomial at the times of the samples -/
theorem hermitian_wave {M : Nat} (hM : 0 < M) (X : Nat → ℂ) {r : ℝ} (hr : r ≠ 0) (n : Nat) :
    ((1 / ((2 * M : Nat) : ℂ)) * ∑ k ∈ range (2 * M), hermitian M X k * omega (2 * M) ^ ((k : ℤ) * n)).re =
      wave M X r (n / (r * (2 * M : Nat))) / (2 * M : Nat) := by
  rw [show (1 / ((2 * M : Nat) : ℂ)) = ((1 / ((2 * M : Nat) : ℝ) : ℝ) : ℂ) by push_cast; rfl, Complex.re_ofReal_mul,
    hermitian_sum hM, one_div, inv_mul_eq_div]
  congr 1
  unfold wave
  congr 1
  · congr 1
    refine sum_congr rfl fun k _ => ?_
    rw [omega_exp hM hr]
  · rw [omega_exp hM hr, Complex.re_ofReal_mul]
    congr 1
    rw [show (2 * Real.pi * Complex.I * (M * r * ((n / (r * (2 * M : Nat)) : ℝ) : ℂ)) : ℂ) =
      ((2 * Real.pi * (M * r * (n / (r * (2 * M : Nat)))) : ℝ) : ℂ) * Complex.I by push_cast; ring,
      Complex.exp_ofReal_mul_I_re]

/-- the result of the inverse transform in terms of numpy's -/
theorem inverse_ok (mem : Nat → Nat → ℝ) (a : Spectrum ℂ ℝ) (hl : a.WF) (hn : 2 ≤ a.length) :
    ∃ b E, inverseFourierTransform mem a = .ok b ∧ a.channels.irfft = .ok E ∧ b.count = a.count ∧
      b.length = 2 * (a.length - 1) ∧ b.rate = a.resolution * b.length ∧ b.offset = 0 ∧ b.labels = a.labels ∧
      ∀ c n, c < b.count → n < b.length → b.channels.get c n = E.get c n := by
  have hn' : 2 ≤ a.channels.cols := hn
  have hlen : max 1 ((a.length - 1) * 2) = 2 * (a.length - 1) := by omega
  obtain ⟨E, hE, e1, e2⟩ : ∃ E, a.channels.irfft = .ok E ∧ E.rows = a.channels.rows ∧
      E.cols = 2 * (a.channels.cols - 1) := by
    unfold Mat.irfft
    rw [if_neg (by omega)]
    exact ⟨_, rfl, rfl, rfl⟩
  obtain ⟨D, h1, h2, h3, h4⟩ := assign_full (A := alloc mem a.count (2 * (a.length - 1))) (B := E) e1 e2
  refine ⟨Signal.new D (a.resolution * (2 * (a.length - 1) : Nat)) 0 (some a.labels), E, ?_, hE, h2, h3, ?_, rfl, ?_, ?_⟩
  · unfold inverseFourierTransform
    rw [if_neg (show ¬a.length = 0 by omega)]
    dsimp only
    rw [hlen]
    unfold irfftN
    rw [if_neg (by omega), hE]
    show (Mat.assign _ _ _ _ >>= _) = _
    rw [h1]
    rfl
  · show a.resolution * _ = a.resolution * ((D.cols : Nat) : ℝ)
    rw [h3]
    rfl
  · exact Signal.sanitize_self (by rw [h2]; exact hl)
  · intro c n hc hn
    exact h4 c n (by rw [← h2]; exact hc) (by rw [← h3]; exact hn)

/-- C135: The samples of the inverse Fourier transform are the values of the polynomial, that is given by the bins of the
spectrum, at the times of the samples. -/
theorem C135_values (mem : Nat → Nat → ℝ) (a : Spectrum ℂ ℝ) (hl : a.WF) (hn : 2 ≤ a.length) (hr : a.resolution ≠ 0) :
    ∃ b, inverseFourierTransform mem a = .ok b ∧ b.count = a.count ∧ b.length = 2 * (a.length - 1) ∧
      b.rate = a.resolution * b.length ∧ b.offset = 0 ∧ b.labels = a.labels ∧
      ∀ c n, c < b.count → n < b.length →
        b.channels.get c n = wave (a.length - 1) (a.channels.get c) a.resolution (n / b.rate) / b.length := by
  obtain ⟨b, E, h1, h2, h3, h4, h5, h6, h7, h8⟩ := inverse_ok mem a hl hn
  refine ⟨b, h1, h3, h4, h5, h6, h7, ?_⟩
  intro c n hc hi
  rw [h8 c n hc hi, h5, h4]
  have hn' : 2 ≤ a.channels.cols := hn
  unfold Mat.irfft at h2
  rw [if_neg (by omega)] at h2
  cases h2
  exact hermitian_wave (M := a.channels.cols - 1) (by omega) _ hr n

/-- a spectrum with two channels -/
example : ∃ a : Spectrum ℂ ℝ, a.WF ∧ 2 ≤ a.length ∧ a.resolution ≠ 0 :=
  ⟨⟨⟨2, 5, fun c i => c + i⟩, 3, ["a", "b"]⟩, rfl, by decide, by norm_num⟩

/-! ### laws of the transform -/

theorem wave_congr {M : Nat} {X Y : Nat → ℂ} (h : ∀ k, k ≤ M → X k = Y k) (r t : ℝ) : wave M X r t = wave M Y r t := by
  unfold wave
  rw [h 0 (by omega), h M le_rfl]
  congr 2
  refine sum_congr rfl fun k hk => ?_
  rw [mem_Ico] at hk
  rw [h k (by omega)]

theorem wave_add (M : Nat) (X Y : Nat → ℂ) (r t : ℝ) :
    wave M (fun k => X k + Y k) r t = wave M X r t + wave M Y r t := by
  unfold wave
  simp only [add_mul, Complex.add_re, mul_add, sum_add_distrib]
  ring

theorem wave_real (M : Nat) (X : Nat → ℂ) (g r t : ℝ) : wave M (fun k => (g : ℂ) * X k) r t = g * wave M X r t := by
  unfold wave
  simp only [mul_assoc, Complex.re_ofReal_mul, mul_add, mul_sum]
  congr 2
  refine sum_congr rfl fun k _ => ?_
  ring

theorem wave_conj (M : Nat) (X : Nat → ℂ) (r t : ℝ) :
    wave M (fun k => (starRingEnd ℂ) (X k)) r t = wave M X r (-t) := by
  unfold wave
  simp only [Complex.conj_re]
  congr 1
  · congr 1
    refine sum_congr rfl fun k _ => ?_
    congr 1
    rw [← Complex.conj_re, map_mul, Complex.conj_conj, ← Complex.exp_conj]
    congr 3
    simp only [map_mul, Complex.conj_I, Complex.conj_ofReal, map_ofNat, map_natCast]
    push_cast
    ring
  · rw [← Real.cos_neg]
    congr 2
    ring

/-- the polynomial is periodic -/
theorem wave_period (M : Nat) (X : Nat → ℂ) {r : ℝ} (hr : r ≠ 0) (t : ℝ) (m : ℤ) :
    wave M X r (t + m / r) = wave M X r t := by
  have h2 : (r : ℂ) ≠ 0 := Complex.ofReal_ne_zero.mpr hr
  unfold wave
  congr 1
  · congr 1
    refine sum_congr rfl fun k _ => ?_
    congr 3
    rw [show (2 * Real.pi * Complex.I * (k * r * ((t + m / r : ℝ) : ℂ)) : ℂ) =
      2 * Real.pi * Complex.I * (k * r * t) + ((k * m : ℤ) : ℂ) * (2 * Real.pi * Complex.I) by
        push_cast; field_simp, Complex.exp_add, Complex.exp_int_mul_two_pi_mul_I, mul_one]
  · congr 1
    rw [show 2 * Real.pi * (M * r * (t + m / r)) = 2 * Real.pi * (M * r * t) + ((M * m : ℤ) : ℝ) * (2 * Real.pi) by
      push_cast; field_simp, Real.cos_add_int_mul_two_pi]

theorem bin_get {R : Type} (s : Spectrum ℂ R) {c : Nat} (hc : c < s.count) (k : Nat) :
    s.bin c k = some (s.channels.get c k) := by
  unfold Spectrum.bin
  rw [if_pos (.inr hc)]
  split
  next h =>
    congr 2
    omega
  next => rfl

/-- spectrums of the same shape -/
theorem algebra_same (m : Nat → Nat → ℂ) (f : ℂ → ℂ → ℂ) (pivot : Option ℂ) (label : String) (a b : Spectrum ℂ ℝ)
    (hc : b.count = a.count) (hn : b.length = a.length) :
    ∃ s, Spectrum.algebra m f pivot label a b = .ok s ∧ s.WF ∧ s.count = a.count ∧ s.length = a.length ∧
      s.resolution = a.resolution ∧ ∀ c k, c < a.count → k < a.length →
        s.channels.get c k = f (a.channels.get c k) (b.channels.get c k) := by
  obtain ⟨s, h1, h2, h3, h4, h5, h6⟩ := Spectrum.C15_binwise_partial m f pivot label a b hn
  have hs : s.count = a.count := by
    rw [h2]
    unfold Spectrum.resultCount
    split_ifs <;> omega
  refine ⟨s, h1, ?_, hs, h3, h4, ?_⟩
  · show s.labels.length = s.count
    rw [h5, List.length_replicate]
  · intro c k hc' hk
    rw [h6 c k (by omega) (by omega), bin_get a hc', bin_get b (by omega)]

/-- C135: The inverse Fourier transform of a sum of spectrums is the sum of their inverse Fourier transforms. -/
theorem C135_sum (m1 : Nat → Nat → ℂ) (m2 m3 m4 : Nat → Nat → ℝ) (pivot : Option ℂ) (label : String)
    (a b : Spectrum ℂ ℝ) (ha : a.WF) (hb : b.WF) (hc : b.count = a.count) (hn : b.length = a.length)
    (hr : b.resolution = a.resolution) (h2 : 2 ≤ a.length) (h0 : a.resolution ≠ 0) :
    ∃ s x y z, Spectrum.algebra m1 (· + ·) pivot label a b = .ok s ∧ inverseFourierTransform m2 a = .ok x ∧
      inverseFourierTransform m3 b = .ok y ∧ inverseFourierTransform m4 s = .ok z ∧ z.count = x.count ∧
      z.length = x.length ∧ z.rate = x.rate ∧ z.offset = x.offset ∧
      ∀ c n, c < z.count → n < z.length → z.channels.get c n = x.channels.get c n + y.channels.get c n := by
  obtain ⟨s, s1, s2, s3, s4, s5, s6⟩ := algebra_same m1 (· + ·) pivot label a b hc hn
  obtain ⟨x, x1, x2, x3, x4, x5, -, x6⟩ := C135_values m2 a ha h2 h0
  obtain ⟨y, y1, y2, y3, y4, y5, -, y6⟩ := C135_values m3 b hb (by omega) (by rw [hr]; exact h0)
  obtain ⟨z, z1, z2, z3, z4, z5, -, z6⟩ := C135_values m4 s s2 (by omega) (by rw [s5]; exact h0)
  have e1 : z.length = x.length := by omega
  have e2 : y.length = x.length := by omega
  have e3 : z.rate = x.rate := by rw [z4, x4, s5, e1]
  have e4 : y.rate = x.rate := by rw [y4, x4, hr, e2]
  refine ⟨s, x, y, z, s1, x1, y1, z1, by omega, e1, e3, by rw [z5, x5], ?_⟩
  intro c n hc' hn'
  rw [z6 c n hc' hn', x6 c n (by omega) (by omega), y6 c n (by omega) (by omega), e1, e2, e3, e4, ← add_div, s4, hn, hr,
    s5, ← wave_add]
  congr 1
  exact wave_congr (fun k hk => s6 c k (by omega) (by omega)) _ _

example : ∃ a b : Spectrum ℂ ℝ, a.WF ∧ b.WF ∧ b.count = a.count ∧ b.length = a.length ∧ b.resolution = a.resolution ∧
    2 ≤ a.length ∧ a.resolution ≠ 0 :=
  ⟨⟨⟨2, 5, fun c i => c + i⟩, 3, ["a", "b"]⟩, ⟨⟨2, 5, fun c i => c * i⟩, 3, ["a", "b"]⟩, rfl, rfl, rfl, rfl, rfl, by decide,
    by norm_num⟩

/-- C135: The inverse Fourier transform of a conjugated spectrum is reversed in time. -/
theorem C135_conjugate (m1 m2 : Nat → Nat → ℝ) (a : Spectrum ℂ ℝ) (ha : a.WF) (h2 : 2 ≤ a.length)
    (h0 : a.resolution ≠ 0) :
    ∃ x z, inverseFourierTransform m1 a = .ok x ∧ inverseFourierTransform m2 a.conjugate = .ok z ∧ z.count = x.count ∧
      z.length = x.length ∧ z.rate = x.rate ∧ z.offset = x.offset ∧ z.labels = x.labels ∧
      ∀ c n, c < z.count → n < z.length →
        z.channels.get c n = x.channels.get c ((-(n : ℤ)) % (z.length : ℤ)).toNat := by
  have hs := Spectrum.same_map (starRingEnd ℂ) a ha
  have hw : a.conjugate.WF := by
    show a.conjugate.labels.length = a.conjugate.count
    rw [show a.conjugate.labels = a.labels from hs.2.2.2]
    exact ha
  obtain ⟨x, x1, x2, x3, x4, x5, x7, x6⟩ := C135_values m1 a ha h2 h0
  obtain ⟨z, z1, z2, z3, z4, z5, z7, z6⟩ := C135_values m2 a.conjugate hw h2 h0
  have e1 : z.length = x.length := z3.trans x3.symm
  have e3 : z.rate = x.rate := by
    rw [z4, x4, e1]
    rfl
  refine ⟨x, z, x1, z1, z2.trans x2.symm, e1, e3, by rw [z5, x5], z7.trans (hs.2.2.2.trans x7.symm), ?_⟩
  intro c n hc hn
  have hp : (z.length : ℤ) ≠ 0 := by omega
  have q0 := Int.emod_nonneg (-(n : ℤ)) hp
  have q1 := Int.emod_lt_of_pos (-(n : ℤ)) (show (0 : ℤ) < z.length by omega)
  have hlen : (x.length : ℝ) ≠ 0 := Nat.cast_ne_zero.mpr (by omega)
  rw [z6 c n hc hn, x6 c _ (by rw [x2]; exact z2 ▸ hc) (by omega), e1, e3]
  congr 1
  refine (wave_conj _ _ _ _).trans ?_
  have hdiv := Int.emod_add_mul_ediv (-(n : ℤ)) z.length
  have : (((-(n : ℤ)) % (z.length : ℤ)).toNat : ℝ) = -n - x.length * (((-(n : ℤ)) / (z.length : ℤ) : ℤ) : ℝ) := by
    have e : ((((-(n : ℤ)) % (z.length : ℤ)).toNat : ℤ) : ℝ) = ((-(n : ℤ) - z.length * ((-(n : ℤ)) / (z.length : ℤ)) : ℤ) : ℝ) := by
      rw [Int.toNat_of_nonneg q0]
      congr 1
      linarith
    rw [Int.cast_natCast] at e
    rw [e, e1]
    push_cast
    rfl
  show wave (a.length - 1) (a.channels.get c) a.resolution _ = _
  rw [← e1, this, ← wave_period _ _ h0 (-(n / x.rate)) (-((-(n : ℤ)) / (z.length : ℤ)))]
  congr 1
  rw [x4]
  push_cast
  field_simp
  ring

/-- C135: If the first and the last bins are real numbers, as in the spectrums of signals, the inverse Fourier transform
of a product of spectrums is the cyclic convolution of their inverse Fourier transforms. -/
theorem C135_product (m1 : Nat → Nat → ℂ) (m2 m3 m4 : Nat → Nat → ℝ) (pivot : Option ℂ) (label : String)
    (a b : Spectrum ℂ ℝ) (ha : a.WF) (hb : b.WF) (hc : b.count = a.count) (hn : b.length = a.length)
    (hr : b.resolution = a.resolution) (h2 : 2 ≤ a.length) (hm : 1 ≤ a.count) (h0 : a.resolution ≠ 0)
    (ra : ∀ c k, c < a.count → k = 0 ∨ k = a.length - 1 → (a.channels.get c k).im = 0)
    (rb : ∀ c k, c < b.count → k = 0 ∨ k = b.length - 1 → (b.channels.get c k).im = 0) :
    ∃ s x y z, Spectrum.algebra m1 (· * ·) pivot label a b = .ok s ∧ inverseFourierTransform m2 a = .ok x ∧
      inverseFourierTransform m3 b = .ok y ∧ inverseFourierTransform m4 s = .ok z ∧ z.count = x.count ∧
      z.length = x.length ∧ z.rate = x.rate ∧ z.offset = x.offset ∧
      ∀ c n, c < z.count → n < z.length → z.channels.get c n = ∑ j ∈ range z.length,
        x.channels.get c j * y.channels.get c (((n : ℤ) - j) % (z.length : ℤ)).toNat := by
  have key : ∀ (m : Nat → Nat → ℝ) (a : Spectrum ℂ ℝ), a.WF → 2 ≤ a.length → 1 ≤ a.count → a.resolution ≠ 0 →
      (∀ c k, c < a.count → k = 0 ∨ k = a.length - 1 → (a.channels.get c k).im = 0) →
      ∃ x, inverseFourierTransform m a = .ok x ∧ x.count = a.count ∧ x.length = 2 * (a.length - 1) ∧
        x.rate = a.resolution * x.length ∧ x.offset = 0 ∧
        ∀ c k, c < a.count → k < a.length → a.channels.get c k = dft x.length (x.channels.get c) k := by
    intro m a ha h2 hm h0 ra
    obtain ⟨x, d, x1, d1, d2, -, -⟩ := C52_spectrum_exact (fun _ _ => 0) m a ha hm h2 h0 (fun c hc => ra c 0 hc (.inl rfl))
      (fun c hc => ra c _ hc (.inr rfl))
    obtain ⟨x', x1', x2, x3, x4, x5, x6, -⟩ := C135_values m a ha h2 h0
    obtain rfl : x = x' := by
      rw [x1] at x1'
      injection x1'
    refine ⟨x, x1, x2, x3, x4, x5, ?_⟩
    have hxr : x.rate ≠ 0 := by
      rw [x4]
      exact mul_ne_zero h0 (Nat.cast_ne_zero.mpr (by omega))
    have hxc : x.channels.rows = a.count := x2
    have hxl : x.channels.cols = 2 * (a.length - 1) := x3
    obtain ⟨d', d1', -, -, d3, -, d4⟩ := C52_transform (fun _ _ => 0) x
      (by rw [x6]; exact ha.trans x2.symm) (by omega) (by omega) hxr
    obtain rfl : d = d' := by
      rw [d1] at d1'
      injection d1'
    intro c k hc' hk
    obtain ⟨g1, g2, g3⟩ := d2
    rw [← g3 c k (by rw [g1]; exact hc') (by rw [g2]; exact hk), d4 c k (by omega) (by omega)]
    unfold dft
    refine sum_congr rfl fun j _ => ?_
    rw [omega_zpow, d3, x5]
    congr 2
    have hL : (x.channels.cols : ℂ) ≠ 0 := Nat.cast_ne_zero.mpr (by omega)
    have hrc : (x.rate : ℂ) ≠ 0 := Complex.ofReal_ne_zero.mpr hxr
    show _ = 2 * (Real.pi : ℂ) * Complex.I * ((-((k : ℤ) * j) : ℤ) : ℂ) / (x.channels.cols : ℂ)
    push_cast
    field_simp
    ring
  obtain ⟨s, s1, s2, s3, s4, s5, s6⟩ := algebra_same m1 (· * ·) pivot label a b hc hn
  obtain ⟨x, x1, x2, x3, x4, x5, x6⟩ := key m2 a ha h2 hm h0 ra
  obtain ⟨y, y1, y2, y3, y4, y5, y6⟩ := key m3 b hb (by omega) (by omega) (by rw [hr]; exact h0) rb
  obtain ⟨z, E, z1, zE, z2, z3, z4, z5, -, z6⟩ := inverse_ok m4 s s2 (by omega)
  have e1 : z.length = x.length := by omega
  have e2 : y.length = x.length := by omega
  have e3 : z.rate = x.rate := by rw [z4, x4, s5, e1]
  refine ⟨s, x, y, z, s1, x1, y1, z1, by omega, e1, e3, by rw [z5, x5], ?_⟩
  intro c n hc' hn'
  have hcols : s.channels.cols = (a.length - 1) + 1 := by
    have : s.channels.cols = a.length := s4
    omega
  have hL : x.length = 2 * (a.length - 1) := x3
  obtain ⟨B, b1, -, -, b4⟩ := Mat.irfft_product s.channels (a.length - 1) (by omega) hcols c (x.channels.get c)
    (y.channels.get c) 1 (.inl rfl) (by
      intro k hk
      rw [s6 c k (by omega) (by omega), x6 c k (by omega) (by omega), y6 c k (by omega) (by omega), e2, hL, one_mul])
  obtain rfl : E = B := by
    rw [zE] at b1
    injection b1
  rw [z6 c n hc' hn', b4 n, e1, hL]
  refine sum_congr rfl fun j _ => ?_
  rw [one_mul]

/-- spectrums of signals -/
example : ∃ a : Spectrum ℂ ℝ, a.WF ∧ 2 ≤ a.length ∧ 1 ≤ a.count ∧ a.resolution ≠ 0 ∧
    (∀ c k, c < a.count → k = 0 ∨ k = a.length - 1 → (a.channels.get c k).im = 0) ∧ (a.channels.get 0 1).im ≠ 0 := by
  refine ⟨⟨⟨1, 3, fun _ i => if i = 1 then Complex.I else 2⟩, 3, ["a"]⟩, rfl, by decide, by decide, by norm_num, ?_, ?_⟩
  · rintro c k - (rfl | rfl)
    · norm_num
    · show ((if 3 - 1 = 1 then Complex.I else 2 : ℂ)).im = 0
      norm_num
  · simp

/-- Without this condition, the product of the spectrums is not the cyclic convolution, because the inverse Fourier
transform discards the imaginary parts of the first and the last bin (the imaginary unit in the bin for 0 Hz stands for a
signal, that is zero, but its square does not). -/
theorem product_condition :
    ∃ a s : Spectrum ℂ ℝ, ∃ x z : Signal ℝ ℝ, a.WF ∧ a.length = 2 ∧
      (∀ m label, ∃ s', Spectrum.algebra m (· * ·) none label a a = .ok s' ∧ s'.channels.get 0 0 = s.channels.get 0 0) ∧
      Spectrum.algebra (fun _ _ => 0) (· * ·) none "Product" a a = .ok s ∧
      inverseFourierTransform (fun _ _ => 0) a = .ok x ∧ inverseFourierTransform (fun _ _ => 0) s = .ok z ∧
      (∀ n, n < 2 → x.channels.get 0 n = 0) ∧ z.channels.get 0 0 = -1 / 2 := by
  obtain ⟨a, ha⟩ : ∃ a : Spectrum ℂ ℝ, a = ⟨⟨1, 2, fun _ i => if i = 0 then Complex.I else 0⟩, 1, ["a"]⟩ := ⟨_, rfl⟩
  have hw : a.WF := by rw [ha]; rfl
  have hn : a.length = 2 := by rw [ha]; rfl
  have hc : a.count = 1 := by rw [ha]; rfl
  have hr : a.resolution ≠ 0 := by rw [ha]; norm_num
  have g0 : a.channels.get 0 0 = Complex.I := by rw [ha]; rfl
  have g1 : a.channels.get 0 1 = 0 := by rw [ha]; rfl
  obtain ⟨s, s1, s2, s3, s4, s5, s6⟩ := algebra_same (fun _ _ => 0) (· * ·) none "Product" a a rfl rfl
  have t0 := s6 0 0 (by omega) (by omega)
  have t1 := s6 0 1 (by omega) (by omega)
  rw [g0, Complex.I_mul_I] at t0
  rw [g1, mul_zero] at t1
  obtain ⟨x, x1, x2, x3, x4, x5, -, x6⟩ := C135_values (fun _ _ => 0) a hw (by omega) hr
  obtain ⟨z, z1, z2, z3, z4, z5, -, z6⟩ := C135_values (fun _ _ => 0) s s2 (by omega) (by rw [s5]; exact hr)
  refine ⟨a, s, x, z, hw, hn, ?_, s1, x1, z1, ?_, ?_⟩
  · intro m label
    obtain ⟨s', s1', -, -, -, -, s6'⟩ := algebra_same m (· * ·) none label a a rfl rfl
    refine ⟨s', s1', ?_⟩
    rw [s6' 0 0 (by omega) (by omega), g0, t0, Complex.I_mul_I]
  · intro n hn'
    rw [x6 0 n (by omega) (by omega), hn]
    unfold wave
    rw [show 2 - 1 = 1 from rfl, g0, g1]
    simp
  · rw [z6 0 0 (by omega) (by omega), z3, s4, hn]
    unfold wave
    rw [show 2 - 1 = 1 from rfl, t0, t1]
    norm_num

/-! ### resampling -/

/-- the polynomial does not depend on bins, that are zero -/
theorem wave_pad {M K : Nat} (hM : 1 ≤ M) (hMK : M ≤ K) {X Y : Nat → ℂ} (hXY : ∀ k, k < M → Y k = X k)
    (hX : (X M).re = 0) (hY : ∀ k, M ≤ k → k ≤ K → Y k = 0) (r t : ℝ) : wave K Y r t = wave M X r t := by
  unfold wave
  rw [hXY 0 (by omega), hX, hY K hMK le_rfl, Complex.zero_re, ← sum_Ico_consecutive _ hM hMK]
  have h1 : ∑ k ∈ Ico M K, 2 * (Y k * Complex.exp (2 * Real.pi * Complex.I * (k * r * t))).re = 0 := by
    refine sum_eq_zero fun k hk => ?_
    rw [mem_Ico] at hk
    rw [hY k hk.1 hk.2.le]
    simp
  rw [h1, add_zero, zero_mul, zero_mul]
  congr 2
  refine sum_congr rfl fun k hk => ?_
  rw [mem_Ico] at hk
  rw [hXY k (by omega)]

/-- C135: If the bins of a spectrum are zero from the last bin of the shorter one of the two lengths on, padding or cropping
the spectrum resamples its inverse Fourier transform with the sampling rate, that corresponds to the new length: The samples
of both signals are values of the same polynomial, except for a scaling factor, which is the ratio of their lengths. -/
theorem C135_resampling (m1 : Nat → Nat → ℂ) (m2 m3 : Nat → Nat → ℝ) (a : Spectrum ℂ ℝ) (ha : a.WF) (length : Nat)
    (h2 : 2 ≤ a.length) (hl2 : 2 ≤ length) (h0 : a.resolution ≠ 0)
    (hz : ∀ c k, c < a.count → k < a.length → min a.length length ≤ k + 1 → a.channels.get c k = 0) :
    ∃ p x z, a.pad m1 length 0 = .ok p ∧ inverseFourierTransform m2 a = .ok x ∧ inverseFourierTransform m3 p = .ok z ∧
      z.count = x.count ∧ x.length = 2 * (a.length - 1) ∧ z.length = 2 * (length - 1) ∧ z.offset = x.offset ∧
      z.labels = x.labels ∧ z.rate / z.length = x.rate / x.length ∧
      ∀ c, c < x.count →
        (∀ n, n < x.length → x.channels.get c n =
          wave (a.length - 1) (a.channels.get c) a.resolution (n / x.rate) / x.length) ∧
        ∀ n, n < z.length → z.channels.get c n =
          x.length / z.length * (wave (a.length - 1) (a.channels.get c) a.resolution (n / z.rate) / x.length) := by
  obtain ⟨p, p1, p2, p3, p4, p5, p6⟩ := Spectrum.C05_spectrum_pad m1 a ha length 0
  have pw : p.WF := by
    show p.labels.length = p.count
    rw [p5, p2]
    exact ha
  obtain ⟨x, x1, x2, x3, x4, x5, x7, x6⟩ := C135_values m2 a ha h2 h0
  obtain ⟨z, z1, z2, z3, z4, z5, z7, z6⟩ := C135_values m3 p pw (by omega) (by rw [p4]; exact h0)
  have hx : (x.length : ℝ) ≠ 0 := Nat.cast_ne_zero.mpr (by omega)
  have hz' : (z.length : ℝ) ≠ 0 := Nat.cast_ne_zero.mpr (by omega)
  refine ⟨p, x, z, p1, x1, z1, by omega, x3, by omega, by rw [z5, x5], by rw [z7, x7, p5], ?_, ?_⟩
  · rw [z4, x4, p4, mul_div_assoc, mul_div_assoc, div_self hx, div_self hz']
  intro c hc
  refine ⟨fun n hn => x6 c n hc hn, ?_⟩
  intro n hn
  have hw : wave (p.length - 1) (p.channels.get c) a.resolution (n / z.rate) =
      wave (a.length - 1) (a.channels.get c) a.resolution (n / z.rate) := by
    rw [p3]
    by_cases hL : a.length ≤ length
    · refine wave_pad (by omega) (by omega) ?_ ?_ ?_ _ _
      · intro k hk
        rw [p6 c k (by omega) (by omega), if_pos (by omega)]
      · rw [hz c _ (by omega) (by omega) (by omega), Complex.zero_re]
      · intro k hk hk'
        rw [p6 c k (by omega) (by omega)]
        split
        next h => exact hz c k (by omega) (by omega) (by omega)
        next => rfl
    · refine (wave_pad (by omega) (by omega) ?_ ?_ ?_ _ _).symm
      · intro k hk
        rw [p6 c k (by omega) (by omega), if_pos (by omega)]
      · rw [p6 c _ (by omega) (by omega), if_pos (by omega), hz c _ (by omega) (by omega) (by omega), Complex.zero_re]
      · intro k hk hk'
        exact hz c k (by omega) (by omega) (by omega)
  rw [z6 c n (by omega) hn, p4, hw]
  field_simp

example : ∃ a : Spectrum ℂ ℝ, a.WF ∧ 2 ≤ a.length ∧ a.resolution ≠ 0 ∧
    (∀ c, c < a.count → a.channels.get c (a.length - 1) = 0) ∧ a.channels.get 0 1 ≠ 0 := by
  refine ⟨⟨⟨1, 3, fun _ i => if i = 1 then Complex.I else 0⟩, 3, ["a"]⟩, rfl, by decide, by norm_num, ?_, ?_⟩
  · intro c _
    show (if 3 - 1 = 1 then Complex.I else 0 : ℂ) = 0
    norm_num
  · simp

/-- C135: Padding the spectrum with zeros to the `m`-fold number of frequencies keeps each sample as every `m`-th sample
of the new signal, except for the scaling factor. -/
theorem C135_upsampling (m1 : Nat → Nat → ℂ) (m2 m3 : Nat → Nat → ℝ) (a : Spectrum ℂ ℝ) (ha : a.WF) (m : Nat) (hm : 1 ≤ m)
    (h2 : 2 ≤ a.length) (h0 : a.resolution ≠ 0)
    (hlast : ∀ c, c < a.count → a.channels.get c (a.length - 1) = 0) :
    ∃ p x z, a.pad m1 (m * (a.length - 1) + 1) 0 = .ok p ∧ inverseFourierTransform m2 a = .ok x ∧
      inverseFourierTransform m3 p = .ok z ∧ z.count = x.count ∧ z.length = m * x.length ∧ z.rate = m * x.rate ∧
      ∀ c n, c < x.count → n < x.length → z.channels.get c (m * n) = x.channels.get c n / m := by
  have hle : a.length ≤ m * (a.length - 1) + 1 := by
    have := Nat.mul_le_mul_right (a.length - 1) hm
    omega
  obtain ⟨p, x, z, p1, x1, z1, h3, x3, h4, -, -, h5, w⟩ := C135_resampling m1 m2 m3 a ha (m * (a.length - 1) + 1) h2
    (by omega) h0 (by
      intro c k hc hk hk'
      rw [show k = a.length - 1 by omega]
      exact hlast c hc)
  have hz : z.length = m * x.length := by
    rw [h4, x3, Nat.add_sub_cancel]
    ring
  have hx0 : (x.length : ℝ) ≠ 0 := Nat.cast_ne_zero.mpr (by omega)
  have hm0 : (m : ℝ) ≠ 0 := Nat.cast_ne_zero.mpr (by omega)
  have hrate : z.rate = m * x.rate := by
    rw [hz] at h5
    push_cast at h5
    field_simp at h5
    linarith
  refine ⟨p, x, z, p1, x1, z1, h3, hz, hrate, ?_⟩
  intro c n hc hn
  have hmn : m * n < z.length := by
    rw [hz]
    exact Nat.mul_lt_mul_of_pos_left hn (by omega)
  rw [(w c hc).2 _ hmn, (w c hc).1 n hn, hrate, hz]
  push_cast
  rw [mul_div_mul_left _ _ hm0]
  field_simp

example : ∃ a : Spectrum ℂ ℝ, ∃ m : Nat, 1 ≤ m ∧ a.WF ∧ 2 ≤ a.length ∧ a.resolution ≠ 0 ∧
    (∀ c, c < a.count → a.channels.get c (a.length - 1) = 0) := by
  refine ⟨⟨⟨1, 3, fun _ i => if i = 1 then Complex.I else 0⟩, 3, ["a"]⟩, 4, by decide, rfl, by decide, by norm_num, ?_⟩
  intro c _
  show (if 3 - 1 = 1 then Complex.I else 0 : ℂ) = 0
  norm_num

end Fourier
end Verif
