import Verif.RudinShapiroProps
import Verif.SpectrumLevelProps
import Verif.FilterLawsProps

/-
Property C111: the crest factor of Rudin-Shapiro noise (`sumpf.RudinShapiroNoiseSpectrum`, `_rudinshapiro.py`).
-/

namespace Verif
namespace RudinShapiro

open Finset Dft

/-! ### Rudin-Shapiro polynomials -/

/-- The parallelogram identity makes the two parts of the sequence bound each other: `P` is the polynomial of the
first `2^k` elements and `Q` that of the following `2^k` elements. -/
theorem shapiro (z : ℂ) (hz : ‖z‖ = 1) (k : Nat) :
    ‖∑ m ∈ range (2 ^ k), (sign m : ℂ) * z ^ m‖ ^ 2 + ‖∑ m ∈ range (2 ^ k), (sign (2 ^ k + m) : ℂ) * z ^ m‖ ^ 2 =
      2 ^ (k + 1) := by
  induction k with
  | zero =>
    simp only [pow_zero, range_one, sum_singleton, mul_one, add_zero, sign_zero, sign_one, norm_one]
    norm_num
  | succ k ih =>
    have hsplit : ∀ f : Nat → ℂ, ∑ m ∈ range (2 ^ (k + 1)), f m =
        ∑ m ∈ range (2 ^ k), f m + ∑ m ∈ range (2 ^ k), f (2 ^ k + m) := by
      intro f
      rw [pow_succ, mul_two, sum_range_add]
    obtain ⟨P, hP⟩ : ∃ P, P = ∑ m ∈ range (2 ^ k), (sign m : ℂ) * z ^ m := ⟨_, rfl⟩
    obtain ⟨Q, hQ⟩ : ∃ Q, Q = ∑ m ∈ range (2 ^ k), (sign (2 ^ k + m) : ℂ) * z ^ m := ⟨_, rfl⟩
    have h1 : ∑ m ∈ range (2 ^ (k + 1)), (sign m : ℂ) * z ^ m = P + z ^ 2 ^ k * Q := by
      rw [hsplit, hP, hQ, mul_sum]
      congr 1
      refine sum_congr rfl fun m _ => ?_
      rw [pow_add]
      ring
    have h2 : ∑ m ∈ range (2 ^ (k + 1)), (sign (2 ^ (k + 1) + m) : ℂ) * z ^ m = P - z ^ 2 ^ k * Q := by
      rw [hsplit, hP, hQ, mul_sum, sub_eq_add_neg, ← sum_neg_distrib]
      congr 1
      · refine sum_congr rfl fun m hm => ?_
        rw [sign_low (mem_range.mp hm)]
      · refine sum_congr rfl fun m hm => ?_
        rw [mem_range] at hm
        rw [sign_high (by omega) (by rw [pow_succ]; omega), pow_add]
        ring
    rw [← hP, ← hQ] at ih
    have hq : ‖z ^ 2 ^ k * Q‖ = ‖Q‖ := by rw [norm_mul, norm_pow, hz, one_pow, one_mul]
    rw [h1, h2, pow_succ 2 (k + 1), ← ih, ← hq, Complex.sq_norm, Complex.sq_norm, Complex.sq_norm, Complex.sq_norm,
      Complex.normSq_add, Complex.normSq_sub]
    ring

/-- The magnitude of the sum of `2^k` elements. -/
theorem shapiro_bound (z : ℂ) (hz : ‖z‖ = 1) (k : Nat) :
    ‖∑ m ∈ range (2 ^ k), (sign m : ℂ) * z ^ m‖ ≤ Real.sqrt (2 ^ (k + 1)) := by
  apply Real.le_sqrt_of_sq_le
  rw [← shapiro z hz k]
  linarith [sq_nonneg ‖∑ m ∈ range (2 ^ k), (sign (2 ^ k + m) : ℂ) * z ^ m‖]

/-! ### The time signal -/

/-- the spectrum with a real number as resolution -/
def withReal (s : Spectrum ℂ ℚ) : Spectrum ℂ ℝ := ⟨s.channels, (s.resolution : ℝ), s.labels⟩

theorem inverse_re {M : Nat} (hM : 0 < M) (X : Nat → ℂ) (h0 : (X 0).im = 0) (hM' : (X M).im = 0) (n : Nat) :
    FilterApply.inverse M X n = (1 / M) * ((∑ k ∈ range (M + 1), X k * omega (2 * M) ^ ((k : ℤ) * n)).re -
      ((X 0).re + (X M * omega (2 * M) ^ ((M : ℤ) * n)).re) / 2) := by
  have hMr : (M : ℝ) ≠ 0 := Nat.cast_ne_zero.mpr (by omega)
  have hre : ∀ k, (X k).im = 0 → ((X k).re : ℂ) = X k := fun k hk => Complex.ext rfl hk.symm
  obtain ⟨T, hT⟩ : ∃ T, T = ∑ k ∈ Ico 1 M, X k * omega (2 * M) ^ ((k : ℤ) * n) := ⟨_, rfl⟩
  have h1 : ∑ k ∈ range (M + 1), X k * omega (2 * M) ^ ((k : ℤ) * n) =
      X 0 + T + X M * omega (2 * M) ^ ((M : ℤ) * n) := by
    rw [sum_range_succ, range_eq_Ico, sum_eq_sum_Ico_succ_bot hM, hT]
    simp
  have h2 : ∑ k ∈ range (2 * M), hermitian M X k * omega (2 * M) ^ ((k : ℤ) * n) =
      X 0 + T + (X M * omega (2 * M) ^ ((M : ℤ) * n) + (starRingEnd ℂ) T) := by
    rw [range_eq_Ico, ← sum_Ico_consecutive _ (Nat.zero_le M) (show M ≤ 2 * M by omega),
      sum_eq_sum_Ico_succ_bot hM, sum_eq_sum_Ico_succ_bot (show M < 2 * M by omega)]
    congr 1
    · congr 1
      · unfold hermitian
        rw [if_pos (Or.inl rfl), hre 0 h0]
        simp
      · rw [hT]
        refine sum_congr rfl fun k hk => ?_
        rw [mem_Ico] at hk
        unfold hermitian
        rw [if_neg (by omega), if_pos hk.2]
    · congr 1
      · unfold hermitian
        rw [if_pos (Or.inr rfl), hre M hM']
      · rw [hT, map_sum]
        refine sum_nbij' (fun k => 2 * M - k) (fun k => 2 * M - k) ?_ ?_ ?_ ?_ ?_
        · intro k hk; rw [mem_Ico] at hk ⊢; omega
        · intro k hk; rw [mem_Ico] at hk ⊢; omega
        · intro k hk; rw [mem_Ico] at hk; omega
        · intro k hk; rw [mem_Ico] at hk; omega
        · intro k hk
          rw [mem_Ico] at hk
          unfold hermitian
          rw [if_neg (by omega), if_neg (by omega), map_mul, conj_omega_zpow]
          congr 1
          rw [← omega_period (N := 2 * M) (by omega) (-(((2 * M - k : Nat) : ℤ) * n)) n]
          congr 1
          rw [Nat.cast_sub (by omega)]
          ring
  unfold FilterApply.inverse
  rw [h2, h1]
  have h3 : (1 / ((2 * M : Nat) : ℂ)) = ((1 / (2 * M) : ℝ) : ℂ) := by push_cast; rfl
  rw [h3, Complex.re_ofReal_mul]
  simp only [Complex.add_re, Complex.conj_re]
  field_simp
  ring

theorem inverse_samples (mem : Nat → Nat → ℝ) (b : Spectrum ℂ ℝ) (M : Nat) (hM : 0 < M)
    (hb : b.length = M + 1) :
    ∃ r, Fourier.inverseFourierTransform mem b = .ok r ∧ r.count = b.count ∧ r.length = 2 * M ∧
      ∀ c n, c < b.count → n < 2 * M → r.channels.get c n = FilterApply.inverse M (b.channels.get c) n := by
  have hcols : b.channels.cols = M + 1 := hb
  unfold Fourier.inverseFourierTransform
  rw [if_neg (by omega)]
  dsimp only
  have hE : Fourier.irfftN b.channels = .ok ⟨b.channels.rows, 2 * M, fun c n => FilterApply.inverse M (b.channels.get c) n⟩ := by
    unfold Fourier.irfftN Mat.irfft
    rw [if_neg (by omega), if_neg (by omega), hcols]
    rfl
  rw [hE, hb]
  obtain ⟨C, c1, c2, c3, c4, _⟩ := Mat.assign_ok (A := alloc mem b.count (max 1 ((M + 1 - 1) * 2)))
    (S := (⟨b.channels.rows, 2 * M, fun c n => FilterApply.inverse M (b.channels.get c) n⟩ : Mat ℝ)) (r := .all) (c := .all)
    0 b.count 0 (max 1 ((M + 1 - 1) * 2)) rfl rfl rfl rfl rfl (by show 2 * M = _ - 0; omega)
  show ∃ r, (Mat.assign _ _ _ _ >>= _) = _ ∧ _
  rw [c1]
  refine ⟨_, rfl, c2, ?_, fun c n hc hn => ?_⟩
  · show C.cols = _
    rw [c3]
    show max 1 ((M + 1 - 1) * 2) = _
    omega
  · show C.get c n = _
    rw [c4 c n (by omega) hc (by omega) (by omega)]
    rfl

theorem sign_norm (n : Nat) : ‖(sign n : ℂ)‖ = 1 := by
  unfold sign
  split <;> simp

theorem sign_im (n : Nat) : (sign n : ℂ).im = 0 := by
  unfold sign
  split <;> simp

theorem omega_norm (N : Nat) (m : ℤ) : ‖omega N ^ m‖ = 1 := by
  rw [Fourier.omega_zpow, show (2 * Real.pi * Complex.I * m / N : ℂ) = ((2 * Real.pi * m / N : ℝ) : ℂ) * Complex.I by
    push_cast
    ring]
  exact Complex.norm_exp_ofReal_mul_I _

/-- the sum of the bins, as it appears in the inverse transform -/
theorem noise_sum (M o k n : Nat) (he : o + 2 ^ k ≤ M + 1) (X : Nat → ℂ)
    (hX : ∀ j, j < M + 1 → X j = if o ≤ j ∧ j < o + 2 ^ k then sign (j - o) else 0) :
    ‖∑ j ∈ range (M + 1), X j * omega (2 * M) ^ ((j : ℤ) * n)‖ ≤ Real.sqrt (2 ^ (k + 1)) := by
  have h1 : ∑ j ∈ range (M + 1), X j * omega (2 * M) ^ ((j : ℤ) * n) =
      omega (2 * M) ^ ((o : ℤ) * n) * ∑ m ∈ range (2 ^ k), (sign m : ℂ) * (omega (2 * M) ^ (n : ℤ)) ^ m := by
    rw [mul_sum, ← sum_subset (s₁ := Ico o (o + 2 ^ k))]
    · rw [sum_Ico_eq_sum_range, Nat.add_sub_cancel_left]
      refine sum_congr rfl fun m hm => ?_
      rw [mem_range] at hm
      rw [hX _ (by omega), if_pos ⟨by omega, by omega⟩, Nat.add_sub_cancel_left, ← zpow_natCast, ← zpow_mul,
        show ((o + m : Nat) : ℤ) * n = (o : ℤ) * n + n * m by push_cast; ring, zpow_add₀ (omega_ne_zero _)]
      ring
    · intro j hj
      rw [mem_Ico] at hj
      rw [mem_range]
      omega
    · intro j hj hj'
      rw [mem_range] at hj
      rw [mem_Ico] at hj'
      rw [hX j hj, if_neg hj', zero_mul]
  rw [h1, norm_mul, omega_norm, one_mul]
  exact shapiro_bound _ (omega_norm _ _) k

/-- what the noise looks like as a time signal, for both theorems below -/
theorem noise_signal (mem : Nat → Nat → ℂ) (mem' : Nat → Nat → ℝ) (start : ℚ) (stop : Option ℚ) (resolution : ℚ)
    (M : Nat) (hM : 0 < M) (hres : resolution ≠ 0) (o k : Nat)
    (ho : (o : Int) = min (pyRound (start / resolution)) ((M + 1 : Nat) : Int))
    (he : ((o + 2 ^ k : Nat) : Int) = match stop with
      | none => ((M + 1 : Nat) : Int)
      | some f => min (pyRound (f / resolution)) ((M + 1 : Nat) : Int)) :
    ∃ s x, new mem start stop resolution (M + 1) = .ok (s, ((2 ^ k : Nat) : Int)) ∧
      Fourier.inverseFourierTransform mem' (withReal s) = .ok x ∧ x.count = 1 ∧ x.length = 2 * M ∧
      o + 2 ^ k ≤ M + 1 ∧ s.count = 1 ∧ s.length = M + 1 ∧
      (∀ j, j < M + 1 → s.channels.get 0 j = if o ≤ j ∧ j < o + 2 ^ k then sign (j - o) else 0) ∧
      (∀ n, n < 2 * M → x.channels.get 0 n = FilterApply.inverse M (s.channels.get 0) n) ∧
      Level.spectrumLevel (withReal s) = .ok [Level.level x 0] := by
  obtain ⟨s, n, h1, h2, h3, h4, h5, h6, h7⟩ := C26_samples_partial mem start stop resolution (M + 1) hres o (o + 2 ^ k) ho he
  have hel : o + 2 ^ k ≤ M + 1 := by
    cases stop with
    | none => dsimp only at he; omega
    | some f => dsimp only at he; omega
  have hn : n = ((2 ^ k : Nat) : Int) := by rw [h2]; push_cast; ring
  have hrows : (withReal s).channels.rows = 1 := h3
  have hcols : (withReal s).channels.cols = M + 1 := h4
  have hreal : ∀ j, j < M + 1 → (s.channels.get 0 j).im = 0 := by
    intro j hj
    rw [h7 j hj]
    split
    · exact sign_im _
    · rfl
  obtain ⟨b, b1, b2, -⟩ := Level.C91_spectrum_partial mem' (withReal s)
    (by rw [hrows]; show s.labels.length = 1; rw [h6]; rfl) (by omega) (by omega)
    (by show (s.resolution : ℝ) ≠ 0; rw [h5]; exact_mod_cast hres)
    (by
      intro c hc
      have hc0 : c = 0 := by omega
      subst hc0
      rw [hcols]
      exact ⟨hreal 0 (by omega), hreal M (by omega)⟩)
  obtain ⟨x, x1, x2, x3, x4⟩ := inverse_samples mem' (withReal s) M hM h4
  have hxb : x = b := by
    rw [b1] at x1
    exact (Except.ok.inj x1).symm
  subst hxb
  refine ⟨s, x, by rw [h1, hn], x1, x2.trans h3, x3, hel, h3, h4, h7, fun n hn => x4 0 n (by rw [show (withReal s).count = 1 from h3]; omega) hn, ?_⟩
  rw [b2, show (withReal s).count = 1 from h3]
  rfl

/-- If the length of the Rudin-Shapiro sequence is a power of two, no sample of the noise exceeds
`(√(2·2^k) + 1) / M`, where `M + 1` is the length of the spectrum. -/
theorem C111_peak (mem : Nat → Nat → ℂ) (mem' : Nat → Nat → ℝ) (start : ℚ) (stop : Option ℚ) (resolution : ℚ)
    (M : Nat) (hM : 0 < M) (hres : resolution ≠ 0) (o k : Nat)
    (ho : (o : Int) = min (pyRound (start / resolution)) ((M + 1 : Nat) : Int))
    (he : ((o + 2 ^ k : Nat) : Int) = match stop with
      | none => ((M + 1 : Nat) : Int)
      | some f => min (pyRound (f / resolution)) ((M + 1 : Nat) : Int)) :
    ∃ s x, new mem start stop resolution (M + 1) = .ok (s, ((2 ^ k : Nat) : Int)) ∧
      Fourier.inverseFourierTransform mem' (withReal s) = .ok x ∧ x.count = 1 ∧ x.length = 2 * M ∧
      ∀ n, n < 2 * M → |x.channels.get 0 n| ≤ (Real.sqrt (2 ^ (k + 1)) + 1) / M := by
  obtain ⟨s, x, h1, h2, h3, h4, h5, -, -, h6, h7, -⟩ := noise_signal mem mem' start stop resolution M hM hres o k ho he
  refine ⟨s, x, h1, h2, h3, h4, fun n hn => ?_⟩
  have hMr : (0 : ℝ) < M := Nat.cast_pos.mpr hM
  have hreal : ∀ j, j < M + 1 → (s.channels.get 0 j).im = 0 ∧ ‖s.channels.get 0 j‖ ≤ 1 := by
    intro j hj
    rw [h6 j hj]
    split
    · exact ⟨sign_im _, (sign_norm _).le⟩
    · exact ⟨rfl, by simp⟩
  rw [h7 n hn, inverse_re hM _ (hreal 0 (by omega)).1 (hreal M (by omega)).1, abs_mul, abs_of_pos (by positivity),
    one_div_mul_eq_div]
  refine div_le_div_of_nonneg_right ?_ hMr.le
  have hT := (Complex.abs_re_le_norm _).trans (noise_sum M o k n h5 _ h6)
  have hA := (Complex.abs_re_le_norm _).trans (hreal 0 (by omega)).2
  have hB : |(s.channels.get 0 M * omega (2 * M) ^ ((M : ℤ) * n)).re| ≤ 1 := by
    refine (Complex.abs_re_le_norm _).trans ?_
    rw [norm_mul, omega_norm, mul_one]
    exact (hreal M (by omega)).2
  rw [abs_le] at *
  constructor <;> linarith [hT.1, hT.2, hA.1, hA.2, hB.1, hB.2]

/-- If the length of the Rudin-Shapiro sequence is a power of two and the sequence covers neither the constant component
nor the last bin, the level of the noise is `√(2·2^k) / 2M` and no sample exceeds two times this level, so that the crest
factor is at most `20·log10(2) = 6.02 dB`. -/
theorem C111_crest_factor (mem : Nat → Nat → ℂ) (mem' : Nat → Nat → ℝ) (start : ℚ) (stop : Option ℚ) (resolution : ℚ)
    (M : Nat) (hres : resolution ≠ 0) (o k : Nat) (ho0 : 0 < o) (heM : o + 2 ^ k ≤ M)
    (ho : (o : Int) = min (pyRound (start / resolution)) ((M + 1 : Nat) : Int))
    (he : ((o + 2 ^ k : Nat) : Int) = match stop with
      | none => ((M + 1 : Nat) : Int)
      | some f => min (pyRound (f / resolution)) ((M + 1 : Nat) : Int)) :
    ∃ s x, new mem start stop resolution (M + 1) = .ok (s, ((2 ^ k : Nat) : Int)) ∧
      Fourier.inverseFourierTransform mem' (withReal s) = .ok x ∧ x.count = 1 ∧ x.length = 2 * M ∧
      Level.level x 0 = Real.sqrt (2 ^ (k + 1)) / (2 * M) ∧ 0 < Level.level x 0 ∧
      ∀ n, n < 2 * M → |x.channels.get 0 n| ≤ 2 * Level.level x 0 := by
  have hM : 0 < M := lt_of_lt_of_le ho0 ((Nat.le_add_right _ _).trans heM)
  obtain ⟨s, x, h1, h2, h3, h4, h5, hs, hcols, h6, h7, h8⟩ := noise_signal mem mem' start stop resolution M hM hres o k ho he
  have hMr : (0 : ℝ) < M := Nat.cast_pos.mpr hM
  replace hcols : (withReal s).channels.cols = M + 1 := hcols
  have hz0 : s.channels.get 0 0 = 0 := by rw [h6 0 (by omega), if_neg (by omega)]
  have hzM : s.channels.get 0 M = 0 := by rw [h6 M (by omega), if_neg (by omega)]
  have hlevel : Level.level x 0 = Real.sqrt (2 ^ (k + 1)) / (2 * M) := by
    have hp : Level.spectrumPower (withReal s).channels 0 = .ok (2 ^ (k + 1)) := by
      unfold Level.spectrumPower
      rw [hcols, if_neg (by omega)]
      congr 1
      show (∑ j ∈ Ico 1 M, ‖s.channels.get 0 j‖ ^ 2) * 2 + ‖s.channels.get 0 0‖ ^ 2 + ‖s.channels.get 0 M‖ ^ 2 = _
      rw [hz0, hzM, ← sum_subset (s₁ := Ico o (o + 2 ^ k))]
      · rw [sum_congr rfl (g := fun _ => (1 : ℝ))]
        · simp [pow_succ]
        · intro j hj
          rw [mem_Ico] at hj
          rw [h6 j (by omega), if_pos hj, sign_norm, one_pow]
      · intro j hj
        rw [mem_Ico] at hj ⊢
        omega
      · intro j hj hj'
        rw [mem_Ico] at hj hj'
        rw [h6 j (by omega), if_neg hj', norm_zero]
        norm_num
    have hl : Level.spectrumLevel (withReal s) = .ok [Real.sqrt (2 ^ (k + 1)) / (2 * M)] := by
      unfold Level.spectrumLevel
      rw [show (withReal s).count = 1 from hs, show (withReal s).length = M + 1 from hcols, List.range_one]
      rw [List.mapM_cons, hp, show max 1 ((M + 1 - 1) * 2) = 2 * M by omega]
      show Except.ok [Real.sqrt (2 ^ (k + 1)) / ((2 * M : Nat) : ℝ)] = _
      push_cast
      rfl
    rw [hl] at h8
    exact (List.cons.inj (Except.ok.inj h8)).1.symm
  have hpos : 0 < Level.level x 0 := by rw [hlevel]; positivity
  refine ⟨s, x, h1, h2, h3, h4, hlevel, hpos, fun n hn => ?_⟩
  rw [h7 n hn, inverse_re hM _ (by rw [hz0]; rfl) (by rw [hzM]; rfl), hz0, hzM, abs_mul, abs_of_pos (by positivity), hlevel]
  have hT := (Complex.abs_re_le_norm _).trans (noise_sum M o k n h5 _ h6)
  have h9 : ∀ t : ℝ, t - ((0 : ℂ).re + (0 * omega (2 * M) ^ ((M : ℤ) * n)).re) / 2 = t := by
    intro t
    simp
  rw [h9, one_div_mul_eq_div, show 2 * (Real.sqrt (2 ^ (k + 1)) / (2 * M)) = Real.sqrt (2 ^ (k + 1)) / M by field_simp]
  exact div_le_div_of_nonneg_right hT hMr.le

/-- the hypotheses are satisfiable: 16 bins from the third one in a spectrum with 33 bins -/
example : ((3 : Nat) : Int) = min (pyRound ((6 : ℚ) / 2)) ((32 + 1 : Nat) : Int) ∧
    ((3 + 2 ^ 4 : Nat) : Int) = (match some (38 : ℚ) with
      | none => ((32 + 1 : Nat) : Int)
      | some f => min (pyRound (f / 2)) ((32 + 1 : Nat) : Int)) ∧ 3 + 2 ^ 4 ≤ 32 := by
  refine ⟨by decide +kernel, by decide +kernel, by norm_num⟩

end RudinShapiro
end Verif
