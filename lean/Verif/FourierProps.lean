import Verif.Fourier
import Verif.SignalProps
import Mathlib.Tactic.Ring
import Mathlib.Tactic.FieldSimp
import Mathlib.Tactic.Linarith

/-
C52: The Fourier transform and its inverse
-/

namespace Verif
namespace Fourier

open Finset Dft

theorem omega_zpow (N : Nat) (m : ℤ) : omega N ^ m = Complex.exp (2 * Real.pi * Complex.I * m / N) := by
  unfold omega
  rw [← Complex.exp_int_mul]
  congr 1
  ring

/-! ### the transform of signals -/

theorem assign_full {α : Type} {A B : Mat α} (hr : B.rows = A.rows) (hc : B.cols = A.cols) :
    ∃ D, A.assign .all .all B = .ok D ∧ D.rows = A.rows ∧ D.cols = A.cols ∧
      ∀ c i, c < A.rows → i < A.cols → D.get c i = B.get c i := by
  obtain ⟨D, h1, h2, h3, h4, _⟩ := Mat.assign_cols (A := A) (S := B) (c := .all) 0 A.cols rfl rfl hr (by omega)
  exact ⟨D, h1, h2, h3, fun c i hc hi => by rw [h4 c i hc (by omega) hi]; rfl⟩

/-- the value of the Fourier transform: the time of sample `j` is `(offset + j) / rate`, the frequency of bin `k` is
`k * rate / L` -/
noncomputable def transform (L : Nat) (offset : Int) (x : Nat → ℝ) (k : Nat) : ℂ :=
  ∑ j ∈ range L, (x j : ℂ) * Complex.exp (-2 * Real.pi * Complex.I * k * (offset + j) / L)

theorem transform_eq (L : Nat) (offset : Int) (x : Nat → ℝ) (k : Nat) :
    transform L offset x k = dft L x k * omega L ^ (-((k : ℤ) * offset)) := by
  unfold transform dft
  rw [Finset.sum_mul]
  refine Finset.sum_congr rfl fun j _ => ?_
  rw [omega_zpow, omega_zpow, mul_assoc (x j : ℂ), ← Complex.exp_add]
  congr 2
  push_cast
  ring

/-- the values of the compensation, for offsets that are integers or sums of them -/
theorem compensation_value (L : Nat) (rate : ℝ) (o : ℤ) (hr : rate ≠ 0) (hL : 0 < L) :
    ∃ C, compensation ((((L / 2 + 1 : Nat) : ℂ) - 1) * ((rate / L : ℝ) : ℂ) * (-2 * Complex.I) * (Real.pi : ℂ) *
        (o : ℂ) / (rate : ℂ)) (L / 2 + 1) = C ∧ C.rows = 1 ∧ C.cols = L / 2 + 1 ∧
      ∀ k, k ≤ L / 2 → C.get 0 k = omega L ^ (-((k : ℤ) * o)) := by
  have hL' : (L : ℂ) ≠ 0 := Nat.cast_ne_zero.mpr (by omega)
  have hrc : (rate : ℂ) ≠ 0 := Complex.ofReal_ne_zero.mpr hr
  refine ⟨_, rfl, rfl, rfl, ?_⟩
  intro k hk
  rw [omega_zpow]
  show Complex.exp (clinspace _ _ _) = _
  congr 1
  unfold clinspace
  by_cases h1 : L / 2 + 1 ≤ 1
  · have hk0 : k = 0 := by omega
    rw [if_pos h1, hk0]
    simp
  · have h2 : (((L / 2 + 1 : Nat) : ℂ) - 1) ≠ 0 := by
      push_cast
      rw [add_sub_cancel_right]
      exact Nat.cast_ne_zero.mpr (by omega)
    rw [if_neg h1]
    generalize (((L / 2 + 1 : Nat) : ℂ) - 1) = q at *
    push_cast
    field_simp

/-- C52: The channels of the spectrum are the Fourier transforms of the channels of the signal, in which the offset is
considered by the times of the samples. -/
theorem C52_transform (mem : Nat → Nat → ℂ) (a : Signal ℝ ℝ) (hl : a.labels.length = a.channels.rows)
    (hm : 1 ≤ a.channels.rows) (hn : 1 ≤ a.channels.cols) (hr : a.rate ≠ 0) :
    ∃ b, fourierTransform mem a = .ok b ∧ b.channels.rows = a.channels.rows ∧
      b.channels.cols = a.channels.cols / 2 + 1 ∧ b.resolution = a.rate / a.channels.cols ∧ b.labels = a.labels ∧
      ∀ c k, c < a.channels.rows → k ≤ a.channels.cols / 2 →
        b.channels.get c k = ∑ j ∈ range a.channels.cols, (a.channels.get c j : ℂ) *
          Complex.exp (-2 * Real.pi * Complex.I * ((k * b.resolution : ℝ) : ℂ) * (((a.offset + j) / a.rate : ℝ) : ℂ)) := by
  have hL : (a.channels.cols : ℂ) ≠ 0 := Nat.cast_ne_zero.mpr (by omega)
  have hrc : (a.rate : ℂ) ≠ 0 := Complex.ofReal_ne_zero.mpr hr
  obtain ⟨S, hS⟩ : ∃ S, S = (⟨a.channels.rows, a.channels.cols / 2 + 1,
    fun i k => dft a.channels.cols (a.channels.get i) k⟩ : Mat ℂ) := ⟨_, rfl⟩
  have hfft : a.channels.rfft = .ok S := by
    unfold Mat.rfft
    rw [if_neg (by omega), hS]
  have key : ∃ D, full mem a = .ok (D, a.rate / a.channels.cols) ∧ D.rows = a.channels.rows ∧
      D.cols = a.channels.cols / 2 + 1 ∧ ∀ c k, c < a.channels.rows → k ≤ a.channels.cols / 2 →
        D.get c k = transform a.channels.cols a.offset (a.channels.get c) k := by
    unfold full
    dsimp only
    rw [if_neg (show ¬a.count = 0 by unfold Signal.count; omega), if_neg (show ¬a.length = 0 by unfold Signal.length; omega),
      hfft]
    by_cases ho : a.offset = 0
    · obtain ⟨D, h1, h2, h3, h4⟩ := assign_full (A := alloc mem a.count (a.length / 2 + 1)) (B := S)
        (by rw [hS]; rfl) (by rw [hS]; rfl)
      refine ⟨D, ?_, h2, h3, ?_⟩
      · show (if a.offset = 0 then _ else _) = _
        rw [if_pos ho, h1]
        rfl
      · intro c k hc hk
        rw [h4 c k hc (by show k < a.length / 2 + 1; unfold Signal.length; omega), transform_eq, ho, hS]
        simp
    · obtain ⟨C, hC1, hC2, hC3, hC4⟩ := compensation_value a.length a.rate a.offset hr
        (by unfold Signal.length; omega)
      obtain ⟨A', hA, _, _, hA'⟩ := Mat.broadcastTo_self (A := S) (r := a.count - 0) (c := a.length / 2 + 1 - 0)
        (by rw [hS]; rfl) (by rw [hS]; rfl)
      obtain ⟨B', hB, _, _, hB'⟩ := Mat.broadcastTo_row (A := C) (r := a.count - 0) (c := a.length / 2 + 1 - 0)
        hC2 hC3
      obtain ⟨D, h1, h2, h3, h4, _⟩ := Mat.ufunc2_of_broadcast (f := fun x y : ℂ => x * y)
        (out := alloc mem a.count (a.length / 2 + 1)) (r := .all) (c := .all) 0 a.count 0 (a.length / 2 + 1)
        rfl rfl rfl rfl hA hB
      refine ⟨D, ?_, h2, h3, ?_⟩
      · show (if a.offset = 0 then _ else if a.rate = 0 then _ else _) = _
        rw [if_neg ho, if_neg hr, hC1, h1]
        rfl
      · intro c k hc hk
        have hk' : k < a.length / 2 + 1 := by unfold Signal.length; omega
        have hc' : c < a.count := hc
        rw [h4 c k (by omega) hc (by omega) hk', hA' _ _ (by omega) (by omega), hB' _ _ (by omega) (by omega),
          Nat.sub_zero, Nat.sub_zero, hC4 k (by omega), transform_eq, hS]
        rfl
  obtain ⟨D, h1, h2, h3, h4⟩ := key
  refine ⟨Spectrum.new D (a.rate / a.channels.cols) (some a.labels), ?_, h2, h3, rfl, ?_, ?_⟩
  · unfold fourierTransform
    rw [h1]
    rfl
  · show sanitizeLabels (some a.labels) D.rows = _
    exact Signal.sanitize_self (by rw [h2]; exact hl)
  · intro c k hc hk
    show D.get c k = _
    rw [h4 c k hc hk]
    unfold transform
    refine Finset.sum_congr rfl fun j _ => ?_
    congr 2
    show _ = -2 * Real.pi * Complex.I * ((k * (a.rate / a.channels.cols) : ℝ) : ℂ) * (((a.offset + j) / a.rate : ℝ) : ℂ)
    push_cast
    field_simp

/-- a signal with an odd length and an offset -/
example : ∃ a : Signal ℝ ℝ, a.labels.length = a.channels.rows ∧ 1 ≤ a.channels.rows ∧ 1 ≤ a.channels.cols ∧ a.rate ≠ 0 ∧
    a.offset = -2 :=
  ⟨⟨⟨2, 5, fun c i => c + i⟩, 48000, -2, ["a", "b"]⟩, rfl, by decide, by decide, by norm_num, rfl⟩

/-! ### the inverse transform of the transform -/

/-- the transform of a shifted impulse -/
theorem dft_impulse {N : Nat} (hN : N ≠ 0) (o k : ℤ) :
    dft N (fun j => if j = (o % N).toNat then 1 else 0) k = omega N ^ (-(k * o)) := by
  have h0 : 0 ≤ o % (N : ℤ) := Int.emod_nonneg _ (by omega)
  have h1 : o % (N : ℤ) < N := Int.emod_lt_of_pos _ (by omega)
  unfold dft
  rw [Finset.sum_eq_single (o % N).toNat]
  · dsimp only
    rw [if_pos rfl, Complex.ofReal_one, one_mul, Int.toNat_of_nonneg h0]
    have : -(k * o) = -(k * (o % N)) + N * (-(k * (o / N))) := by
      have := Int.emod_add_mul_ediv o N
      linear_combination k * this
    rw [this, omega_period hN]
  · intro j _ hj
    dsimp only
    rw [if_neg hj, Complex.ofReal_zero, zero_mul]
  · intro h
    exfalso
    apply h
    rw [mem_range]
    omega

/-- C52: Transforming a signal of even length to the frequency domain and back restores the signal. The offset of the result
is zero, its samples are shifted cyclically by the offset of the signal. -/
theorem C52_signal (mem : Nat → Nat → ℂ) (mem' : Nat → Nat → ℝ) (a : Signal ℝ ℝ)
    (hl : a.labels.length = a.channels.rows) (hm : 1 ≤ a.channels.rows) (hn : 1 ≤ a.channels.cols)
    (he : a.channels.cols % 2 = 0) (hr : a.rate ≠ 0) :
    ∃ b d, fourierTransform mem a = .ok b ∧ inverseFourierTransform mem' b = .ok d ∧
      d.channels.rows = a.channels.rows ∧ d.channels.cols = a.channels.cols ∧ d.rate = a.rate ∧ d.offset = 0 ∧
      d.labels = a.labels ∧ ∀ c n, c < a.channels.rows → n < a.channels.cols →
        d.channels.get c n = a.channels.get c (((n : ℤ) - a.offset) % a.channels.cols).toNat := by
  obtain ⟨M, hM⟩ : ∃ M, a.channels.cols = 2 * M := ⟨a.channels.cols / 2, by omega⟩
  have hM0 : 0 < M := by omega
  obtain ⟨b, hb, b1, b2, b3, b4, b5⟩ := C52_transform mem a hl hm hn hr
  have hcols : b.channels.cols = M + 1 := by rw [b2, hM]; omega
  have hget : ∀ c, c < a.channels.rows → ∀ k, k ≤ M → b.channels.get c k =
      dft (2 * M) (fun j => if j = (a.offset % (2 * M : Nat)).toNat then 1 else 0) (1 * k) * dft (2 * M) (a.channels.get c) k := by
    intro c hc k hk
    have hL : (a.channels.cols : ℂ) ≠ 0 := Nat.cast_ne_zero.mpr (by omega)
    have hrc : (a.rate : ℂ) ≠ 0 := Complex.ofReal_ne_zero.mpr hr
    rw [b5 c k hc (by omega), one_mul, dft_impulse (by omega), mul_comm (omega _ ^ _), ← hM, ← transform_eq]
    unfold transform
    refine Finset.sum_congr rfl fun j _ => ?_
    congr 2
    rw [b3]
    push_cast
    field_simp
  obtain ⟨E, hE⟩ : ∃ E, b.channels.irfft = .ok E := by
    unfold Mat.irfft
    rw [if_neg (by omega)]
    exact ⟨_, rfl⟩
  have hEr : E.rows = b.channels.rows ∧ E.cols = 2 * M := by
    obtain ⟨B, h1, h2, h3, _⟩ := Mat.irfft_product b.channels M hM0 hcols 0 _ _ 1 (Or.inl rfl) (hget 0 (by omega))
    rw [hE] at h1
    cases h1
    exact ⟨h2, h3⟩
  have hEg : ∀ c n, c < a.channels.rows → n < a.channels.cols →
      E.get c n = a.channels.get c (((n : ℤ) - a.offset) % a.channels.cols).toNat := by
    intro c n hc hn
    obtain ⟨B, h1, _, _, h4⟩ := Mat.irfft_product b.channels M hM0 hcols c _ _ 1 (Or.inl rfl) (hget c hc)
    rw [hE] at h1
    cases h1
    have h0 : 0 ≤ a.offset % ((2 * M : Nat) : ℤ) := Int.emod_nonneg _ (by omega)
    have h1 : a.offset % ((2 * M : Nat) : ℤ) < (2 * M : Nat) := Int.emod_lt_of_pos _ (by omega)
    rw [h4 n, Finset.sum_eq_single (a.offset % (2 * M : Nat)).toNat]
    · rw [if_pos rfl, one_mul, one_mul, Int.toNat_of_nonneg h0, hM, Int.sub_emod_emod]
    · intro j _ hj
      rw [if_neg hj, zero_mul]
    · intro h
      exfalso
      apply h
      rw [mem_range]
      omega
  have hlen : max 1 ((b.length - 1) * 2) = 2 * M := by
    show max 1 ((b.channels.cols - 1) * 2) = 2 * M
    rw [hcols]
    omega
  obtain ⟨D, h1, h2, h3, h4⟩ := assign_full (A := alloc mem' b.count (2 * M)) (B := E) hEr.1 hEr.2
  refine ⟨b, Signal.new D (b.resolution * (2 * M : Nat)) 0 (some b.labels), hb, ?_, ?_, ?_, ?_, rfl, ?_, ?_⟩
  · unfold inverseFourierTransform
    rw [if_neg (show ¬b.length = 0 by unfold Spectrum.length; omega)]
    dsimp only
    rw [hlen]
    unfold irfftN
    rw [if_neg (show ¬b.channels.cols = 1 by omega), hE]
    show (Mat.assign _ _ _ _ >>= _) = _
    rw [h1]
    rfl
  · show D.rows = _
    rw [h2]
    exact b1
  · show D.cols = _
    rw [h3, hM]
    rfl
  · show b.resolution * (2 * M : Nat) = a.rate
    have : ((2 * M : Nat) : ℝ) ≠ 0 := Nat.cast_ne_zero.mpr (by omega)
    rw [b3, hM, div_mul_cancel₀ _ this]
  · show sanitizeLabels (some b.labels) D.rows = _
    rw [Signal.sanitize_self (by rw [b4, h2, hl]; exact b1.symm), b4]
  · intro c n hc hn
    show D.get c n = _
    rw [h4 c n (by show c < b.channels.rows; omega) (by show n < 2 * M; omega)]
    exact hEg c n hc hn

/-- C52: A signal of even length without an offset is restored exactly. -/
theorem C52_signal_exact (mem : Nat → Nat → ℂ) (mem' : Nat → Nat → ℝ) (a : Signal ℝ ℝ)
    (hl : a.labels.length = a.channels.rows) (hm : 1 ≤ a.channels.rows) (hn : 1 ≤ a.channels.cols)
    (he : a.channels.cols % 2 = 0) (hr : a.rate ≠ 0) (ho : a.offset = 0) :
    ∃ b d, fourierTransform mem a = .ok b ∧ inverseFourierTransform mem' b = .ok d ∧ d.channels.Eqv a.channels ∧
      d.rate = a.rate ∧ d.offset = a.offset ∧ d.labels = a.labels := by
  obtain ⟨b, d, h1, h2, h3, h4, h5, h6, h7, h8⟩ := C52_signal mem mem' a hl hm hn he hr
  refine ⟨b, d, h1, h2, ⟨h3, h4, ?_⟩, h5, by rw [h6, ho], h7⟩
  intro c n hc hn
  rw [h8 c n (by omega) (by omega), ho, sub_zero, Int.emod_eq_of_lt (by omega) (by omega), Int.toNat_natCast]

example : ∃ a : Signal ℝ ℝ, a.labels.length = a.channels.rows ∧ 1 ≤ a.channels.rows ∧ 1 ≤ a.channels.cols ∧
    a.channels.cols % 2 = 0 ∧ a.rate ≠ 0 ∧ a.offset = 0 :=
  ⟨⟨⟨2, 6, fun c i => c + i⟩, 48000, 0, ["a", "b"]⟩, rfl, by decide, by decide, rfl, by norm_num, rfl⟩

/-! ### the transform of the inverse transform -/

theorem hermitian_conj {M : Nat} (X : Nat → ℂ) {j : Nat} (h0 : 0 < j) (h1 : j < 2 * M) :
    (starRingEnd ℂ) (hermitian M X j) = hermitian M X (2 * M - j) := by
  unfold hermitian
  rcases lt_trichotomy j M with h | h | h
  · rw [if_neg (by omega), if_pos h, if_neg (by omega), if_neg (by omega), show 2 * M - (2 * M - j) = j by omega]
  · rw [if_pos (Or.inr h), if_pos (Or.inr (by omega)), Complex.conj_ofReal, show 2 * M - j = j by omega]
  · rw [if_neg (by omega), if_neg (by omega), if_neg (by omega), if_pos (by omega), Complex.conj_conj]

/-- The inverse transform is real. -/
theorem inverse_real {M : Nat} (hM : 0 < M) (X : Nat → ℂ) (n : Nat) :
    (starRingEnd ℂ) (∑ k ∈ range (2 * M), hermitian M X k * omega (2 * M) ^ ((k : ℤ) * n)) =
      ∑ k ∈ range (2 * M), hermitian M X k * omega (2 * M) ^ ((k : ℤ) * n) := by
  obtain ⟨q, hq⟩ : ∃ q, 2 * M = q + 1 := ⟨2 * M - 1, by omega⟩
  rw [map_sum]
  rw [hq, Finset.sum_range_succ', Finset.sum_range_succ', ← hq]
  congr 1
  · rw [← Finset.sum_range_reflect]
    refine Finset.sum_congr rfl fun k hk => ?_
    rw [mem_range] at hk
    rw [map_mul, conj_omega_zpow, hermitian_conj X (by omega) (by omega), show 2 * M - (q - 1 - k + 1) = k + 1 by omega]
    congr 1
    rw [← omega_period (N := 2 * M) (by omega) _ n]
    congr 1
    rw [hq, show ((q - 1 - k + 1 : Nat) : ℤ) = q - k by omega]
    push_cast
    ring
  · rw [map_mul, conj_omega_zpow]
    unfold hermitian
    simp

/-- The transform of the inverse transform -/
theorem dft_inverse {M : Nat} (hM : 0 < M) (X : Nat → ℂ) {m : Nat} (hm : m ≤ M) :
    dft (2 * M) (fun n => ((1 / ((2 * M : Nat) : ℂ)) * ∑ k ∈ range (2 * M),
      hermitian M X k * omega (2 * M) ^ ((k : ℤ) * n)).re) m = hermitian M X m := by
  have hN : ((2 * M : Nat) : ℂ) ≠ 0 := Nat.cast_ne_zero.mpr (by omega)
  have hreal : ∀ n : Nat, ((((1 / ((2 * M : Nat) : ℂ)) * ∑ k ∈ range (2 * M),
      hermitian M X k * omega (2 * M) ^ ((k : ℤ) * n)).re : ℝ) : ℂ) =
      (1 / ((2 * M : Nat) : ℂ)) * ∑ k ∈ range (2 * M), hermitian M X k * omega (2 * M) ^ ((k : ℤ) * n) := by
    intro n
    apply Complex.conj_eq_iff_re.mp
    rw [map_mul, inverse_real hM]
    congr 1
    rw [map_div₀, map_one, Complex.conj_natCast]
  unfold dft
  simp only [hreal]
  have : ∀ n ∈ range (2 * M), (1 / ((2 * M : Nat) : ℂ) * ∑ k ∈ range (2 * M),
      hermitian M X k * omega (2 * M) ^ ((k : ℤ) * n)) * omega (2 * M) ^ (-((m : ℤ) * n)) =
      ∑ k ∈ range (2 * M), (1 / ((2 * M : Nat) : ℂ) * hermitian M X k) * omega (2 * M) ^ ((n : ℤ) * (k - m)) := by
    intro n _
    rw [Finset.mul_sum, Finset.sum_mul]
    refine Finset.sum_congr rfl fun k _ => ?_
    rw [show (n : ℤ) * (k - m) = k * n + -(m * n) by ring, zpow_add₀ (omega_ne_zero _)]
    ring
  rw [Finset.sum_congr rfl this, Finset.sum_comm]
  simp only [← Finset.mul_sum, sum_omega (show 2 * M ≠ 0 by omega)]
  rw [Finset.sum_eq_single m]
  · rw [if_pos (by simp)]
    field_simp
  · intro k hk hne
    rw [mem_range] at hk
    rw [if_neg, mul_zero]
    intro hd
    have := Int.eq_zero_of_abs_lt_dvd hd (by rw [abs_lt]; omega)
    omega
  · intro h
    exfalso
    apply h
    rw [mem_range]
    omega

/-- C52: Transforming a spectrum to the time domain and back restores the spectrum, except for the imaginary parts of the
first and the last bin. -/
theorem C52_spectrum (mem : Nat → Nat → ℂ) (mem' : Nat → Nat → ℝ) (a : Spectrum ℂ ℝ)
    (hl : a.labels.length = a.channels.rows) (hm : 1 ≤ a.channels.rows) (hn : 2 ≤ a.channels.cols)
    (hr : a.resolution ≠ 0) :
    ∃ b d, inverseFourierTransform mem' a = .ok b ∧ fourierTransform mem b = .ok d ∧
      b.channels.cols = 2 * (a.channels.cols - 1) ∧ b.offset = 0 ∧ b.rate = a.resolution * b.channels.cols ∧
      d.channels.rows = a.channels.rows ∧ d.channels.cols = a.channels.cols ∧ d.resolution = a.resolution ∧
      d.labels = a.labels ∧ ∀ c k, c < a.channels.rows → k < a.channels.cols →
        d.channels.get c k = if k = 0 ∨ k + 1 = a.channels.cols then ((a.channels.get c k).re : ℂ)
          else a.channels.get c k := by
  obtain ⟨M, hM⟩ : ∃ M, a.channels.cols = M + 1 := ⟨a.channels.cols - 1, by omega⟩
  have hM0 : 0 < M := by omega
  have hN : ((2 * M : Nat) : ℝ) ≠ 0 := Nat.cast_ne_zero.mpr (by omega)
  obtain ⟨E, hE⟩ : ∃ E, E = (⟨a.channels.rows, 2 * M, fun i n => ((1 / ((2 * M : Nat) : ℂ)) * ∑ k ∈ range (2 * M),
      hermitian M (a.channels.get i) k * omega (2 * M) ^ ((k : ℤ) * n)).re⟩ : Mat ℝ) := ⟨_, rfl⟩
  have hirfft : irfftN a.channels = .ok E := by
    unfold irfftN Mat.irfft
    rw [if_neg (by omega), if_neg (by omega), hM, Nat.add_sub_cancel, hE]
  have hlen : max 1 ((a.length - 1) * 2) = 2 * M := by
    show max 1 ((a.channels.cols - 1) * 2) = 2 * M
    rw [hM]
    omega
  obtain ⟨D, h1, h2, h3, h4⟩ := assign_full (A := alloc mem' a.count (2 * M)) (B := E) (by rw [hE]; rfl) (by rw [hE]; rfl)
  have hb : inverseFourierTransform mem' a =
      .ok (Signal.new D (a.resolution * (2 * M : Nat)) 0 (some a.labels)) := by
    unfold inverseFourierTransform
    rw [if_neg (show ¬a.length = 0 by unfold Spectrum.length; omega)]
    dsimp only
    rw [hlen, hirfft]
    show (Mat.assign _ _ _ _ >>= _) = _
    rw [h1]
    rfl
  have hDc : D.cols = 2 * M := h3
  have hDr : D.rows = a.channels.rows := h2
  have hlab : (Signal.new D (a.resolution * (2 * M : Nat)) 0 (some a.labels)).labels = a.labels := by
    show sanitizeLabels (some a.labels) D.rows = _
    exact Signal.sanitize_self (by rw [hDr]; exact hl)
  obtain ⟨d, g1, g2, g3, g4, g5, g6⟩ := C52_transform mem (Signal.new D (a.resolution * (2 * M : Nat)) 0 (some a.labels))
    (by rw [hlab, hl]; exact hDr.symm) (by show 1 ≤ D.rows; omega) (by show 1 ≤ D.cols; omega) (mul_ne_zero hr hN)
  have g2' : d.channels.rows = D.rows := g2
  have g3' : d.channels.cols = D.cols / 2 + 1 := g3
  have g4' : d.resolution = a.resolution * (2 * M : Nat) / D.cols := g4
  have hres : d.resolution = a.resolution := by
    rw [g4', hDc, mul_div_assoc, div_self hN, mul_one]
  refine ⟨_, d, hb, g1, by show D.cols = _; omega, rfl, by show _ = a.resolution * (D.cols : ℝ); rw [hDc]; rfl, by omega,
    by omega, hres, by rw [g5, hlab], ?_⟩
  intro c k hc hk
  have hval := g6 c k (by show c < D.rows; omega) (by show k ≤ D.cols / 2; omega)
  have hNc : ((2 * M : Nat) : ℂ) ≠ 0 := Nat.cast_ne_zero.mpr (by omega)
  have hresc : (a.resolution : ℂ) ≠ 0 := Complex.ofReal_ne_zero.mpr hr
  have : d.channels.get c k = dft (2 * M) (D.get c) k := by
    rw [hval]
    unfold dft
    show ∑ j ∈ range D.cols, _ = _
    rw [hDc]
    refine Finset.sum_congr rfl fun j _ => ?_
    rw [omega_zpow]
    show (D.get c j : ℂ) * _ = _
    congr 2
    rw [hres]
    show -2 * Real.pi * Complex.I * ((k * a.resolution : ℝ) : ℂ) *
      ((((0 : Int) + j) / (a.resolution * (2 * M : Nat)) : ℝ) : ℂ) = _
    have h2M : (M : ℂ) ≠ 0 := Nat.cast_ne_zero.mpr (by omega)
    push_cast
    field_simp
    ring
  rw [this]
  have hDE : dft (2 * M) (D.get c) k = dft (2 * M) (E.get c) k := by
    unfold dft
    refine Finset.sum_congr rfl fun j hj => ?_
    rw [mem_range] at hj
    rw [h4 c j hc hj]
  rw [hDE, hE]
  show dft (2 * M) (fun n => _) k = _
  rw [dft_inverse hM0 (a.channels.get c) (by omega)]
  unfold hermitian
  by_cases hk0 : k = 0 ∨ k = M
  · rw [if_pos hk0, if_pos (by omega)]
  · rw [if_neg hk0, if_pos (show k < M by omega), if_neg (show ¬(k = 0 ∨ k + 1 = a.channels.cols) by omega)]

/-- C52: A spectrum with real values in the first and the last bin is restored exactly. -/
theorem C52_spectrum_exact (mem : Nat → Nat → ℂ) (mem' : Nat → Nat → ℝ) (a : Spectrum ℂ ℝ)
    (hl : a.labels.length = a.channels.rows) (hm : 1 ≤ a.channels.rows) (hn : 2 ≤ a.channels.cols)
    (hr : a.resolution ≠ 0) (h0 : ∀ c, c < a.channels.rows → (a.channels.get c 0).im = 0)
    (h1 : ∀ c, c < a.channels.rows → (a.channels.get c (a.channels.cols - 1)).im = 0) :
    ∃ b d, inverseFourierTransform mem' a = .ok b ∧ fourierTransform mem b = .ok d ∧ d.channels.Eqv a.channels ∧
      d.resolution = a.resolution ∧ d.labels = a.labels := by
  obtain ⟨b, d, g1, g2, _, _, _, g3, g4, g5, g6, g7⟩ := C52_spectrum mem mem' a hl hm hn hr
  refine ⟨b, d, g1, g2, ⟨g3, g4, ?_⟩, g5, g6⟩
  intro c k hc hk
  rw [g7 c k (by omega) (by omega)]
  split
  next h =>
    apply Complex.ext
    · simp
    · rw [Complex.ofReal_im]
      rcases h with h | h
      · rw [h, h0 c (by omega)]
      · rw [show k = a.channels.cols - 1 by omega, h1 c (by omega)]
  · rfl

example : ∃ a : Spectrum ℂ ℝ, a.labels.length = a.channels.rows ∧ 1 ≤ a.channels.rows ∧ 2 ≤ a.channels.cols ∧
    a.resolution ≠ 0 ∧ (∀ c, c < a.channels.rows → (a.channels.get c 0).im = 0) ∧
    ∀ c, c < a.channels.rows → (a.channels.get c (a.channels.cols - 1)).im = 0 :=
  ⟨⟨⟨2, 3, fun c i => c + i + (i * (i - 2)) * Complex.I⟩, 1, ["a", "b"]⟩, rfl, by decide, by decide, by norm_num,
    by intro c _; simp, by intro c _; norm_num⟩

/-! ### odd lengths -/

/-- C52: A signal with one sample is restored. -/
theorem C52_one (mem : Nat → Nat → ℂ) (mem' : Nat → Nat → ℝ) (a : Signal ℝ ℝ)
    (hl : a.labels.length = a.channels.rows) (hm : 1 ≤ a.channels.rows) (hn : a.channels.cols = 1) (hr : a.rate ≠ 0) :
    ∃ b d, fourierTransform mem a = .ok b ∧ inverseFourierTransform mem' b = .ok d ∧ d.channels.Eqv a.channels ∧
      d.rate = a.rate ∧ d.offset = 0 ∧ d.labels = a.labels := by
  obtain ⟨b, hb, b1, b2, b3, b4, b5⟩ := C52_transform mem a hl hm (by omega) hr
  have hcols : b.channels.cols = 1 := by rw [b2, hn]
  have hlen : max 1 ((b.length - 1) * 2) = 1 := by
    show max 1 ((b.channels.cols - 1) * 2) = 1
    omega
  obtain ⟨D, h1, h2, h3, h4⟩ := assign_full (A := alloc mem' b.count 1)
    (B := ⟨b.channels.rows, 1, fun i _ => (b.channels.get i 0).re⟩) rfl rfl
  refine ⟨b, Signal.new D (b.resolution * (1 : Nat)) 0 (some b.labels), hb, ?_, ⟨?_, ?_, ?_⟩, ?_, rfl, ?_⟩
  · unfold inverseFourierTransform
    rw [if_neg (show ¬b.length = 0 by unfold Spectrum.length; omega)]
    dsimp only
    rw [hlen]
    unfold irfftN
    rw [if_pos hcols]
    show (Mat.assign _ _ _ _ >>= _) = _
    rw [h1]
    rfl
  · show D.rows = _
    rw [h2]
    exact b1
  · show D.cols = _
    rw [h3, hn]
    rfl
  · intro c n hc hn'
    have hc' : c < a.channels.rows := by
      have : c < D.rows := hc
      rw [h2] at this
      exact b1 ▸ this
    have hn0 : n = 0 := by
      have : n < D.cols := hn'
      rw [h3] at this
      have : n < 1 := this
      omega
    show D.get c n = _
    rw [h4 c n (by show c < b.channels.rows; omega) (by show n < 1; omega), hn0]
    show (b.channels.get c 0).re = _
    rw [b5 c 0 hc' (by omega), hn, Finset.sum_range_one]
    simp
  · show b.resolution * (1 : Nat) = a.rate
    rw [b3, hn]
    simp
  · show sanitizeLabels (some b.labels) D.rows = _
    rw [Signal.sanitize_self (by rw [b4, h2, hl]; exact b1.symm), b4]

example : ∃ a : Signal ℝ ℝ, a.labels.length = a.channels.rows ∧ 1 ≤ a.channels.rows ∧ a.channels.cols = 1 ∧ a.rate ≠ 0 ∧
    a.offset = 3 :=
  ⟨⟨⟨2, 1, fun c i => c + i⟩, 48000, 3, ["a", "b"]⟩, rfl, by decide, rfl, by norm_num, rfl⟩

/-- C52: A signal with an odd length of at least three loses one sample, when it is transformed to the frequency domain and
back. -/
theorem C52_odd (mem : Nat → Nat → ℂ) (mem' : Nat → Nat → ℝ) (a : Signal ℝ ℝ)
    (hl : a.labels.length = a.channels.rows) (hm : 1 ≤ a.channels.rows) (hn : 3 ≤ a.channels.cols)
    (he : a.channels.cols % 2 = 1) (hr : a.rate ≠ 0) :
    ∃ b d, fourierTransform mem a = .ok b ∧ inverseFourierTransform mem' b = .ok d ∧
      d.channels.cols + 1 = a.channels.cols ∧ d.rate / d.channels.cols = a.rate / a.channels.cols := by
  obtain ⟨b, hb, b1, b2, b3, b4, _⟩ := C52_transform mem a hl hm (by omega) hr
  have hL : (a.channels.cols : ℝ) ≠ 0 := Nat.cast_ne_zero.mpr (by omega)
  obtain ⟨d, _, hd, _, h1, _, h2, _⟩ := C52_spectrum mem mem' b (by rw [b4, hl, b1]) (by omega) (by omega)
    (by rw [b3]; exact div_ne_zero hr hL)
  refine ⟨b, d, hb, hd, by omega, ?_⟩
  have : (d.channels.cols : ℝ) ≠ 0 := Nat.cast_ne_zero.mpr (by omega)
  rw [h2, mul_div_assoc, div_self this, mul_one, b3]

example : ∃ a : Signal ℝ ℝ, a.labels.length = a.channels.rows ∧ 1 ≤ a.channels.rows ∧ 3 ≤ a.channels.cols ∧
    a.channels.cols % 2 = 1 ∧ a.rate ≠ 0 :=
  ⟨⟨⟨2, 5, fun c i => c + i⟩, 48000, 1, ["a", "b"]⟩, rfl, by decide, by decide, rfl, by norm_num⟩

end Fourier
end Verif
