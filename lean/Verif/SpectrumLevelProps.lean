import Verif.SpectrumLevel
import Verif.FourierProps
import Verif.LevelProps
import Verif.StftProps

/-
Property C91: the level of a spectrum is the level of the signal, to which it belongs.
-/

namespace Verif
namespace Level

open Finset Dft

/-- Parseval's theorem for the discrete Fourier transform of real values -/
theorem parseval {N : Nat} (hN : N ≠ 0) (x : Nat → ℝ) :
    ∑ k ∈ range N, ‖dft N x k‖ ^ 2 = N * ∑ j ∈ range N, x j ^ 2 := by
  have hsq : ∀ z : ℂ, ((‖z‖ ^ 2 : ℝ) : ℂ) = z * (starRingEnd ℂ) z := by
    intro z
    rw [Complex.mul_conj, Complex.normSq_eq_norm_sq]
  apply Complex.ofReal_injective
  rw [Complex.ofReal_sum]
  simp only [hsq, conj_dft]
  have e : ∀ k ∈ range N, dft N x k * dft N x (-(k : ℤ)) =
      ∑ j ∈ range N, ∑ l ∈ range N, ((x j : ℂ) * x l) * omega N ^ ((k : ℤ) * (l - j)) := by
    intro k _
    unfold dft
    rw [Finset.sum_mul_sum]
    refine Finset.sum_congr rfl fun j _ => Finset.sum_congr rfl fun l _ => ?_
    rw [show (k : ℤ) * (l - j) = -(k * j) + -(-(k : ℤ) * l) by ring, zpow_add₀ (omega_ne_zero N)]
    ring
  rw [Finset.sum_congr rfl e, Finset.sum_comm]
  have e2 : ∀ j ∈ range N, ∑ k ∈ range N, ∑ l ∈ range N, ((x j : ℂ) * x l) * omega N ^ ((k : ℤ) * (l - j)) =
      N * (x j : ℂ) ^ 2 := by
    intro j hj
    rw [mem_range] at hj
    rw [Finset.sum_comm]
    simp only [← Finset.mul_sum, sum_omega hN]
    rw [Finset.sum_eq_single j]
    · rw [if_pos (by simp)]
      ring
    · intro l hl hne
      rw [mem_range] at hl
      rw [if_neg, mul_zero]
      intro hd
      have := Int.eq_zero_of_abs_lt_dvd hd (by rw [abs_lt]; omega)
      omega
    · intro h
      exact absurd (mem_range.mpr hj) h
  rw [Finset.sum_congr rfl e2, ← Finset.mul_sum]
  push_cast
  rfl

/-- the same for the half of the spectrum, that is stored for real signals with an even length -/
theorem parseval_half {M : Nat} (hM : 0 < M) (x : Nat → ℝ) :
    (∑ k ∈ Ico 1 M, ‖dft (2 * M) x k‖ ^ 2) * 2 + ‖dft (2 * M) x (0 : ℕ)‖ ^ 2 + ‖dft (2 * M) x M‖ ^ 2 =
      (2 * M : Nat) * ∑ j ∈ range (2 * M), x j ^ 2 := by
  rw [← parseval (show 2 * M ≠ 0 by omega) x]
  have hsym : ∀ k : Nat, k ≤ 2 * M → ‖dft (2 * M) x ((2 * M - k : Nat) : ℤ)‖ = ‖dft (2 * M) x k‖ := by
    intro k hk
    rw [show ((2 * M - k : Nat) : ℤ) = -(k : ℤ) + (2 * M : Nat) by omega, dft_period (by omega), ← conj_dft,
      Complex.norm_conj]
  have h1 : ∑ k ∈ range (2 * M), ‖dft (2 * M) x k‖ ^ 2 =
      ‖dft (2 * M) x (0 : ℕ)‖ ^ 2 + ∑ k ∈ Ico 1 M, ‖dft (2 * M) x k‖ ^ 2 +
        (‖dft (2 * M) x M‖ ^ 2 + ∑ k ∈ Ico (M + 1) (2 * M), ‖dft (2 * M) x k‖ ^ 2) := by
    rw [range_eq_Ico, ← Finset.sum_Ico_consecutive _ (Nat.zero_le M) (show M ≤ 2 * M by omega),
      Finset.sum_eq_sum_Ico_succ_bot hM, Finset.sum_eq_sum_Ico_succ_bot (show M < 2 * M by omega)]
  have h2 : ∑ k ∈ Ico (M + 1) (2 * M), ‖dft (2 * M) x k‖ ^ 2 = ∑ k ∈ Ico 1 M, ‖dft (2 * M) x k‖ ^ 2 := by
    refine Finset.sum_nbij' (fun k => 2 * M - k) (fun k => 2 * M - k) ?_ ?_ ?_ ?_ ?_
    · intro k hk; rw [mem_Ico] at hk ⊢; omega
    · intro k hk; rw [mem_Ico] at hk ⊢; omega
    · intro k hk; rw [mem_Ico] at hk; omega
    · intro k hk; rw [mem_Ico] at hk; omega
    · intro k hk
      rw [mem_Ico] at hk
      rw [hsym k (by omega)]
  rw [h1, h2]
  ring

/-- the magnitude of the transform does not depend on the offset -/
theorem norm_transform {L : Nat} (hL : 0 < L) (x : Nat → ℝ) (rate : ℝ) (hr : rate ≠ 0) (o : ℤ) (k : Nat) :
    ‖∑ j ∈ range L, (x j : ℂ) * Complex.exp (-2 * Real.pi * Complex.I * ((k * (rate / L) : ℝ) : ℂ) *
      (((o + j) / rate : ℝ) : ℂ))‖ = ‖dft L x k‖ := by
  have hLc : (L : ℂ) ≠ 0 := Nat.cast_ne_zero.mpr (by omega)
  have hrc : (rate : ℂ) ≠ 0 := Complex.ofReal_ne_zero.mpr hr
  have e : ∑ j ∈ range L, (x j : ℂ) * Complex.exp (-2 * Real.pi * Complex.I * ((k * (rate / L) : ℝ) : ℂ) *
      (((o + j) / rate : ℝ) : ℂ)) =
      Complex.exp (((-2 * Real.pi * k * o / L : ℝ) : ℂ) * Complex.I) * dft L x k := by
    unfold dft
    rw [Finset.mul_sum]
    refine Finset.sum_congr rfl fun j _ => ?_
    rw [Fourier.omega_zpow, mul_left_comm, ← Complex.exp_add]
    congr 2
    push_cast
    field_simp
    ring
  rw [e, norm_mul, Complex.norm_exp_ofReal_mul_I, one_mul]

theorem power_transform (mem : Nat → Nat → ℂ) (a : Signal ℝ ℝ) (hl : a.labels.length = a.channels.rows)
    (hm : 1 ≤ a.channels.rows) (M : Nat) (hM : 0 < M) (hn : a.channels.cols = 2 * M) (hr : a.rate ≠ 0) :
    ∃ b, Fourier.fourierTransform mem a = .ok b ∧ b.count = a.count ∧ b.length = M + 1 ∧
      ∀ c, c < a.count → spectrumPower b.channels c = .ok ((2 * M : Nat) * ∑ j ∈ range (2 * M), a.channels.get c j ^ 2) := by
  obtain ⟨b, h1, h2, h3, h4, h5, h6⟩ := Fourier.C52_transform mem a hl hm (by omega) hr
  have h3' : b.channels.cols = M + 1 := by omega
  refine ⟨b, h1, h2, h3', ?_⟩
  intro c hc
  have hval : ∀ k, k ≤ M → ‖b.channels.get c k‖ = ‖dft (2 * M) (a.channels.get c) k‖ := by
    intro k hk
    rw [h6 c k hc (by omega), h4, norm_transform (by omega) _ _ hr, hn]
  unfold spectrumPower
  rw [if_neg (by omega), h3', Nat.add_sub_cancel, ← parseval_half hM (a.channels.get c), hval 0 (by omega), hval M le_rfl]
  congr 4
  refine Finset.sum_congr rfl fun k hk => ?_
  rw [mem_Ico] at hk
  rw [hval k (by omega)]

theorem sqrt_power {N : Nat} (hN : 0 < N) (S : ℝ) :
    Real.sqrt (N * S) / N = Real.sqrt S / Real.sqrt N := by
  have h : (0 : ℝ) < N := Nat.cast_pos.mpr hN
  rw [Real.sqrt_mul h.le, div_eq_div_iff h.ne' (Real.sqrt_pos.mpr h).ne']
  have := Real.mul_self_sqrt h.le
  calc Real.sqrt N * Real.sqrt S * Real.sqrt N = Real.sqrt N * Real.sqrt N * Real.sqrt S := by ring
    _ = Real.sqrt S * N := by rw [this]; ring

theorem sum_map_range (n : Nat) (f : Nat → ℝ) : ((List.range n).map f).sum = ∑ c ∈ range n, f c := by
  induction n with
  | zero => rfl
  | succ n ih => rw [List.range_succ, List.map_append, List.sum_append, ih, Finset.sum_range_succ]; simp

/-- the levels from the powers -/
theorem level_of_power (b : Spectrum ℂ ℝ) (a : Signal ℝ ℝ) (M : Nat) (hM : 0 < M) (hcount : b.count = a.count)
    (hb : b.length = M + 1) (ha : a.channels.cols = 2 * M) (hm : 0 < a.count)
    (h : ∀ c, c < a.count → spectrumPower b.channels c =
      .ok ((2 * M : Nat) * ∑ j ∈ range (2 * M), a.channels.get c j ^ 2)) :
    spectrumLevel b = .ok ((List.range a.count).map (level a)) ∧ spectrumTotalLevel b = .ok (totalLevel a) := by
  have hlen : max 1 ((b.length - 1) * 2) = 2 * M := by rw [hb]; omega
  have hcols : a.length = 2 * M := ha
  constructor
  · unfold spectrumLevel
    dsimp only
    rw [hlen, hcount]
    refine Stft.mapM_ok _ _ _ ?_
    intro c hc
    rw [List.mem_range] at hc
    rw [h c hc]
    show Except.ok _ = Except.ok _
    congr 1
    rw [sqrt_power (by omega)]
    unfold level norm
    rw [ha, hcols]
  · unfold spectrumTotalLevel
    dsimp only
    rw [hlen, hcount, Stft.mapM_ok (fun c => spectrumPower b.channels c)
      (fun c => (2 * M : Nat) * ∑ j ∈ range (2 * M), a.channels.get c j ^ 2) _
      (fun c hc => h c (List.mem_range.mp hc))]
    have hc0 : (a.count : ℝ) ≠ 0 := Nat.cast_ne_zero.mpr (by omega)
    show (Sweep.div _ _ >>= fun mean => _) = _
    unfold Sweep.div
    rw [if_neg hc0]
    show Except.ok _ = Except.ok _
    congr 1
    have hsum : ((List.range a.count).map fun c => ((2 * M : Nat) : ℝ) * ∑ j ∈ range (2 * M), a.channels.get c j ^ 2).sum =
        ((2 * M : Nat) : ℝ) * ∑ c ∈ range a.count, ∑ j ∈ range (2 * M), a.channels.get c j ^ 2 := by
      rw [Finset.mul_sum, sum_map_range]
    rw [hsum, mul_div_assoc, sqrt_power (by omega)]
    unfold totalLevel totalNorm
    rw [ha, hcols]
    show _ = Real.sqrt (∑ c ∈ range a.count, _) / _
    rw [Real.sqrt_mul (Nat.cast_nonneg _), Real.sqrt_div (Finset.sum_nonneg fun c _ => Finset.sum_nonneg fun j _ => sq_nonneg _),
      div_div]

/-- C91: the level of the Fourier transform of a signal with an even length is the level of the signal, for each
channel and for all channels together, whatever the offset is. -/
theorem C91_signal (mem : Nat → Nat → ℂ) (a : Signal ℝ ℝ) (hl : a.labels.length = a.channels.rows)
    (hm : 1 ≤ a.channels.rows) (hn : 1 ≤ a.channels.cols) (heven : 2 ∣ a.channels.cols) (hr : a.rate ≠ 0) :
    ∃ b, Fourier.fourierTransform mem a = .ok b ∧
      spectrumLevel b = .ok ((List.range a.count).map (level a)) ∧ spectrumTotalLevel b = .ok (totalLevel a) := by
  obtain ⟨M, hM⟩ := heven
  obtain ⟨b, h1, h2, h3, h4⟩ := power_transform mem a hl hm M (by omega) hM hr
  exact ⟨b, h1, level_of_power b a M (by omega) h2 h3 hM hm h4⟩

/-- the hypotheses of `C91_signal` -/
example : ∃ a : Signal ℝ ℝ, a.labels.length = a.channels.rows ∧ 1 ≤ a.channels.rows ∧ 1 ≤ a.channels.cols ∧
    2 ∣ a.channels.cols ∧ a.rate ≠ 0 ∧ a.offset = -2 :=
  ⟨⟨⟨2, 6, fun c i => c + i⟩, 48000, -2, ["a", "b"]⟩, rfl, by decide, by decide, by decide, by norm_num, rfl⟩

theorem power_congr {A B : Mat ℂ} (hc : A.cols = B.cols) (c : Nat)
    (h : ∀ k, k < A.cols → A.get c k = B.get c k) : spectrumPower A c = spectrumPower B c := by
  unfold spectrumPower
  by_cases h0 : A.cols = 0
  · rw [if_pos h0, if_pos (by omega)]
  · rw [if_neg h0, if_neg (by omega), ← hc, h 0 (by omega), h (A.cols - 1) (by omega)]
    congr 4
    refine Finset.sum_congr rfl fun k hk => ?_
    rw [mem_Ico] at hk
    rw [h k (by omega)]

/-- C91: the level of a spectrum with at least two bins and real values in the first and the last bin is the level of
its inverse Fourier transform.  `_partial`: false for spectrums with one bin (`C91_one_bin_violated`) and for
complex values in the first or the last bin (`C91_complex_violated`). -/
theorem C91_spectrum_partial (mem : Nat → Nat → ℝ) (a : Spectrum ℂ ℝ)
    (hl : a.labels.length = a.channels.rows) (hm : 1 ≤ a.channels.rows) (hn : 2 ≤ a.channels.cols)
    (hr : a.resolution ≠ 0)
    (hreal : ∀ c, c < a.channels.rows → (a.channels.get c 0).im = 0 ∧ (a.channels.get c (a.channels.cols - 1)).im = 0) :
    ∃ b, Fourier.inverseFourierTransform mem a = .ok b ∧
      spectrumLevel a = .ok ((List.range a.count).map (level b)) ∧ spectrumTotalLevel a = .ok (totalLevel b) := by
  obtain ⟨b, d, h1, h2, h3, h4, h5, h6, h7, h8, h9, h10⟩ := Fourier.C52_spectrum (fun _ _ => 0) mem a hl hm hn hr
  have hval : ∀ c k, c < a.channels.rows → k < a.channels.cols → d.channels.get c k = a.channels.get c k := by
    intro c k hc hk
    rw [h10 c k hc hk]
    by_cases hk0 : k = 0 ∨ k + 1 = a.channels.cols
    · rw [if_pos hk0]
      have him : (a.channels.get c k).im = 0 := by
        rcases hk0 with rfl | hk1
        · exact (hreal c hc).1
        · rw [show k = a.channels.cols - 1 by omega]; exact (hreal c hc).2
      exact Complex.ext rfl him.symm
    · rw [if_neg hk0]
  have hrow : d.channels.rows = b.channels.rows ∧ b.labels.length = b.channels.rows := by
    have hb : b.labels.length = b.channels.rows ∧ b.channels.rows = a.channels.rows := by
      unfold Fourier.inverseFourierTransform at h1
      rw [if_neg (show ¬a.length = 0 by unfold Spectrum.length; omega)] at h1
      dsimp only at h1
      cases hi : Fourier.irfftN a.channels with
      | error e => rw [hi] at h1; cases h1
      | ok E =>
        rw [hi] at h1
        change (Mat.assign _ _ _ _ >>= _) = _ at h1
        cases hA : (alloc mem a.count (max 1 ((a.length - 1) * 2))).assign .all .all E with
        | error e => rw [hA] at h1; cases h1
        | ok D =>
          rw [hA] at h1
          have hD : D.rows = a.count := by
            unfold Mat.assign at hA
            split at hA
            · cases hA
            · exact (congrArg Mat.rows (Except.ok.inj hA)).symm
          obtain rfl := Except.ok.inj h1
          exact ⟨Signal.new_wf _ _ _ _, hD⟩
    exact ⟨h6.trans hb.2.symm, hb.1⟩
  have hbr : b.channels.rows = a.channels.rows := by rw [← hrow.1, h6]
  have hrate : b.rate ≠ 0 := by
    rw [h5]
    exact mul_ne_zero hr (Nat.cast_ne_zero.mpr (by omega))
  obtain ⟨d', g1, g2, g3, g4⟩ := power_transform (fun _ _ => 0) b hrow.2 (by omega) (a.channels.cols - 1) (by omega) h3 hrate
  rw [h2] at g1
  obtain rfl := Except.ok.inj g1
  refine ⟨b, h1, ?_⟩
  have hbc : b.count = a.count := hbr
  rw [← hbc]
  refine level_of_power a b (a.channels.cols - 1) (by omega) hbc.symm (by show a.channels.cols = _; omega) h3
    (by show 0 < b.channels.rows; omega) ?_
  intro c hc
  rw [← g4 c hc]
  exact power_congr h7.symm c fun k hk => (hval c k (Nat.lt_of_lt_of_eq hc hbc) hk).symm

/-- the hypotheses of `C91_spectrum_partial` -/
example : ∃ a : Spectrum ℂ ℝ, a.labels.length = a.channels.rows ∧ 1 ≤ a.channels.rows ∧ 2 ≤ a.channels.cols ∧
    a.resolution ≠ 0 ∧ (∀ c, c < a.channels.rows → (a.channels.get c 0).im = 0 ∧
      (a.channels.get c (a.channels.cols - 1)).im = 0) ∧ a.channels.get 1 1 = Complex.I :=
  ⟨⟨⟨2, 3, fun c i => if i = 1 then Complex.I else c⟩, 10, ["a", "b"]⟩, rfl, by decide, by decide, by norm_num,
    fun c _ => by simp, by simp⟩

/-- C91 is violated for spectrums with one bin: this bin is counted twice, so the level is too large by a factor
of √2. -/
theorem C91_one_bin_violated (mem : Nat → Nat → ℝ) : ∃ (a : Spectrum ℂ ℝ) (b : Signal ℝ ℝ), a.length = 1 ∧
    Fourier.inverseFourierTransform mem a = .ok b ∧ level b 0 = 1 ∧ spectrumLevel a = .ok [Real.sqrt 2] := by
  refine ⟨⟨⟨1, 1, fun _ _ => 1⟩, 1, [""]⟩, ⟨⟨1, 1, fun i j => if (0 ≤ i ∧ i < 1) ∧ 0 ≤ j ∧ j < 1 then 1 else mem i j⟩, 1, 0, [""]⟩,
    rfl, ?_, ?_, ?_⟩
  · unfold Fourier.inverseFourierTransform Fourier.irfftN
    simp [Spectrum.length, Spectrum.count, Mat.assign, Mat.broadcastTo, alloc, Signal.new, sanitizeLabels, bind, Except.bind]
  · simp [level, norm, Signal.length]
  · have hp : spectrumPower (⟨1, 1, fun _ _ => 1⟩ : Mat ℂ) 0 = .ok 2 := by
      unfold spectrumPower
      rw [if_neg (by decide)]
      norm_num
    unfold spectrumLevel
    dsimp only [Spectrum.count, Spectrum.length]
    rw [Stft.mapM_ok _ (fun _ => Real.sqrt 2) _ ?_]
    · rfl
    · intro c hc
      have : c = 0 := by simpa using hc
      subst this
      rw [hp]
      show Except.ok _ = Except.ok _
      norm_num

/-- C91 is violated, if the first bin is not real: its imaginary part counts for the level, although it is not
contained in any signal. -/
theorem C91_complex_violated (mem : Nat → Nat → ℝ) : ∃ (a : Spectrum ℂ ℝ) (b : Signal ℝ ℝ), a.length = 2 ∧
    Fourier.inverseFourierTransform mem a = .ok b ∧ level b 0 = 0 ∧ spectrumLevel a = .ok [1 / 2] := by
  have hE : Fourier.irfftN (⟨1, 2, fun _ k => if k = 0 then Complex.I else 0⟩ : Mat ℂ) = .ok ⟨1, 2, fun _ _ => 0⟩ := by
    unfold Fourier.irfftN Mat.irfft
    rw [if_neg (by decide), if_neg (by decide)]
    congr 2
    funext i n
    simp [Finset.sum_range_succ, hermitian]
  refine ⟨⟨⟨1, 2, fun _ k => if k = 0 then Complex.I else 0⟩, 1, [""]⟩,
    ⟨⟨1, 2, fun i j => if (0 ≤ i ∧ i < 1) ∧ 0 ≤ j ∧ j < 2 then 0 else mem i j⟩, 2, 0, [""]⟩, rfl, ?_, ?_, ?_⟩
  · unfold Fourier.inverseFourierTransform
    rw [if_neg (by decide)]
    dsimp only
    rw [hE]
    simp [Spectrum.length, Spectrum.count, Mat.assign, Mat.broadcastTo, alloc, Signal.new, sanitizeLabels, bind, Except.bind]
  · simp [level, norm, Signal.length, Finset.sum_range_succ]
  · have hp : spectrumPower (⟨1, 2, fun _ k => if k = 0 then Complex.I else 0⟩ : Mat ℂ) 0 = .ok 1 := by
      unfold spectrumPower
      rw [if_neg (by decide)]
      norm_num
    unfold spectrumLevel
    dsimp only [Spectrum.count, Spectrum.length]
    rw [Stft.mapM_ok _ (fun _ => (1 / 2 : ℝ)) _ ?_]
    · rfl
    · intro c hc
      have : c = 0 := by simpa using hc
      subst this
      rw [hp]
      show Except.ok _ = Except.ok _
      norm_num

/-- C91 is violated for signals with an odd length: the level of the transform of the signal `1, 0, 0` is `√2 / 2`,
while the level of the signal is `1 / √3`.  The last bin of the spectrum stands for two bins of the complete Fourier
transform and the signal has three samples rather than two, but the spectrum does not know this. -/
theorem C91_odd_violated (mem : Nat → Nat → ℂ) : ∃ (a : Signal ℝ ℝ) (b : Spectrum ℂ ℝ), a.length = 3 ∧
    Fourier.fourierTransform mem a = .ok b ∧ level a 0 = 1 / Real.sqrt 3 ∧ spectrumLevel b = .ok [Real.sqrt 2 / 2] := by
  obtain ⟨b, h1, h2, h3, h4, h5, h6⟩ := Fourier.C52_transform mem
    ⟨⟨1, 3, fun _ i => if i = 0 then 1 else 0⟩, 1, 0, [""]⟩ rfl le_rfl (by decide) one_ne_zero
  refine ⟨⟨⟨1, 3, fun _ i => if i = 0 then 1 else 0⟩, 1, 0, [""]⟩, b, rfl, h1, ?_, ?_⟩
  · simp [level, norm, Signal.length, Finset.sum_range_succ]
  · have h2' : b.channels.rows = 1 := h2
    have h3' : b.channels.cols = 2 := h3
    have hval : ∀ k, k < 2 → ‖b.channels.get 0 k‖ = 1 := by
      intro k hk
      rw [h6 0 k (by decide) (by omega), h4, norm_transform (by decide) _ _ one_ne_zero]
      simp [dft, Finset.sum_range_succ]
    have hp : spectrumPower b.channels 0 = .ok 2 := by
      unfold spectrumPower
      rw [if_neg (by omega), h3', hval 0 (by decide), hval _ (by decide)]
      norm_num
    unfold spectrumLevel
    dsimp only [Spectrum.count, Spectrum.length]
    rw [h2', h3', Stft.mapM_ok _ (fun _ => Real.sqrt 2 / 2) _ ?_]
    · rfl
    · intro c hc
      have : c = 0 := by simpa using hc
      subst this
      rw [hp]
      show Except.ok _ = Except.ok _
      norm_num

/-- spectrums without bins have no level -/
theorem C91_empty (a : Spectrum ℂ ℝ) (hm : 0 < a.count) (hn : a.length = 0) :
    spectrumLevel a = .error .indexError ∧ spectrumTotalLevel a = .error .indexError := by
  have hp : ∀ c, spectrumPower a.channels c = .error .indexError := fun c => if_pos hn
  obtain ⟨n, hc⟩ := Nat.exists_eq_succ_of_ne_zero hm.ne'
  constructor
  · unfold spectrumLevel
    dsimp only
    rw [hc, List.range_succ_eq_map, List.mapM_cons, hp]
    rfl
  · unfold spectrumTotalLevel
    dsimp only
    rw [hc, List.range_succ_eq_map, List.mapM_cons, hp]
    rfl

/-- the hypotheses of `C91_empty` -/
example : ∃ a : Spectrum ℂ ℝ, 0 < a.count ∧ a.length = 0 := ⟨⟨⟨1, 0, fun _ _ => 0⟩, 1, [""]⟩, by decide, rfl⟩

end Level
end Verif
