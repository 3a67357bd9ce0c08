import Verif.Waves
import Verif.NumpyLemmas
import Verif.Dft

/-
C82: the samples of the sine and the square wave.
C83: the constant signals, spectrums and spectrograms.
-/

namespace Verif
namespace Waves

open Finset

/-! ### C82 -/

theorem omegaT_ok (frequency phase rate : ℝ) (length : Nat) (hr : rate ≠ 0) :
    ∃ A, omegaT frequency phase rate length = .ok A ∧ A.rows = 1 ∧ A.cols = length ∧
      ∀ i : Nat, i < length → A.get 0 i = 2 * Real.pi * frequency * (i / rate) + phase := by
  unfold omegaT Sweep.div
  rw [if_neg hr]
  refine ⟨_, rfl, rfl, rfl, ?_⟩
  intro i hi
  show Sweep.linspace _ _ _ _ = _
  unfold Sweep.linspace
  split
  · obtain rfl : i = 0 := by omega
    simp
  · have hl : (length : ℝ) - 1 ≠ 0 := by
      have : (1 : ℝ) < length := by exact_mod_cast (by omega : 1 < length)
      linarith
    field_simp
    ring

theorem fill_row (mem : Nat → Nat → ℝ) (A : Mat ℝ) (length : Nat) (h1 : A.rows = 1) (h2 : A.cols = length) :
    ∃ C, (alloc mem 1 length).assign .all .all A = .ok C ∧ C.rows = 1 ∧ C.cols = length ∧
      ∀ i, i < length → C.get 0 i = A.get 0 i := by
  obtain ⟨C, c1, c2, c3, c4, _⟩ := Mat.assign_ok (A := alloc mem 1 length) (S := A) (r := .all) (c := .all) 0 1 0 length
    rfl rfl rfl rfl h1 h2
  exact ⟨C, c1, c2, c3, fun i hi => c4 0 i (by omega) (by omega) (by omega) hi⟩

/-- C82: The samples and the number of periods of a sine wave. -/
theorem C82_sine (mem : Nat → Nat → ℝ) (frequency phase rate : ℝ) (length : Nat) (hr : rate ≠ 0) :
    ∃ w, sineWave mem frequency phase rate length = .ok w ∧ w.signal.channels.rows = 1 ∧
      w.signal.channels.cols = length ∧ w.signal.rate = rate ∧ w.signal.offset = 0 ∧ w.signal.labels = ["Sine"] ∧
      w.periods = frequency * (length / rate) ∧
      ∀ i : Nat, i < length → w.signal.channels.get 0 i = Real.sin (2 * Real.pi * frequency * (i / rate) + phase) := by
  obtain ⟨A, a1, a2, a3, a4⟩ := omegaT_ok frequency phase rate length hr
  obtain ⟨C, c1, c2, c3, c4⟩ := fill_row mem (A.map Real.sin) length a2 a3
  refine ⟨⟨Signal.new C rate 0 (some ["Sine"]), C.cols / rate * frequency⟩, ?_, c2, c3, rfl, rfl, ?_, ?_, ?_⟩
  · unfold sineWave
    rw [a1]
    show ((alloc mem 1 length).assign .all .all (A.map Real.sin) >>= _) = _
    rw [c1]
    show (Sweep.div C.cols rate >>= _) = _
    unfold Sweep.div
    rw [if_neg hr]
    rfl
  · show sanitizeLabels (some ["Sine"]) C.rows = _
    rw [c2]
    rfl
  · show (C.cols : ℝ) / rate * frequency = _
    rw [c3, mul_comm]
  · intro i hi
    show C.get 0 i = _
    rw [c4 i hi]
    show Real.sin (A.get 0 i) = _
    rw [a4 i hi]

/-- C82: The samples of a square wave are the signs of those of the sine wave. -/
theorem C82_square (mem mem' : Nat → Nat → ℝ) (frequency phase rate : ℝ) (length : Nat) (hr : rate ≠ 0) :
    ∃ w s, squareWave mem frequency phase rate length = .ok w ∧ sineWave mem' frequency phase rate length = .ok s ∧
      w.signal.channels.rows = 1 ∧ w.signal.channels.cols = length ∧ w.signal.rate = rate ∧ w.signal.offset = 0 ∧
      w.signal.labels = ["Square wave"] ∧ w.periods = frequency * (length / rate) ∧
      ∀ i : Nat, i < length →
        (0 < s.signal.channels.get 0 i → w.signal.channels.get 0 i = 1) ∧
        (s.signal.channels.get 0 i = 0 → w.signal.channels.get 0 i = 0) ∧
        (s.signal.channels.get 0 i < 0 → w.signal.channels.get 0 i = -1) := by
  obtain ⟨s, s1, _, _, _, _, _, _, s2⟩ := C82_sine mem' frequency phase rate length hr
  obtain ⟨A, a1, a2, a3, a4⟩ := omegaT_ok frequency phase rate length hr
  obtain ⟨C, c1, c2, c3, c4⟩ := fill_row mem (A.map Real.sin) length a2 a3
  refine ⟨⟨Signal.new (C.map sign) rate 0 (some ["Square wave"]), C.cols / rate * frequency⟩, s, ?_, s1, c2, c3, rfl, rfl,
    ?_, ?_, ?_⟩
  · unfold squareWave
    rw [a1]
    show ((alloc mem 1 length).assign .all .all (A.map Real.sin) >>= _) = _
    rw [c1]
    show (Sweep.div C.cols rate >>= _) = _
    unfold Sweep.div
    rw [if_neg hr]
    rfl
  · show sanitizeLabels (some ["Square wave"]) C.rows = _
    rw [c2]
    rfl
  · show (C.cols : ℝ) / rate * frequency = _
    rw [c3, mul_comm]
  · intro i hi
    have e : (Signal.new (C.map sign) rate 0 (some ["Square wave"])).channels.get 0 i = sign (s.signal.channels.get 0 i) := by
      show sign (C.get 0 i) = _
      rw [c4 i hi, s2 i hi]
      show sign (Real.sin (A.get 0 i)) = _
      rw [a4 i hi]
    dsimp only
    rw [e]
    unfold sign
    refine ⟨fun h => ?_, fun h => ?_, fun h => ?_⟩
    · rw [if_neg (by linarith), if_neg h.ne']
    · rw [h, if_neg (lt_irrefl _), if_pos rfl]
    · rw [if_pos h]

/-- C82: With a sampling rate of zero, the constructors raise a `ZeroDivisionError`. -/
theorem C82_zero_rate (mem : Nat → Nat → ℝ) (frequency phase : ℝ) (length : Nat) :
    sineWave mem frequency phase 0 length = .error .zeroDivisionError ∧
      squareWave mem frequency phase 0 length = .error .zeroDivisionError := by
  have h : omegaT frequency phase 0 length = .error .zeroDivisionError := by
    unfold omegaT Sweep.div
    rw [if_pos rfl]
    rfl
  unfold sineWave squareWave
  rw [h]
  exact ⟨rfl, rfl⟩

/-- C82: The phase of a cosine is pi/2. -/
theorem C82_cosine (mem : Nat → Nat → ℝ) (frequency rate : ℝ) (length : Nat) (hr : rate ≠ 0) :
    ∃ w, sineWave mem frequency (Real.pi / 2) rate length = .ok w ∧
      ∀ i : Nat, i < length → w.signal.channels.get 0 i = Real.cos (2 * Real.pi * frequency * (i / rate)) := by
  obtain ⟨w, w1, _, _, _, _, _, _, w2⟩ := C82_sine mem frequency (Real.pi / 2) rate length hr
  exact ⟨w, w1, fun i hi => by rw [w2 i hi, Real.sin_add_pi_div_two]⟩

/-- C82: A shift by half a period inverts the waves. -/
theorem C82_half_period (mem mem' : Nat → Nat → ℝ) (frequency phase rate : ℝ) (length T : Nat) (hr : rate ≠ 0)
    (hT : 2 * frequency * T = rate) :
    ∃ w s, squareWave mem frequency phase rate length = .ok w ∧ sineWave mem' frequency phase rate length = .ok s ∧
      ∀ i : Nat, i + T < length → s.signal.channels.get 0 (i + T) = -s.signal.channels.get 0 i ∧
        w.signal.channels.get 0 (i + T) = -w.signal.channels.get 0 i := by
  obtain ⟨w, s, w1, s1, _, _, _, _, _, _, w2⟩ := C82_square mem mem' frequency phase rate length hr
  obtain ⟨s', s1', _, _, _, _, _, _, s2⟩ := C82_sine mem' frequency phase rate length hr
  obtain rfl : s' = s := by
    rw [s1] at s1'
    exact (Except.ok.inj s1').symm
  have hs : ∀ i : Nat, i + T < length → s'.signal.channels.get 0 (i + T) = -s'.signal.channels.get 0 i := by
    intro i hi
    rw [s2 _ hi, s2 i (by omega), ← Real.sin_add_pi]
    congr 1
    rw [← hT]
    have : (2 * frequency * (T : ℝ)) ≠ 0 := hT ▸ hr
    have hf : frequency ≠ 0 := fun h => this (by rw [h]; ring)
    have ht : (T : ℝ) ≠ 0 := fun h => this (by rw [h]; ring)
    push_cast
    field_simp
    ring
  refine ⟨w, s', w1, s1, fun i hi => ⟨hs i hi, ?_⟩⟩
  obtain ⟨p1, p2, p3⟩ := w2 i (by omega)
  obtain ⟨q1, q2, q3⟩ := w2 (i + T) hi
  have e := hs i hi
  rcases lt_trichotomy (s'.signal.channels.get 0 i) 0 with h | h | h
  · rw [p3 h, q1 (by linarith)]
    norm_num
  · rw [p2 h, q2 (by linarith), neg_zero]
  · rw [p1 h, q3 (by linarith)]

theorem sum_cos (L : Nat) (hL : 0 < L) (m : ℤ) (x : ℝ) (hm : ¬ (L : ℤ) ∣ m) :
    ∑ i ∈ range L, Real.cos (2 * Real.pi * m * (i / L) + x) = 0 := by
  have h := Dft.sum_omega hL.ne' m
  rw [if_neg hm] at h
  have hLc : (L : ℂ) ≠ 0 := by exact_mod_cast hL.ne'
  have e : ∀ i : Nat, Real.cos (2 * Real.pi * m * (i / L) + x) =
      (Complex.exp (x * Complex.I) * Dft.omega L ^ ((i : ℤ) * m)).re := by
    intro i
    unfold Dft.omega
    rw [← Complex.exp_int_mul, ← Complex.exp_add]
    have : (x : ℂ) * Complex.I + (((i : ℤ) * m : ℤ) : ℂ) * (2 * Real.pi * Complex.I / L) =
        ((2 * Real.pi * m * (i / L) + x : ℝ) : ℂ) * Complex.I := by
      push_cast
      field_simp
      ring
    rw [this, Complex.exp_ofReal_mul_I_re]
  simp only [e]
  rw [← Complex.re_sum, ← Finset.mul_sum, h, mul_zero, Complex.zero_re]

/-- C82: A sine wave with a whole number of periods can be repeated seamlessly, its mean is zero and its mean square is
1/2. -/
theorem C82_whole_periods (mem : Nat → Nat → ℝ) (frequency phase rate : ℝ) (length : Nat) (hr : rate ≠ 0) (hL : 0 < length)
    (m : ℤ) (hm : frequency * (length / rate) = m) :
    ∃ w, sineWave mem frequency phase rate length = .ok w ∧ w.periods = m ∧
      (∀ i : Nat, i < length →
        Real.sin (2 * Real.pi * frequency * (((i + length : Nat) : ℝ) / rate) + phase) = w.signal.channels.get 0 i) ∧
      (¬ (length : ℤ) ∣ m → ∑ i ∈ range length, w.signal.channels.get 0 i = 0) ∧
      (¬ (length : ℤ) ∣ 2 * m → (∑ i ∈ range length, w.signal.channels.get 0 i ^ 2) / length = 1 / 2) := by
  obtain ⟨w, w1, _, _, _, _, _, w2, w3⟩ := C82_sine mem frequency phase rate length hr
  have hL' : (length : ℝ) ≠ 0 := by exact_mod_cast hL.ne'
  have ph : ∀ i : Nat, 2 * Real.pi * frequency * (i / rate) = 2 * Real.pi * m * (i / length) := by
    intro i
    rw [← hm]
    field_simp
  refine ⟨w, w1, w2.trans hm, ?_, ?_, ?_⟩
  · intro i hi
    rw [w3 i hi]
    have : 2 * Real.pi * frequency * (((i + length : Nat) : ℝ) / rate) + phase =
        2 * Real.pi * frequency * (i / rate) + phase + m * (2 * Real.pi) := by
      rw [← hm]
      push_cast
      field_simp
      ring
    rw [this, Real.sin_add_int_mul_two_pi]
  · intro hd
    rw [← sum_cos length hL m (phase - Real.pi / 2) hd]
    refine Finset.sum_congr rfl fun i hi => ?_
    rw [w3 i (Finset.mem_range.1 hi), ph, ← add_sub_assoc, Real.cos_sub_pi_div_two]
  · intro hd
    have e : ∑ i ∈ range length, w.signal.channels.get 0 i ^ 2 =
        ∑ i ∈ range length, (1 / 2 - 1 / 2 * Real.cos (2 * Real.pi * (2 * m : ℤ) * (i / length) + 2 * phase)) := by
      refine Finset.sum_congr rfl fun i hi => ?_
      rw [w3 i (Finset.mem_range.1 hi), ph, Real.sin_sq_eq_half_sub]
      push_cast
      rw [show 2 * (2 * Real.pi * (m : ℝ) * ((i : ℝ) / length) + phase) =
        2 * Real.pi * (2 * (m : ℝ)) * ((i : ℝ) / length) + 2 * phase by ring]
      ring
    rw [e, Finset.sum_sub_distrib, ← Finset.mul_sum, sum_cos length hL (2 * m) _ hd]
    simp
    field_simp

example : ∃ (frequency rate : ℝ) (length T : Nat) (m : ℤ), rate ≠ 0 ∧ 0 < length ∧ 2 * frequency * T = rate ∧
    frequency * (length / rate) = m ∧ ¬ (length : ℤ) ∣ m ∧ ¬ (length : ℤ) ∣ 2 * m := by
  refine ⟨1000, 48000, 96, 24, 2, by norm_num, by decide, by norm_num, by norm_num, by decide, by decide⟩

/-! ### C83 -/

/-- C83: All samples of a constant signal have the given value. -/
theorem C83_signal {α R : Type} (mem : Nat → Nat → α) (value : α) (rate : R) (length : Nat) :
    ∃ s, constantSignal mem value rate length = .ok s ∧ s.channels.rows = 1 ∧ s.channels.cols = length ∧ s.rate = rate ∧
      s.offset = 0 ∧ s.labels = ["Constant"] ∧ ∀ i, i < length → s.channels.get 0 i = value := by
  obtain ⟨C, c1, c2, c3, c4, _⟩ := Mat.assign_scalar (A := alloc mem 1 length) (r := .all) (c := .all) value 0 1 0 length
    rfl rfl rfl rfl
  refine ⟨Signal.new C rate 0 (some ["Constant"]), ?_, c2, c3, rfl, rfl, ?_, fun i hi => c4 0 i (by omega) (by omega)
    (by omega) hi⟩
  · unfold constantSignal
    rw [c1]
    rfl
  · show sanitizeLabels (some ["Constant"]) C.rows = _
    rw [c2]
    rfl

/-- C83: All samples of a constant spectrum have the given value. -/
theorem C83_spectrum {α R : Type} (mem : Nat → Nat → α) (value : α) (resolution : R) (length : Nat) :
    ∃ s, constantSpectrum mem value resolution length = .ok s ∧ s.channels.rows = 1 ∧ s.channels.cols = length ∧
      s.resolution = resolution ∧ s.labels = ["Constant"] ∧ ∀ i, i < length → s.channels.get 0 i = value := by
  obtain ⟨C, c1, c2, c3, c4, _⟩ := Mat.assign_scalar (A := alloc mem 1 length) (r := .all) (c := .all) value 0 1 0 length
    rfl rfl rfl rfl
  refine ⟨Spectrum.new C resolution (some ["Constant"]), ?_, c2, c3, rfl, ?_, fun i hi => c4 0 i (by omega) (by omega)
    (by omega) hi⟩
  · unfold constantSpectrum
    rw [c1]
    rfl
  · show sanitizeLabels (some ["Constant"]) C.rows = _
    rw [c2]
    rfl

/-- C83: All samples of a constant spectrogram have the given value. -/
theorem C83_spectrogram {α R : Type} (mem : Nat → Nat → Nat → α) (value : α) (resolution rate : R) (freqs length : Nat) :
    ∃ s, constantSpectrogram mem value resolution rate freqs length = .ok s ∧ s.channels.d0 = 1 ∧ s.channels.d1 = freqs ∧
      s.channels.d2 = length ∧ s.resolution = resolution ∧ s.rate = rate ∧ s.offset = 0 ∧ s.labels = ["Constant"] ∧
      ∀ f t, f < freqs → t < length → s.channels.get 0 f t = value := by
  obtain ⟨C, c1, c2, c3, c4, c5, c6⟩ := Cube.assign_ok (A := allocCube mem 1 freqs length) (S := .scalar value) (r := .all)
    (s := .all) (t := .all) 0 1 0 freqs 0 length ⟨rfl, rfl⟩ ⟨rfl, rfl⟩ ⟨rfl, rfl⟩ ⟨Or.inr rfl, Or.inr rfl, Or.inr rfl⟩
  refine ⟨Spectrogram.new C resolution rate 0 (some ["Constant"]), ?_, c2, c3, c4, rfl, rfl, rfl, ?_, ?_⟩
  · unfold constantSpectrogram
    rw [c1]
    rfl
  · show sanitizeLabels (some ["Constant"]) C.d0 = _
    rw [c2]
    rfl
  · intro f t hf ht
    exact c5 0 f t ⟨⟨by omega, by omega⟩, ⟨by omega, hf⟩, by omega, ht⟩

end Waves
end Verif
