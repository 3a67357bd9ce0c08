import Verif.FilterLevelProps
import Verif.SynthesisProps
import Mathlib.Analysis.SpecialFunctions.Trigonometric.Deriv

/-
Property C138: delay and derivative filters act on the trigonometric interpolation of a signal.
-/

namespace Verif
namespace FilterApply

open Verif.Filter Finset Dft

/-- `p` is a real trigonometric polynomial, whose frequencies are the multiples of `r` up to `M * r`, where the highest
frequency has no sine -/
def Trigonometric (M : Nat) (r : ℝ) (p : ℝ → ℝ) : Prop := ∃ X : Nat → ℂ, ∀ t, p t = Fourier.wave M X r t

/-- `p` has the values of the samples of the channel `c` at their points in time -/
def Interpolates (p : ℝ → ℝ) (o : Signal ℝ ℝ) (c : Nat) : Prop :=
  ∀ n : Nat, n < o.length → p ((o.offset + n) / o.rate) = o.channels.get c n

/-! ### the polynomials -/

theorem inverse_wave {M : Nat} (hM : 0 < M) (X : Nat → ℂ) {r : ℝ} (hr : r ≠ 0) (n : Nat) :
    inverse M X n = Fourier.wave M X r (n / (r * (2 * M : Nat))) / (2 * M : Nat) := Fourier.hermitian_wave hM X hr n

theorem inverse_dft {M : Nat} (hM : 0 < M) (x : Nat → ℝ) {n : Nat} (hn : n < 2 * M) :
    inverse M (fun k => dft (2 * M) x k) n = x n := by
  obtain ⟨B, hB, -, -, h⟩ := irfft_of_dft ⟨1, M + 1, fun _ k => dft (2 * M) x k⟩ M hM rfl 0 x fun _ _ => rfl
  rw [← h n hn]
  unfold Mat.irfft at hB
  rw [if_neg (show ¬ M + 1 ≤ 1 by omega)] at hB
  cases hB
  rfl

/-- The coefficients of a delayed polynomial. The highest frequency is considered only at the points in time of samples. -/
theorem wave_delay {M : Nat} (hM : 0 < M) (X : Nat → ℂ) (hX : (X M).im = 0) {r : ℝ} (hr : r ≠ 0) (τ : ℝ) (n : Int) :
    Fourier.wave M (fun k => Complex.exp (-(2 * Real.pi * (k * r) * τ : ℝ) * Complex.I) * X k) r (n / (r * (2 * M : Nat))) =
      Fourier.wave M X r (n / (r * (2 * M : Nat)) - τ) := by
  have hM' : ((2 * M : Nat) : ℝ) ≠ 0 := Nat.cast_ne_zero.mpr (by omega)
  have hMr : (M : ℝ) ≠ 0 := Nat.cast_ne_zero.mpr (by omega)
  unfold Fourier.wave
  congr 1
  · congr 1
    · simp
    · refine sum_congr rfl fun k _ => ?_
      dsimp only
      rw [mul_comm (Complex.exp _) (X k), mul_assoc, ← Complex.exp_add]
      congr 4
      push_cast
      ring
  · rw [show (2 * Real.pi * (M * r * (n / (r * (2 * M : Nat)) - τ)) : ℝ) = n * Real.pi - 2 * Real.pi * (M * r) * τ by
        push_cast; field_simp, show (2 * Real.pi * (M * r * (n / (r * (2 * M : Nat)))) : ℝ) = n * Real.pi by
        push_cast; field_simp]
    dsimp only
    rw [Real.cos_sub, Real.sin_int_mul_pi, Complex.mul_re, hX, mul_zero, sub_zero]
    rw [show -((2 * Real.pi * (M * r) * τ : ℝ) : ℂ) * Complex.I = ((-(2 * Real.pi * (M * r) * τ) : ℝ) : ℂ) * Complex.I by
      push_cast; ring, Complex.exp_ofReal_mul_I_re, Real.cos_neg]
    ring

theorem wave_derivative (M : Nat) (X : Nat → ℂ) (r t : ℝ) :
    HasDerivAt (Fourier.wave M X r) ((∑ k ∈ Ico 1 M, 2 * ((2 * Real.pi * (k * r) * Complex.I * X k) *
      Complex.exp (2 * Real.pi * Complex.I * (k * r * t))).re) -
        (X M).re * (2 * Real.pi * (M * r) * Real.sin (2 * Real.pi * (M * r * t)))) t := by
  have h1 : ∀ k : Nat, HasDerivAt (fun t : ℝ => (X k * Complex.exp (2 * Real.pi * Complex.I * (k * r * t))).re)
      ((2 * Real.pi * (k * r) * Complex.I * X k) * Complex.exp (2 * Real.pi * Complex.I * (k * r * t))).re t := by
    intro k
    have a : HasDerivAt (fun t : ℝ => (2 * Real.pi * Complex.I * (k * r * (t : ℂ)) : ℂ))
        (2 * Real.pi * Complex.I * (k * r)) t := by
      have := ((Complex.ofRealCLM.hasDerivAt (x := t)).const_mul ((k : ℂ) * r)).const_mul (2 * Real.pi * Complex.I : ℂ)
      simpa using this
    have b := (a.cexp).const_mul (X k)
    have c : HasDerivAt (fun t : ℝ => (X k * Complex.exp (2 * Real.pi * Complex.I * (k * r * t))).re)
        (X k * (Complex.exp (2 * Real.pi * Complex.I * (k * r * t)) * (2 * Real.pi * Complex.I * (k * r)))).re t :=
      Complex.reCLM.hasFDerivAt.comp_hasDerivAt t b
    refine c.congr_deriv ?_
    congr 1
    ring
  have h2 : HasDerivAt (fun t : ℝ => ∑ k ∈ Ico 1 M, 2 * (X k * Complex.exp (2 * Real.pi * Complex.I * (k * r * t))).re)
      (∑ k ∈ Ico 1 M, 2 * ((2 * Real.pi * (k * r) * Complex.I * X k) *
        Complex.exp (2 * Real.pi * Complex.I * (k * r * t))).re) t :=
    HasDerivAt.fun_sum fun k _ => (h1 k).const_mul 2
  have h3 : HasDerivAt (fun t : ℝ => (X M).re * Real.cos (2 * Real.pi * (M * r * t)))
      ((X M).re * (-Real.sin (2 * Real.pi * (M * r * t)) * (2 * Real.pi * (M * r)))) t := by
    have a : HasDerivAt (fun t : ℝ => 2 * Real.pi * (M * r * t)) (2 * Real.pi * (M * r)) t := by
      have := ((hasDerivAt_id t).const_mul ((M : ℝ) * r)).const_mul (2 * Real.pi)
      simpa using this
    exact ((Real.hasDerivAt_cos _).comp t a).const_mul _
  have := (h2.const_add (X 0).re).add h3
  refine this.congr_deriv ?_
  ring

/-- the polynomial, that interpolates a channel of a signal -/
noncomputable def interpolation (M : Nat) (o : Signal ℝ ℝ) (c : Nat) (t : ℝ) : ℝ :=
  Fourier.wave M (fun k => Fourier.transform (2 * M) o.offset (o.channels.get c) k) (o.rate / (2 * M : Nat)) t / (2 * M : Nat)

theorem interpolation_trigonometric {M : Nat} (o : Signal ℝ ℝ) (c : Nat) :
    Trigonometric M (o.rate / (2 * M : Nat)) (interpolation M o c) := by
  refine ⟨fun k => ((1 / (2 * M : Nat) : ℝ) : ℂ) * Fourier.transform (2 * M) o.offset (o.channels.get c) k, fun t => ?_⟩
  rw [Fourier.wave_real]
  unfold interpolation
  ring

theorem interpolation_interpolates {M : Nat} (hM : 0 < M) (o : Signal ℝ ℝ) (hr : o.rate ≠ 0) (hN : o.length = 2 * M) (c : Nat) :
    Interpolates (interpolation M o c) o c := by
  intro n hn
  have hM' : ((2 * M : Nat) : ℝ) ≠ 0 := Nat.cast_ne_zero.mpr (by omega)
  have hMc : ((2 * M : Nat) : ℂ) ≠ 0 := Nat.cast_ne_zero.mpr (by omega)
  have hrc : (o.rate : ℂ) ≠ 0 := Complex.ofReal_ne_zero.mpr hr
  have hr' : o.rate / (2 * M : Nat) ≠ 0 := div_ne_zero hr hM'
  have h := wave_delay hM (fun k => Fourier.transform (2 * M) o.offset (o.channels.get c) k)
    (transform_real hM _ _ (Or.inr rfl)) hr' (-(o.offset / o.rate)) n
  unfold interpolation
  rw [show ((o.offset + n) / o.rate : ℝ) = (n : Int) / (o.rate / (2 * M : Nat) * (2 * M : Nat)) - -(o.offset / o.rate) by
    rw [div_mul_cancel₀ _ hM']; push_cast; ring, ← h]
  have e : ∀ k, k ≤ M → Complex.exp (-(2 * Real.pi * (k * (o.rate / (2 * M : Nat))) * -(o.offset / o.rate) : ℝ) * Complex.I) *
      Fourier.transform (2 * M) o.offset (o.channels.get c) k = dft (2 * M) (o.channels.get c) k := by
    intro k _
    rw [Fourier.transform_eq, mul_comm, mul_assoc, Fourier.omega_zpow, ← Complex.exp_add]
    rw [show (2 * Real.pi * Complex.I * ((-((k : ℤ) * o.offset) : ℤ) : ℂ) / (2 * M : Nat) +
      -((2 * Real.pi * (k * (o.rate / (2 * M : Nat))) * -(o.offset / o.rate) : ℝ) : ℂ) * Complex.I) = 0 by
        push_cast at hMc ⊢
        field_simp
        ring, Complex.exp_zero, mul_one]
  rw [Fourier.wave_congr e]
  have := inverse_wave hM (fun k => dft (2 * M) (o.channels.get c) k) hr' n
  rw [inverse_dft hM _ (by omega)] at this
  rw [Int.cast_natCast]
  exact this.symm

/-- C138: There is only one such polynomial, that interpolates a channel of a signal. -/
theorem C138_unique (o : Signal ℝ ℝ) (c : Nat) (hn : 2 ≤ o.length) (he : o.length % 2 = 0) (hr : o.rate ≠ 0) :
    ∃! p, Trigonometric (o.length / 2) (o.rate / o.length) p ∧ Interpolates p o c := by
  obtain ⟨M, hN⟩ : ∃ M, o.length = 2 * M := ⟨o.length / 2, by omega⟩
  have hM : 0 < M := by omega
  have hM' : ((2 * M : Nat) : ℝ) ≠ 0 := Nat.cast_ne_zero.mpr (by omega)
  have hr' : o.rate / (2 * M : Nat) ≠ 0 := div_ne_zero hr hM'
  rw [show o.length / 2 = M by omega, hN]
  refine ⟨interpolation M o c, ⟨interpolation_trigonometric o c, interpolation_interpolates hM o hr hN c⟩, ?_⟩
  rintro p ⟨⟨X, hX⟩, hp⟩
  obtain ⟨Y, hY⟩ := interpolation_trigonometric (M := M) o c
  have hq := interpolation_interpolates hM o hr hN c
  have hwave : ∀ n : Nat, Fourier.wave M X (o.rate / (2 * M : Nat)) (n / (o.rate / (2 * M : Nat) * (2 * M : Nat))) =
      Fourier.wave M Y (o.rate / (2 * M : Nat)) (n / (o.rate / (2 * M : Nat) * (2 * M : Nat))) := by
    intro n
    have h1 := Int.emod_nonneg ((n : Int) - o.offset) (show ((2 * M : Nat) : Int) ≠ 0 by omega)
    have h2 := Int.emod_lt_of_pos ((n : Int) - o.offset) (show (0 : Int) < ((2 * M : Nat) : Int) by omega)
    have h3 := Int.emod_add_mul_ediv ((n : Int) - o.offset) ((2 * M : Nat) : Int)
    obtain ⟨i, hi⟩ := Int.eq_ofNat_of_zero_le h1
    generalize ((n : Int) - o.offset) / ((2 * M : Nat) : Int) = m at h3
    rw [hi] at h2 h3
    have hi' : i < 2 * M := by omega
    have h4 : ((i : ℝ) + (2 * M : Nat) * m) = n - o.offset := by exact_mod_cast h3
    have ht : (n / (o.rate / (2 * M : Nat) * (2 * M : Nat)) : ℝ) = (o.offset + i) / o.rate + m / (o.rate / (2 * M : Nat)) := by
      rw [div_mul_cancel₀ _ hM']
      field_simp
      linarith
    rw [ht, Fourier.wave_period _ _ hr', Fourier.wave_period _ _ hr', ← hX, ← hY, hp i (by omega), hq i (by omega)]
  have hinv : ∀ n : Nat, inverse M X n = inverse M Y n := by
    intro n
    rw [inverse_wave hM X hr', inverse_wave hM Y hr', hwave]
  have hherm : ∀ k, k ≤ M → hermitian M X k = hermitian M Y k := by
    intro k hk
    rw [← Fourier.dft_inverse hM X hk, ← Fourier.dft_inverse hM Y hk]
    congr 1
    funext n
    exact hinv n
  have hre : ∀ k, k ≤ M → (X k).re = (Y k).re := by
    intro k hk
    have := congrArg Complex.re (hherm k hk)
    unfold hermitian at this
    split_ifs at this with a b
    · simpa using this
    · exact this
    · exact absurd (show k = 0 ∨ k = M by omega) a
  funext t
  rw [hX, hY]
  unfold Fourier.wave
  rw [hre 0 (by omega), hre M le_rfl]
  congr 2
  refine sum_congr rfl fun k hk => ?_
  rw [mem_Ico] at hk
  have := hherm k (by omega)
  unfold hermitian at this
  rw [if_neg (by omega), if_pos (by omega), if_neg (by omega), if_pos (by omega)] at this
  rw [this]

/-! ### filters -/

/-- the values of the samples of a signal, that has been filtered with a filter with one channel -/
theorem filtered_samples (mem : Memory) (a : Channels ℝ ℂ) (o : Signal ℝ ℝ) (hl : o.labels.length = o.channels.rows)
    (hm : 1 ≤ o.channels.rows) (M : Nat) (hM : 0 < M) (hN : o.channels.cols = 2 * M) (hr : o.rate ≠ 0)
    (h : a.transferFunctions.length = 1) (z : ℝ → ℂ)
    (hz : ∀ k : Nat, k ≤ M → gain mem.s a 0 (k * (o.rate / o.channels.cols)) = some (z (k * (o.rate / (2 * M : Nat))))) :
    ∃ r u, applySignal complexEnv mem a o = .ok r ∧ AllFinite r u ∧
      u.count = o.count ∧ u.length = o.length ∧ u.rate = o.rate ∧ u.offset = 0 ∧
      ∀ c n, c < u.count → n < u.length → u.channels.get c n = inverse M (fun k => z (k * (o.rate / (2 * M : Nat))) *
        Fourier.transform (2 * M) o.offset (o.channels.get c) k) n := by
  obtain ⟨b, r, h1, h2, b1, b2, b3, b4, b5⟩ := applySignal_ok mem a o hl hm (by omega) hr (Or.inl h)
  obtain ⟨r', e0, e1, e2, e3, e4, e5, e6⟩ := inverse_value mem.signal b M hM (by omega) (by rw [b4]; simp)
  rw [h2] at e0
  cases e0
  have hNR : ((2 * M : Nat) : ℝ) ≠ 0 := Nat.cast_ne_zero.mpr (by omega)
  have hcount : b.count = o.channels.rows := by
    rw [b1]
    unfold filteredCount
    rw [if_pos h]
  have hX : ∀ c, c < b.count → ∀ k, k ≤ M → b.channels.get c k = some (z (k * (o.rate / (2 * M : Nat))) *
      Fourier.transform (2 * M) o.offset (o.channels.get c) k) := by
    intro c hc k hk
    have hp : pick o.channels.rows c = c := by
      unfold pick
      split_ifs <;> omega
    rw [b5 c k hc (by omega), show pick a.transferFunctions.length c = 0 by unfold pick; rw [if_pos h], hz k hk,
      Option.map_some, hN, hp]
  refine ⟨r, ⟨⟨r.channels.rows, r.channels.cols, fun c n => inverse M (fun k => z (k * (o.rate / (2 * M : Nat))) *
      Fourier.transform (2 * M) o.offset (o.channels.get c) k) n⟩, r.rate, r.offset, r.labels⟩, h1,
    ⟨rfl, rfl, rfl, rfl, rfl, ?_⟩, ?_, ?_, ?_, e4, fun _ _ _ _ => rfl⟩
  · intro c i hc hi
    have hc' : c < b.count := by rw [← e1]; exact hc
    have hi' : i < 2 * M := by rw [← e2]; exact hi
    exact e6 c _ hc' (hX c hc') i hi'
  · show r.count = _
    rw [e1, hcount]
    rfl
  · show r.length = o.channels.cols
    rw [e2, hN]
  · show r.rate = _
    rw [e3, b3, hN, div_mul_cancel₀ _ hNR]

/-- C138: The delay filter delays the polynomial, that interpolates the signal, by any (not necessarily whole) number of
samples and evaluates it at the points in time of the samples. -/
theorem C138_delay (mem : Memory) (o : Signal ℝ ℝ) (hl : o.labels.length = o.channels.rows)
    (hm : 1 ≤ o.channels.rows) (hn : 2 ≤ o.length) (he : o.length % 2 = 0) (hr : 0 < o.rate) (delay : ℝ)
    (p : Nat → ℝ → ℝ) (hp : ∀ c, c < o.count →
      Trigonometric (o.length / 2) (o.rate / o.length) (p c) ∧ Interpolates (p c) o c) :
    ∃ r u, applySignal complexEnv mem (delayFilter delay) o = .ok r ∧ AllFinite r u ∧
      u.count = o.count ∧ u.length = o.length ∧ u.rate = o.rate ∧ u.offset = 0 ∧
      ∀ c n : Nat, c < u.count → n < u.length → u.channels.get c n = p c (n / o.rate - delay) := by
  obtain ⟨M, hN⟩ : ∃ M, o.length = 2 * M := ⟨o.length / 2, by omega⟩
  have hM : 0 < M := by omega
  have hM' : ((2 * M : Nat) : ℝ) ≠ 0 := Nat.cast_ne_zero.mpr (by omega)
  have hr' : o.rate / (2 * M : Nat) ≠ 0 := div_ne_zero hr.ne' hM'
  have hN' : o.channels.cols = 2 * M := hN
  obtain ⟨r, u, h1, h2, h3, h4, h5, h6, h7⟩ := filtered_samples mem (delayFilter delay) o hl hm M hM hN hr.ne' rfl
    (fun f => Complex.exp (-(2 * Real.pi * f * delay : ℝ) * Complex.I)) (by
      intro k _
      unfold gain
      rw [C39_value mem.s delay _ (by positivity), hN']
      rfl)
  refine ⟨r, u, h1, h2, h3, h4, h5, h6, fun c n hc hn' => ?_⟩
  have huniq : p c = interpolation M o c := by
    refine (C138_unique o c hn he hr.ne').unique (hp c (by omega)) ?_
    rw [show o.length / 2 = M by omega, hN]
    exact ⟨interpolation_trigonometric o c, interpolation_interpolates hM o hr.ne' hN c⟩
  rw [h7 c n hc hn', huniq, inverse_wave hM _ hr']
  unfold interpolation
  have := wave_delay hM (fun k => Fourier.transform (2 * M) o.offset (o.channels.get c) k)
    (transform_real hM _ _ (Or.inr rfl)) hr' delay n
  rw [Int.cast_natCast] at this
  rw [this, div_mul_cancel₀ _ hM']

/-- C138: The derivative filter computes the values of the derivative of the polynomial, that interpolates the signal, at the
points in time of the samples. -/
theorem C138_derivative (mem : Memory) (o : Signal ℝ ℝ) (hl : o.labels.length = o.channels.rows)
    (hm : 1 ≤ o.channels.rows) (hn : 2 ≤ o.length) (he : o.length % 2 = 0) (hr : 0 < o.rate)
    (p : Nat → ℝ → ℝ) (hp : ∀ c, c < o.count →
      Trigonometric (o.length / 2) (o.rate / o.length) (p c) ∧ Interpolates (p c) o c) :
    ∃ r u, applySignal complexEnv mem derivativeFilter o = .ok r ∧ AllFinite r u ∧
      u.count = o.count ∧ u.length = o.length ∧ u.rate = o.rate ∧ u.offset = 0 ∧
      ∀ c n : Nat, c < u.count → n < u.length → HasDerivAt (p c) (u.channels.get c n) (n / o.rate) := by
  obtain ⟨M, hN⟩ : ∃ M, o.length = 2 * M := ⟨o.length / 2, by omega⟩
  have hM : 0 < M := by omega
  have hM' : ((2 * M : Nat) : ℝ) ≠ 0 := Nat.cast_ne_zero.mpr (by omega)
  have hMr : (M : ℝ) ≠ 0 := Nat.cast_ne_zero.mpr (by omega)
  have hr' : o.rate / (2 * M : Nat) ≠ 0 := div_ne_zero hr.ne' hM'
  have hr0 : o.rate ≠ 0 := hr.ne'
  have hN' : o.channels.cols = 2 * M := hN
  obtain ⟨r, u, h1, h2, h3, h4, h5, h6, h7⟩ := filtered_samples mem derivativeFilter o hl hm M hM hN hr.ne' rfl
    (fun f => 2 * Real.pi * f * Complex.I) (by
      intro k _
      unfold gain
      rw [C39_derivative mem.s _ (by positivity), hN']
      rfl)
  refine ⟨r, u, h1, h2, h3, h4, h5, h6, fun c n hc hn' => ?_⟩
  have huniq : p c = interpolation M o c := by
    refine (C138_unique o c hn he hr.ne').unique (hp c (by omega)) ?_
    rw [show o.length / 2 = M by omega, hN]
    exact ⟨interpolation_trigonometric o c, interpolation_interpolates hM o hr.ne' hN c⟩
  rw [h7 c n hc hn', huniq, inverse_wave hM _ hr']
  have hd := (wave_derivative M (fun k => Fourier.transform (2 * M) o.offset (o.channels.get c) k)
    (o.rate / (2 * M : Nat)) (n / o.rate)).div_const ((2 * M : Nat) : ℝ)
  refine hd.congr_deriv ?_
  congr 1
  unfold Fourier.wave
  have hs : Real.sin (2 * Real.pi * (M * (o.rate / (2 * M : Nat)) * (n / o.rate))) = 0 := by
    rw [show (2 * Real.pi * (M * (o.rate / (2 * M : Nat)) * (n / o.rate)) : ℝ) = n * Real.pi by push_cast; field_simp,
      Real.sin_nat_mul_pi]
  have hMim := transform_real hM o.offset (o.channels.get c) (k := M) (Or.inr rfl)
  rw [hs, div_mul_cancel₀ _ hM']
  have hM0 : (2 * Real.pi * ((M * (o.rate / (2 * M : Nat)) : ℝ) : ℂ) * Complex.I *
      Fourier.transform (2 * M) o.offset (o.channels.get c) M).re = 0 := by
    rw [show (2 * Real.pi * ((M * (o.rate / (2 * M : Nat)) : ℝ) : ℂ) * Complex.I *
      Fourier.transform (2 * M) o.offset (o.channels.get c) M) = ((2 * Real.pi * (M * (o.rate / (2 * M : Nat))) : ℝ) : ℂ) *
        (Complex.I * Fourier.transform (2 * M) o.offset (o.channels.get c) M) by push_cast; ring, Complex.re_ofReal_mul,
      Complex.I_mul_re, hMim]
    simp
  dsimp only
  rw [hM0]
  simp

/-- The hypotheses hold for a signal with a channel with two samples, that is interpolated by a cosine. -/
example : Trigonometric 1 (8 / (2 : Nat)) (fun t => 3 * Real.cos (2 * Real.pi * (4 * t))) ∧
    Interpolates (fun t => 3 * Real.cos (2 * Real.pi * (4 * t)))
      (⟨⟨1, 2, fun _ n => if n = 0 then 3 else -3⟩, 8, 0, ["a"]⟩ : Signal ℝ ℝ) 0 := by
  constructor
  · refine ⟨fun k => if k = 1 then 3 else 0, fun t => ?_⟩
    unfold Fourier.wave
    norm_num
  · intro n hn
    have hn' : n < 2 := hn
    interval_cases n
    · simp
    · norm_num
      rw [show (2 * Real.pi * (1 / 2) : ℝ) = Real.pi by ring, Real.cos_pi]
      norm_num

end FilterApply
end Verif
