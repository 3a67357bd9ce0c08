import Verif.FourierLawsProps
import Verif.ConcatenateProps
import Verif.WavesProps

/-
Property C109: the spectrums of padded and repeated signals and of sine waves and constants
(`Signal.fourier_transform`, `_signal.py:382-439`, together with `Signal.pad`, `sumpf.Concatenate`, `sumpf.SineWave`
and `sumpf.ConstantSignal`).
-/

namespace Verif
namespace Fourier

open Finset Dft

/-! ### Padding -/

/-- The Fourier transform of the channel `c` of a time signal at the frequency `f` in Hz: it does not mention the length
of a discrete transform. -/
noncomputable def transformAt (a : Signal ℝ ℝ) (c : Nat) (f : ℝ) : ℂ :=
  ∑ᶠ t : Int, (a.value c t : ℂ) * Complex.exp (-2 * Real.pi * Complex.I * (f : ℂ) * ((t / a.rate : ℝ) : ℂ))

theorem spectrumAt_frequency (L : Nat) (hL : L ≠ 0) (a : Signal ℝ ℝ) (c k : Nat) (hr : a.rate ≠ 0) :
    spectrumAt L (a.value c) k = transformAt a c (k * (a.rate / L)) := by
  unfold spectrumAt transformAt
  have hLc : (L : ℂ) ≠ 0 := Nat.cast_ne_zero.mpr hL
  have hrc : (a.rate : ℂ) ≠ 0 := Complex.ofReal_ne_zero.mpr hr
  refine finsum_congr fun t => ?_
  rw [omega_zpow]
  congr 2
  push_cast
  field_simp

/-- C109: Padding with zeros does not change the spectrum at any frequency: whatever the length of the padded signal,
each bin is the value of the same function of the frequency. -/
theorem C109_padding (m1 : Nat → Nat → ℝ) (m2 : Nat → Nat → ℂ) (a : Signal ℝ ℝ) (ha : a.WF) (hm : 1 ≤ a.count)
    (hn : 1 ≤ a.length) (hr : a.rate ≠ 0) (length : Nat) (hl : a.length ≤ length) :
    ∃ p P, a.pad m1 length 0 = .ok p ∧ fourierTransform m2 p = .ok P ∧ P.count = a.count ∧
      P.length = length / 2 + 1 ∧ P.resolution = a.rate / length ∧ P.labels = a.labels ∧
      ∀ c k, c < a.count → k < P.length → P.channels.get c k = transformAt a c (k * P.resolution) := by
  obtain ⟨p, p1, p2, p3, p4, p5, p6, p7⟩ := pad_value m1 a ha length hl
  obtain ⟨P, q1, q2⟩ := isTransform m2 p p2 (by omega) (by omega) (by rw [p5]; exact hr)
  have e : P.resolution = a.rate / length := by rw [q2.resolution, p5, p4]
  refine ⟨p, P, p1, q1, by rw [q2.count, p3], by rw [q2.length, p4], e, by rw [q2.labels, p6], fun c k hc hk => ?_⟩
  rw [q2.value c k (by omega) hk, p4, show p.value c = a.value c from funext (p7 c), e]
  exact spectrumAt_frequency length (by omega) a c k hr

/-- C109: If a signal is padded to `q` times its length, every `q`-th bin of the spectrum is a bin of the spectrum of the
original signal. -/
theorem C109_padding_multiple (m1 : Nat → Nat → ℝ) (m2 m3 : Nat → Nat → ℂ) (a : Signal ℝ ℝ) (ha : a.WF)
    (hm : 1 ≤ a.count) (hn : 1 ≤ a.length) (hr : a.rate ≠ 0) (q : Nat) (hq : 1 ≤ q) :
    ∃ p P A, a.pad m1 ((q * a.length : Nat)) 0 = .ok p ∧ fourierTransform m2 p = .ok P ∧ fourierTransform m3 a = .ok A ∧
      A.resolution = q * P.resolution ∧
      ∀ c k, c < a.count → k < A.length → q * k < P.length ∧ P.channels.get c (q * k) = A.channels.get c k := by
  obtain ⟨p, P, p1, p2, p3, p4, p5, p6, p7⟩ := C109_padding m1 m2 a ha hm hn hr (q * a.length)
    (Nat.le_mul_of_pos_left _ hq)
  obtain ⟨A, q1, q2⟩ := isTransform m3 a ha hm hn hr
  have hqr : (q : ℝ) ≠ 0 := Nat.cast_ne_zero.mpr (by omega)
  have hLr : (a.length : ℝ) ≠ 0 := Nat.cast_ne_zero.mpr (by omega)
  have e : A.resolution = q * P.resolution := by
    rw [q2.resolution, p5]
    push_cast
    field_simp
  refine ⟨p, P, A, p1, p2, q1, e, fun c k hc hk => ?_⟩
  have hk' : q * k < P.length := by
    rw [q2.length] at hk
    rw [p4, Nat.lt_succ_iff, Nat.le_div_iff_mul_le (by omega), mul_assoc]
    exact Nat.mul_le_mul_left q (by omega)
  refine ⟨hk', ?_⟩
  rw [p7 c _ hc hk', q2.value c k hc hk, spectrumAt_frequency _ (by omega) a c k hr, ← q2.resolution, e]
  congr 1
  push_cast
  ring

/-- the hypotheses of C109: a signal with two channels, that is padded from 3 to 8 or to 12 samples -/
example : ∃ a : Signal ℝ ℝ, a.WF ∧ 1 ≤ a.count ∧ 1 ≤ a.length ∧ a.rate ≠ 0 ∧ a.length ≤ 8 ∧ a.length = 3 ∧
    a.offset = -2 ∧ a.channels.get 1 2 = 3 :=
  ⟨⟨⟨2, 3, fun c t => c + t⟩, 10, -2, ["a", "b"]⟩, rfl, by decide, by decide, by norm_num, by decide, rfl, rfl,
    by norm_num⟩

/-! ### Repetition -/

theorem delayed_replicate (a : Signal ℝ ℝ) (n : Int) (h0 : a.offset = 0) (q : Nat) :
    Concatenate.delayed n (List.replicate q a) = (List.range q).map fun i => (n + (i * a.length : Nat), a) := by
  induction q generalizing n with
  | zero => rfl
  | succ q ih =>
    rw [List.replicate_succ, Concatenate.delayed, ih, List.range_succ_eq_map, List.map_cons, List.map_map]
    congr 1
    · simp
    · refine List.map_congr_left fun i _ => ?_
      simp only [Function.comp_apply, Prod.mk.injEq, and_true]
      rw [h0]
      push_cast
      ring

theorem of_bind {β γ : Type} {x : Py β} {g : β → Py γ} {r : γ} (h : (x >>= g) = .ok r) :
    ∃ y, x = .ok y ∧ g y = .ok r := by
  cases x with
  | error e => cases h
  | ok y => exact ⟨y, rfl, h⟩

theorem concatenate_wf {m1 : Nat → Nat → ℝ} {l : List (Signal ℝ ℝ)} {p : Signal ℝ ℝ}
    (h : Concatenate.signals m1 l = .ok p) (hl : ∀ s ∈ l, s.WF) : p.WF := by
  match l, h, hl with
  | [s], h, hl =>
    cases h
    exact hl p (List.mem_singleton.mpr rfl)
  | first :: second :: rest, h, _ =>
    unfold Concatenate.signals Concatenate.signalsMany at h
    dsimp only at h
    split at h
    · cases h
    · obtain ⟨_, _, h⟩ := of_bind h
      obtain ⟨_, _, h⟩ := of_bind h
      cases h
      exact Signal.new_wf _ _ _ _

theorem spectrumAt_sum (L : Nat) (s : Finset Nat) (x : Nat → Int → ℝ) (hx : ∀ i, (x i).support.Finite) (k : Nat) :
    spectrumAt L (fun t => ∑ i ∈ s, x i t) k = ∑ i ∈ s, spectrumAt L (x i) k := by
  unfold spectrumAt
  rw [← finsum_sum_comm _ _ fun i _ => spectrumAt_support L (hx i) k]
  refine finsum_congr fun t => ?_
  push_cast
  rw [Finset.sum_mul]

/-- C109: The spectrum of a signal, that is repeated `q` times with `sumpf.Concatenate`, has the `q`-fold values of the
original spectrum in every `q`-th bin, and zeros in between. -/
theorem C109_repeated (m1 : Nat → Nat → ℝ) (m2 m3 : Nat → Nat → ℂ) (a : Signal ℝ ℝ) (ha : a.WF)
    (hm : 1 ≤ a.count) (hn : 1 ≤ a.length) (hr : a.rate ≠ 0) (h0 : a.offset = 0) (q : Nat) (hq : 1 ≤ q) :
    ∃ p P A, Concatenate.signals m1 (List.replicate q a) = .ok p ∧ p.length = q * a.length ∧ p.offset = 0 ∧
      fourierTransform m2 p = .ok P ∧ fourierTransform m3 a = .ok A ∧ A.resolution = q * P.resolution ∧
      P.length = q * a.length / 2 + 1 ∧
      (∀ c k, c < a.count → k < A.length → P.channels.get c (q * k) = q * A.channels.get c k) ∧
      ∀ c k, c < a.count → k < P.length → ¬ q ∣ k → P.channels.get c k = 0 := by
  obtain ⟨p, p1, p2⟩ := Concatenate.C22_signals m1 (List.replicate q a) (by
    rw [Ne, List.replicate_eq_nil_iff]
    omega)
  have hd := delayed_replicate a 0 h0 q
  have hpo : p.offset = 0 := by
    obtain ⟨x, x1, x2⟩ := p2.start
    rw [hd, List.mem_map] at x1
    obtain ⟨i, i1, rfl⟩ := x1
    have := (p2.covers (0 + (0 * a.length : Nat), a) (by
      rw [hd, List.mem_map]
      exact ⟨0, by rw [List.mem_range]; omega, rfl⟩)).1
    dsimp only at x2 this
    rw [h0] at x2 this
    have : (0 : Int) ≤ (i * a.length : Nat) := by positivity
    omega
  have hpl : p.length = q * a.length := by
    obtain ⟨x, x1, x2⟩ := p2.stop
    rw [hd, List.mem_map] at x1
    obtain ⟨i, i1, rfl⟩ := x1
    have h := (p2.covers (0 + ((q - 1) * a.length : Nat), a) (by
      rw [hd, List.mem_map]
      exact ⟨q - 1, by rw [List.mem_range]; omega, rfl⟩)).2
    dsimp only at x2 h
    rw [h0, hpo] at x2 h
    have e1 : (q - 1) * a.length + a.length = q * a.length := by
      rw [← Nat.succ_mul]
      congr 1
      omega
    have e2 : i * a.length ≤ (q - 1) * a.length := Nat.mul_le_mul_right _ (by
      rw [List.mem_range] at i1
      omega)
    omega
  have hpc : p.count = a.count := by
    obtain ⟨s, s1, s2⟩ := p2.count
    rw [s2, (List.mem_replicate.mp s1).2]
  have hpr : p.rate = a.rate := by
    obtain ⟨s, s1, s2⟩ := p2.rate
    rw [s2]
    obtain ⟨r, rfl⟩ : ∃ r, q = r + 1 := ⟨q - 1, by omega⟩
    rw [List.replicate_succ, List.head?_cons] at s1
    rw [Option.some.inj s1]
  have hpw : p.WF := concatenate_wf p1 fun s hs => by
    rw [(List.mem_replicate.mp hs).2]
    exact ha
  have hL : 1 ≤ q * a.length := Nat.mul_pos hq hn
  obtain ⟨P, x1, y1⟩ := isTransform m2 p hpw (by omega) (by omega) (by rw [hpr]; exact hr)
  obtain ⟨A, x2, y2⟩ := isTransform m3 a ha hm hn hr
  have hqr : (q : ℝ) ≠ 0 := Nat.cast_ne_zero.mpr (by omega)
  have hqc : (q : ℂ) ≠ 0 := Nat.cast_ne_zero.mpr (by omega)
  have hLr : (a.length : ℝ) ≠ 0 := Nat.cast_ne_zero.mpr (by omega)
  have hLc : (a.length : ℂ) ≠ 0 := Nat.cast_ne_zero.mpr (by omega)
  have hv : ∀ c, p.value c = fun t => ∑ i ∈ range q, a.value c (t - (i * a.length : Nat)) := by
    intro c
    funext t
    rw [p2.value, Concatenate.total, hd, List.map_map, ← List.sum_toFinset _ List.nodup_range, List.toFinset_range]
    refine Finset.sum_congr rfl fun i _ => ?_
    show a.value c (t - (0 + _)) = _
    rw [zero_add]
  have hk : ∀ c k, c < a.count → k < P.length → P.channels.get c k =
      spectrumAt (q * a.length) (a.value c) k * if (q : Int) ∣ -k then (q : ℂ) else 0 := by
    intro c k hc hk
    rw [y1.value c k (by omega) hk, hpl, hv, spectrumAt_sum _ _ (fun i t => a.value c (t - (i * a.length : Nat)))
      fun i => ((value_support a c).image (· + ((i * a.length : Nat) : Int))).subset fun t ht =>
        ⟨t - (i * a.length : Nat), ht, by dsimp only; omega⟩,
      ← sum_omega (by omega : q ≠ 0), Finset.mul_sum]
    refine Finset.sum_congr rfl fun i _ => ?_
    rw [spectrumAt_shift _ _ _ (value_support a c), omega_zpow, omega_zpow]
    congr 2
    push_cast
    field_simp
  refine ⟨p, P, A, p1, hpl, hpo, x1, x2, ?_, by rw [y1.length, hpl], ?_, ?_⟩
  · rw [y1.resolution, y2.resolution, hpr, hpl]
    push_cast
    field_simp
  · intro c k hc hk'
    have hk'' : q * k < P.length := by
      rw [y2.length] at hk'
      rw [y1.length, hpl, Nat.lt_succ_iff, Nat.le_div_iff_mul_le (by omega), mul_assoc]
      exact Nat.mul_le_mul_left q (by omega)
    rw [hk c _ hc hk'', if_pos (by push_cast; exact ⟨-k, by ring⟩), mul_comm, y2.value c k hc hk']
    congr 1
    refine finsum_congr fun t => ?_
    rw [omega_zpow, omega_zpow]
    congr 2
    push_cast
    field_simp
  · intro c k hc hk' hd'
    rw [hk c k hc hk', if_neg fun h => hd' (by rw [Int.dvd_neg] at h; exact Int.natCast_dvd_natCast.mp h), mul_zero]

/-- the hypotheses of `C109_repeated`: a signal with three samples, that is repeated four times -/
example : ∃ a : Signal ℝ ℝ, a.WF ∧ 1 ≤ a.count ∧ 1 ≤ a.length ∧ a.rate ≠ 0 ∧ a.offset = 0 ∧ a.length = 3 ∧
    a.channels.get 0 2 = 2 ∧ ¬ 4 ∣ 5 :=
  ⟨⟨⟨1, 3, fun _ t => t⟩, 10, 0, ["a"]⟩, rfl, by decide, by decide, by norm_num, rfl, rfl, by norm_num, by decide⟩

/-! ### Sine waves and constants -/

/-- C109: The spectrum of a sine wave with `m` whole periods has one line: the magnitude of the bin `m` is half of the
length and its phase is that of the wave, delayed by a quarter of a period; all other bins are zero. -/
theorem C109_sine (m1 : Nat → Nat → ℝ) (m2 : Nat → Nat → ℂ) (phase rate : ℝ) (length m : Nat) (hr : rate ≠ 0)
    (hm : 0 < m) (hL : 2 * m < length) :
    ∃ w S, Waves.sineWave m1 (m * (rate / length)) phase rate length = .ok w ∧ fourierTransform m2 w.signal = .ok S ∧
      S.length = length / 2 + 1 ∧ S.resolution = rate / length ∧ m < S.length ∧
      S.channels.get 0 m = (length / 2 : ℝ) * Complex.exp (Complex.I * ((phase - Real.pi / 2 : ℝ) : ℂ)) ∧
      ∀ k, k < S.length → k ≠ m → S.channels.get 0 k = 0 := by
  obtain ⟨w, w1, w2, w3, w4, w5, w6, _, w8⟩ := Waves.C82_sine m1 (m * (rate / length)) phase rate length hr
  have wl : w.signal.length = length := w3
  have wc : w.signal.count = 1 := w2
  obtain ⟨S, s1, s2⟩ := isTransform m2 w.signal (by unfold Signal.WF; rw [w6, wc]; rfl) (by omega) (by omega)
    (by rw [w4]; exact hr)
  have l1 := s2.length
  rw [wl] at l1
  have hN : length ≠ 0 := by omega
  have hNc : (length : ℂ) ≠ 0 := Nat.cast_ne_zero.mpr hN
  have hNr : (length : ℝ) ≠ 0 := Nat.cast_ne_zero.mpr hN
  have hrc : (rate : ℂ) ≠ 0 := Complex.ofReal_ne_zero.mpr hr
  have hv : ∀ k, k < S.length → S.channels.get 0 k =
      (Complex.exp (Complex.I * phase) / (2 * Complex.I)) * (if (length : ℤ) ∣ (m : ℤ) - k then (length : ℂ) else 0) -
      (Complex.exp (-(Complex.I * phase)) / (2 * Complex.I)) *
        (if (length : ℤ) ∣ -(m : ℤ) - k then (length : ℂ) else 0) := by
    intro k hk
    rw [s2.value 0 k (by omega) hk]
    unfold spectrumAt
    have e : ∀ t, ((w.signal.value 0 t : ℝ) : ℂ) = ext length 0 (fun j => (w.signal.channels.get 0 j : ℂ)) t := by
      intro t
      rw [value_eq_ext w.signal (by omega), wl, w5]
      unfold ext
      split <;> simp
    simp only [e]
    rw [finsum_ext, ← sum_omega hN, ← sum_omega hN, Finset.mul_sum, Finset.mul_sum, ← Finset.sum_sub_distrib, wl]
    refine Finset.sum_congr rfl fun j hj => ?_
    rw [w8 j (Finset.mem_range.mp hj), omega_zpow, omega_zpow, omega_zpow]
    have h1 : Complex.exp (2 * Real.pi * Complex.I * ((j : ℤ) * ((m : ℤ) - k) : ℤ) / length) =
        Complex.exp (Complex.I * (2 * Real.pi * (m * (rate / length)) * (j / rate))) *
        Complex.exp (2 * Real.pi * Complex.I * (-((k : ℤ) * (0 + j)) : ℤ) / length) := by
      rw [← Complex.exp_add]
      congr 1
      push_cast
      field_simp
      ring
    have h2 : Complex.exp (2 * Real.pi * Complex.I * ((j : ℤ) * (-(m : ℤ) - k) : ℤ) / length) =
        Complex.exp (-(Complex.I * (2 * Real.pi * (m * (rate / length)) * (j / rate)))) *
        Complex.exp (2 * Real.pi * Complex.I * (-((k : ℤ) * (0 + j)) : ℤ) / length) := by
      rw [← Complex.exp_add]
      congr 1
      push_cast
      field_simp
      ring
    rw [h1, h2]
    have h3 : ((Real.sin (2 * Real.pi * (m * (rate / length)) * (j / rate) + phase) : ℝ) : ℂ) =
        (Complex.exp (Complex.I * (2 * Real.pi * (m * (rate / length)) * (j / rate))) * Complex.exp (Complex.I * phase) -
          Complex.exp (-(Complex.I * (2 * Real.pi * (m * (rate / length)) * (j / rate)))) *
          Complex.exp (-(Complex.I * phase))) / (2 * Complex.I) := by
      rw [← Complex.exp_add, ← Complex.exp_add, Complex.ofReal_sin, Complex.sin]
      rw [eq_div_iff (by simp), mul_comm]
      push_cast
      have hI : Complex.I * Complex.I = -1 := Complex.I_mul_I
      rw [show ∀ x : ℂ, 2 * Complex.I * (x * Complex.I / 2) = Complex.I * Complex.I * x from fun x => by ring, hI]
      ring_nf
    rw [h3]
    ring
  have hn1 : ∀ k, k < S.length → ¬ (length : ℤ) ∣ -(m : ℤ) - k := by
    intro k hk ⟨d, hd⟩
    have hd1 : d < 0 := by
      by_contra hd'
      have : 0 ≤ (length : ℤ) * d := Int.mul_nonneg (by omega) (by omega)
      omega
    have : (length : ℤ) * d ≤ length * (-1) := Int.mul_le_mul_of_nonneg_left (by omega) (by omega)
    omega
  refine ⟨w, S, w1, s1, l1, by rw [s2.resolution, w4, wl], by omega, ?_, ?_⟩
  · rw [hv m (by omega), if_pos (by simp), if_neg (hn1 m (by omega))]
    have : Complex.exp (Complex.I * ((phase - Real.pi / 2 : ℝ) : ℂ)) = Complex.exp (Complex.I * phase) / Complex.I := by
      rw [eq_div_iff Complex.I_ne_zero]
      nth_rewrite 2 [show Complex.I = Complex.exp (Real.pi / 2 * Complex.I) by rw [Complex.exp_pi_div_two_mul_I]]
      rw [← Complex.exp_add]
      congr 1
      push_cast
      ring
    rw [this]
    push_cast
    field_simp
    ring
  · intro k hk hkm
    rw [hv k hk, if_neg (hn1 k hk), if_neg, mul_zero, mul_zero, sub_zero]
    rintro ⟨d, hd⟩
    rcases lt_trichotomy d 0 with hd1 | rfl | hd1
    · have : (length : ℤ) * d ≤ length * (-1) := Int.mul_le_mul_of_nonneg_left (by omega) (by omega)
      omega
    · omega
    · have : (length : ℤ) * 1 ≤ length * d := Int.mul_le_mul_of_nonneg_left (by omega) (by omega)
      omega

/-- the hypotheses of `C109_sine`: three periods in eight samples -/
example : (48000 : ℝ) ≠ 0 ∧ 0 < 3 ∧ 2 * 3 < 8 := ⟨by norm_num, by decide, by decide⟩

/-- C109: The spectrum of a constant signal is zero, except for the bin of 0 Hz. -/
theorem C109_constant (m1 : Nat → Nat → ℝ) (m2 : Nat → Nat → ℂ) (value rate : ℝ) (length : Nat) (hr : rate ≠ 0)
    (hL : 1 ≤ length) :
    ∃ a S, Waves.constantSignal m1 value rate length = .ok a ∧ fourierTransform m2 a = .ok S ∧
      S.length = length / 2 + 1 ∧ S.channels.get 0 0 = length * value ∧
      ∀ k, k < S.length → k ≠ 0 → S.channels.get 0 k = 0 := by
  obtain ⟨a, a1, a2, a3, a4, a5, a6, a7⟩ := Waves.C83_signal m1 value rate length
  have al : a.length = length := a3
  have ac : a.count = 1 := a2
  obtain ⟨S, s1, s2⟩ := isTransform m2 a (by unfold Signal.WF; rw [a6, ac]; rfl) (by omega) (by omega)
    (by rw [a4]; exact hr)
  have l1 := s2.length
  rw [al] at l1
  have hN : length ≠ 0 := by omega
  have hv : ∀ k, k < S.length → S.channels.get 0 k = value * if (length : ℤ) ∣ -(k : ℤ) then (length : ℂ) else 0 := by
    intro k hk
    rw [s2.value 0 k (by omega) hk]
    unfold spectrumAt
    have e : ∀ t, ((a.value 0 t : ℝ) : ℂ) = ext length 0 (fun j => (a.channels.get 0 j : ℂ)) t := by
      intro t
      rw [value_eq_ext a (by omega), al, a5]
      unfold ext
      split <;> simp
    simp only [e]
    rw [finsum_ext, ← sum_omega hN, Finset.mul_sum, al]
    refine Finset.sum_congr rfl fun j hj => ?_
    rw [a7 j (Finset.mem_range.mp hj)]
    congr 2
    ring
  refine ⟨a, S, a1, s1, l1, ?_, ?_⟩
  · rw [hv 0 (by omega), if_pos (by simp), mul_comm]
  · intro k hk h0
    rw [hv k hk, if_neg, mul_zero]
    rw [Int.dvd_neg, Int.natCast_dvd_natCast]
    intro h
    have := Nat.le_of_dvd (by omega) h
    omega

/-- the hypotheses of `C109_constant` -/
example : (48000 : ℝ) ≠ 0 ∧ 1 ≤ 5 := ⟨by norm_num, by decide⟩

end Fourier
end Verif
