import Verif.FilterApply
import Verif.RolloffProps
import Verif.FourierProps
import Verif.HarmonicProps
import Verif.SpectrumProps
import Verif.SpectrogramMixedProps

/-
C93: Applying filters to spectrums, signals and spectrograms
-/

namespace Verif
namespace FilterApply

open Verif.Filter Finset Dft

/-! ### the specification -/

/-- the value of the transfer function of channel `c` at the frequency `f`, which is `none`, if it is not finite -/
noncomputable def gain (memS : ℂ) (a : Channels ℝ ℂ) (c : Nat) (f : ℝ) : Option ℂ :=
  ((a.call complexEnv memS f)[c]?).getD none

/-- the channel of data with `n` channels, that is used for channel `c`: the only channel is used for all channels -/
def pick (n c : Nat) : Nat := if n = 1 then 0 else c

/-- the numbers of channels of a filter and the data, that it is applied to, fit -/
def Fits (m n : Nat) : Prop := m = 1 ∨ n = 1 ∨ m = n

/-- the number of channels of the filtered data -/
def filteredCount (m n : Nat) : Nat := if m = 1 then n else m

/-! ### spectrums -/

/-- C93: The bins of the filtered spectrum are the products of the bins and the values of the transfer functions at the
frequencies of the bins. -/
theorem C93_spectrum (memS : ℂ) (mem : Nat → Nat → Option ℂ) (a : Channels ℝ ℂ) (o : Spectrum ℂ ℝ)
    (h : Fits a.transferFunctions.length o.count) :
    ∃ r, applySpectrum complexEnv memS mem a o = .ok r ∧
      r.count = filteredCount a.transferFunctions.length o.count ∧ r.length = o.length ∧ r.resolution = o.resolution ∧
      r.labels = List.replicate r.count "Product" ∧
      ∀ c k, c < r.count → k < o.length → r.channels.get c k =
        (gain memS a (pick a.transferFunctions.length c) (k * o.resolution)).map fun z =>
          z * o.channels.get (pick o.count c) k := by
  obtain ⟨r, hr, h1, h2, h3, h4, h5⟩ := Spectrum.C15_binwise_partial mem multiply none "Product"
    (sampled complexEnv memS a o.resolution o.length) (liftSpectrum o) rfl
  have e1 : (sampled complexEnv memS a o.resolution o.length).count = a.transferFunctions.length := rfl
  have e2 : (liftSpectrum o).count = o.count := rfl
  have e3 : (sampled complexEnv memS a o.resolution o.length).length = o.length := rfl
  have hcount : r.count = filteredCount a.transferFunctions.length o.count := by
    rw [h1]
    unfold Spectrum.resultCount filteredCount
    rw [e1, e2]
    unfold Fits at h
    split_ifs <;> omega
  refine ⟨r, hr, hcount, h2, h3, h4, ?_⟩
  intro c k hc hk
  rw [h5 c k hc (by omega)]
  unfold Spectrum.bin
  rw [e1, e2, if_pos (show a.transferFunctions.length = 1 ∨ c < a.transferFunctions.length by
      unfold filteredCount at hcount; split_ifs at hcount <;> omega),
    if_pos (show o.count = 1 ∨ c < o.count by
      unfold Fits at h; unfold filteredCount at hcount; split_ifs at hcount <;> omega)]
  show multiply _ (some _) = _
  unfold multiply
  show _ = Option.map _ (gain _ _ (if _ then _ else _) _)
  unfold gain
  show Option.bind (((a.call complexEnv memS (k * o.resolution))[_]?).getD none) _ = _
  cases ((a.call complexEnv memS (k * o.resolution))[if a.transferFunctions.length = 1 then 0 else c]?).getD none <;> rfl

example : Fits 1 3 ∧ Fits 3 1 ∧ Fits 2 2 ∧ ¬ Fits 2 3 := by unfold Fits; omega

/-- C93: At all frequencies but 0 Hz, the value of the transfer function is that of its term. -/
theorem C93_gain (memS : ℂ) (a : Channels ℝ ℂ) (c : Nat) (hc : c < a.transferFunctions.length) (f : ℝ) (hf : 0 < f) :
    gain memS a c f = eval complexEnv f false a.transferFunctions[c] := by
  unfold gain
  rw [C33_positive_frequencies memS a f hf]
  simp [hc]

example : (0 : ℝ) < 1000 ∧ 0 < (delayFilter 1).transferFunctions.length := ⟨by norm_num, Nat.one_pos⟩

/-- C93: If the numbers of channels do not fit, the channels without transfer function are not modified and the channels
without data consist of the values of the transfer functions. -/
theorem C93_spectrum_other_channels (memS : ℂ) (mem : Nat → Nat → Option ℂ) (a : Channels ℝ ℂ) (o : Spectrum ℂ ℝ)
    (h : ¬ Fits a.transferFunctions.length o.count) :
    ∃ r, applySpectrum complexEnv memS mem a o = .ok r ∧ r.count = max a.transferFunctions.length o.count ∧
      r.length = o.length ∧ r.resolution = o.resolution ∧ r.labels = List.replicate r.count "Product" ∧
      ∀ c k, c < r.count → k < o.length → r.channels.get c k =
        if c < a.transferFunctions.length ∧ c < o.count then
          (gain memS a c (k * o.resolution)).map fun z => z * o.channels.get c k
        else if c < a.transferFunctions.length then gain memS a c (k * o.resolution)
        else some (o.channels.get c k) := by
  obtain ⟨r, hr, h1, h2, h3, h4, h5⟩ := Spectrum.C15_binwise_partial mem multiply none "Product"
    (sampled complexEnv memS a o.resolution o.length) (liftSpectrum o) rfl
  have e1 : (sampled complexEnv memS a o.resolution o.length).count = a.transferFunctions.length := rfl
  have e2 : (liftSpectrum o).count = o.count := rfl
  have e3 : (sampled complexEnv memS a o.resolution o.length).length = o.length := rfl
  unfold Fits at h
  have g1 : a.transferFunctions.length ≠ 1 := by omega
  have g2 : o.count ≠ 1 := by omega
  have hcount : r.count = max a.transferFunctions.length o.count := by
    rw [h1]
    unfold Spectrum.resultCount
    rw [e1, e2, if_neg g1, if_neg g2]
  refine ⟨r, hr, hcount, h2, h3, h4, ?_⟩
  intro c k hc hk
  rw [h5 c k hc (by omega)]
  unfold Spectrum.bin
  rw [e1, e2, if_neg g1, if_neg g2]
  by_cases k1 : c < a.transferFunctions.length
  · rw [if_pos (Or.inr k1)]
    by_cases k2 : c < o.count
    · rw [if_pos (Or.inr k2), if_pos ⟨k1, k2⟩]
      show multiply _ (some _) = _
      unfold multiply gain
      show Option.bind (((a.call complexEnv memS (k * o.resolution))[_]?).getD none) _ = _
      cases ((a.call complexEnv memS (k * o.resolution))[c]?).getD none <;> rfl
    · rw [if_neg (by omega), if_neg (fun h => k2 h.2), if_pos k1]
      rfl
  · rw [if_neg (by omega), if_pos (by omega), if_neg (fun h => k1 h.1), if_neg k1]
    rfl

example : ¬ Fits 2 3 ∧ ¬ Fits 3 2 ∧ ¬ Fits 0 2 := by unfold Fits; omega

/-! ### signals -/

/-- the transform of a real signal is transformed back -/
theorem irfft_of_dft (A : Mat ℂ) (M : Nat) (hM : 0 < M) (hA : A.cols = M + 1) (i : Nat) (y : Nat → ℝ)
    (h : ∀ k, k ≤ M → A.get i k = dft (2 * M) y k) :
    ∃ B, A.irfft = .ok B ∧ B.rows = A.rows ∧ B.cols = 2 * M ∧ ∀ n, n < 2 * M → B.get i n = y n := by
  obtain ⟨B, h1, h2, h3, h4⟩ := Mat.irfft_product A M hM hA i (fun j => if j = ((0 : ℤ) % (2 * M : Nat)).toNat then 1 else 0) y 1
    (Or.inl rfl) (by
      intro k hk
      rw [h k hk, Fourier.dft_impulse (by omega), mul_zero, neg_zero, zpow_zero, one_mul])
  refine ⟨B, h1, h2, h3, ?_⟩
  intro n hn
  rw [h4 n, Finset.sum_eq_single 0]
  · rw [if_pos (by simp), one_mul]
    congr 1
    rw [Nat.cast_zero, mul_zero, sub_zero, Int.emod_eq_of_lt (by omega) (by omega), Int.toNat_natCast]
  · intro j _ hj
    rw [if_neg (by simpa using hj), zero_mul]
  · intro h
    exact absurd (mem_range.mpr (by omega)) h

/-- The inverse transform of a spectrum with at least two bins. Channels, whose bins are the transform of a real signal,
are transformed to that signal. -/
theorem inverse_ok (mem : Nat → Nat → Option ℝ) (b : Spectrum (Option ℂ) ℝ) (M : Nat) (hM : 0 < M) (hb : b.length = M + 1)
    (hl : b.labels.length = b.count) :
    ∃ r, inverseFourierTransform mem b = .ok r ∧ r.count = b.count ∧ r.length = 2 * M ∧
      r.rate = b.resolution * (2 * M : Nat) ∧ r.offset = 0 ∧ r.labels = b.labels ∧
      (∀ c (y : Nat → ℝ), c < b.count → (∀ k, k ≤ M → b.channels.get c k = some (dft (2 * M) y k)) →
        ∀ n, n < 2 * M → r.channels.get c n = some (y n)) ∧
      ∀ c k, c < b.count → k ≤ M → b.channels.get c k = none → ∀ n, n < 2 * M → r.channels.get c n = none := by
  have hcols : b.channels.cols = M + 1 := hb
  obtain ⟨E, hE, hEr, hEc⟩ : ∃ E, (b.channels.map fun x => x.getD 0).irfft = .ok E ∧ E.rows = b.channels.rows ∧
      E.cols = 2 * M := by
    unfold Mat.irfft
    rw [if_neg (show ¬ (b.channels.map fun x => x.getD 0).cols ≤ 1 from fun h => by
      have : b.channels.cols ≤ 1 := h
      omega)]
    refine ⟨_, rfl, rfl, ?_⟩
    show 2 * (b.channels.cols - 1) = _
    omega
  obtain ⟨F, hF⟩ : ∃ F, F = (⟨E.rows, E.cols, fun i n =>
    if (List.range b.channels.cols).all fun k => (b.channels.get i k).isSome then some (E.get i n) else none⟩ : Mat (Option ℝ)) :=
    ⟨_, rfl⟩
  have hirfft : irfftN b.channels = .ok F := by
    unfold irfftN Fourier.irfftN
    rw [if_neg (show ¬ (b.channels.map fun x => x.getD 0).cols = 1 from fun h => by
      have : b.channels.cols = 1 := h
      omega), hE, hF]
    rfl
  have hlen : max 1 ((b.length - 1) * 2) = 2 * M := by omega
  obtain ⟨D, h1, h2, h3, h4⟩ := Fourier.assign_full (A := alloc mem b.count (2 * M)) (B := F) (by rw [hF]; exact hEr)
    (by rw [hF]; exact hEc)
  refine ⟨Signal.new D (b.resolution * (2 * M : Nat)) 0 (some b.labels), ?_, h2, h3, rfl, rfl, ?_, ?_, ?_⟩
  · unfold inverseFourierTransform
    rw [if_neg (by omega)]
    dsimp only
    rw [hlen, hirfft]
    show (Mat.assign _ _ _ _ >>= _) = _
    rw [h1]
    rfl
  · show sanitizeLabels (some b.labels) D.rows = _
    rw [Signal.sanitize_self (by rw [h2, hl]; rfl)]
  · intro c y hc hy n hn
    obtain ⟨B, g1, _, _, g2⟩ := irfft_of_dft (b.channels.map fun x => x.getD 0) M hM hcols c y (by
      intro k hk
      show (b.channels.get c k).getD 0 = _
      rw [hy k hk]
      rfl)
    rw [hE] at g1
    cases g1
    show D.get c n = _
    rw [h4 c n hc hn, hF]
    dsimp only
    rw [if_pos, g2 n hn]
    rw [List.all_eq_true]
    intro k hk
    rw [List.mem_range] at hk
    rw [hy k (by omega)]
    rfl
  · intro c k hc hk hn n hn'
    show D.get c n = _
    rw [h4 c n hc hn', hF]
    dsimp only
    rw [if_neg]
    intro h
    rw [List.all_eq_true] at h
    have := h k (List.mem_range.mpr (by omega))
    rw [hn] at this
    exact Bool.noConfusion this

/-- the bins of a filtered signal, and the signal, that results from them -/
theorem applySignal_ok (mem : Memory) (a : Channels ℝ ℂ) (o : Signal ℝ ℝ) (hl : o.labels.length = o.channels.rows)
    (hm : 1 ≤ o.channels.rows) (hn : 2 ≤ o.channels.cols) (hr : o.rate ≠ 0)
    (h : Fits a.transferFunctions.length o.channels.rows) :
    ∃ b r, applySignal complexEnv mem a o = .ok r ∧ inverseFourierTransform mem.signal b = .ok r ∧
      b.count = filteredCount a.transferFunctions.length o.channels.rows ∧ b.length = o.channels.cols / 2 + 1 ∧
      b.resolution = o.rate / o.channels.cols ∧ b.labels = List.replicate b.count "Product" ∧
      ∀ c k, c < b.count → k ≤ o.channels.cols / 2 → b.channels.get c k =
        (gain mem.s a (pick a.transferFunctions.length c) (k * (o.rate / o.channels.cols))).map fun z =>
          z * Fourier.transform o.channels.cols o.offset (o.channels.get (pick o.channels.rows c)) k := by
  obtain ⟨s, hs, s1, s2, s3, s4, s5⟩ := Fourier.C52_transform mem.transform o hl hm (by omega) hr
  have hcount : s.count = o.channels.rows := s1
  have hlen : s.length = o.channels.cols / 2 + 1 := s2
  obtain ⟨b, hb, b1, b2, b3, b4, b5⟩ := C93_spectrum mem.s mem.product a s (by rw [hcount]; exact h)
  have hbl : b.length = o.channels.cols / 2 + 1 := by rw [b2, hlen]
  obtain ⟨r, hr', _⟩ := inverse_ok mem.signal b (o.channels.cols / 2) (by omega) hbl (by rw [b4]; simp)
  refine ⟨b, r, ?_, hr', by rw [b1, hcount], hbl, by rw [b3, s3], b4, ?_⟩
  · unfold applySignal
    rw [hs]
    show (applySpectrum _ _ _ _ _ >>= _) = _
    rw [hb]
    exact hr'
  · intro c k hc hk
    rw [b5 c k hc (by omega), s3]
    congr 1
    funext z
    congr 1
    have hL : (o.channels.cols : ℂ) ≠ 0 := Nat.cast_ne_zero.mpr (by omega)
    have hrc : (o.rate : ℂ) ≠ 0 := Complex.ofReal_ne_zero.mpr hr
    have hp : pick o.channels.rows c < o.channels.rows := by
      unfold filteredCount at b1
      unfold Fits at h
      unfold pick
      split_ifs at b1 ⊢ <;> omega
    rw [hcount, s5 _ k hp (by omega)]
    unfold Fourier.transform
    refine Finset.sum_congr rfl fun j _ => ?_
    congr 2
    rw [s3]
    push_cast
    field_simp

/-- C93: For signals with an even number of samples, the filtered signal has the same number of samples and sampling rate. A
sinusoid with the frequency of a bin is scaled by the magnitude of the transfer function and its phase is shifted by that of
the transfer function, where the time offset of the signal is considered. Missing: odd numbers of samples
(`C93_odd_violated`). -/
theorem C93_sinusoid_partial (mem : Memory) (a : Channels ℝ ℂ) (o : Signal ℝ ℝ) (hl : o.labels.length = o.channels.rows)
    (hn : 2 ≤ o.channels.cols) (he : o.channels.cols % 2 = 0) (hr : 0 < o.rate)
    (h : Fits a.transferFunctions.length o.channels.rows) (c k : Nat) (amplitude φ : ℝ) (z : ℂ)
    (hc : c < filteredCount a.transferFunctions.length o.channels.rows) (hm : 1 ≤ o.channels.rows) (hk : 0 < k)
    (hkN : 2 * k < o.channels.cols)
    (hfinite : ∀ m : Nat, m ≤ o.channels.cols / 2 →
      (gain mem.s a (pick a.transferFunctions.length c) (m * (o.rate / o.channels.cols))).isSome)
    (hz : gain mem.s a (pick a.transferFunctions.length c) (k * (o.rate / o.channels.cols)) = some z)
    (hx : ∀ i : Nat, i < o.channels.cols → o.channels.get (pick o.channels.rows c) i =
      amplitude * Real.cos (2 * Real.pi * (k * (o.rate / o.channels.cols)) * ((o.offset + i) / o.rate) + φ)) :
    ∃ r, applySignal complexEnv mem a o = .ok r ∧
      r.count = filteredCount a.transferFunctions.length o.channels.rows ∧ r.length = o.channels.cols ∧ r.rate = o.rate ∧
      ∀ i : Nat, i < r.length → r.channels.get c i =
        some (‖z‖ * amplitude * Real.cos (2 * Real.pi * (k * (o.rate / o.channels.cols)) * ((r.offset + i) / r.rate) + φ +
          Complex.arg z)) := by
  obtain ⟨b, r, h1, h2, b1, b2, b3, b4, b5⟩ := applySignal_ok mem a o hl hm hn hr.ne' h
  obtain ⟨M, hM⟩ : ∃ M, o.channels.cols = 2 * M := ⟨o.channels.cols / 2, by omega⟩
  have hM0 : 0 < M := by omega
  have hNR : ((2 * M : Nat) : ℝ) ≠ 0 := Nat.cast_ne_zero.mpr (by omega)
  have hNC : ((2 * M : Nat) : ℂ) ≠ 0 := Nat.cast_ne_zero.mpr (by omega)
  obtain ⟨r', e0, e1, e2, e3, e4, _, e5, _⟩ := inverse_ok mem.signal b M hM0 (by omega) (by rw [b4]; simp)
  rw [h2] at e0
  cases e0
  have hrate : r.rate = o.rate := by rw [e3, b3, hM, div_mul_cancel₀ _ hNR]
  refine ⟨r, h1, by rw [e1, b1], by omega, hrate, ?_⟩
  intro i hi
  rw [e5 c (fun n => ‖z‖ * amplitude * Real.cos (2 * Real.pi * k * n / (2 * M : Nat) + (φ + Complex.arg z))) (by omega) ?_ i
    (by omega)]
  · rw [hrate, e4, hM]
    congr 3
    have := hr.ne'
    push_cast at hNR ⊢
    field_simp
    ring
  · intro m hm'
    rw [b5 c m (by omega) (by omega)]
    obtain ⟨w, hw⟩ := Option.isSome_iff_exists.mp (hfinite m (by omega))
    rw [hw, Option.map_some]
    congr 1
    rw [Fourier.transform_eq, hM]
    have t1 : dft (2 * M) (o.channels.get (pick o.channels.rows c)) m = amplitude *
        dft (2 * M) (fun n => Real.cos (2 * Real.pi * k * n / (2 * M : Nat) +
          (φ + 2 * Real.pi * k * o.offset / (2 * M : Nat)))) m := by
      unfold dft
      rw [Finset.mul_sum]
      refine Finset.sum_congr rfl fun j hj => ?_
      rw [hx j (by rw [hM]; exact mem_range.mp hj), hM]
      rw [show 2 * Real.pi * ((k : ℝ) * (o.rate / (2 * M : Nat))) * ((o.offset + j) / o.rate) + φ =
        2 * Real.pi * k * j / (2 * M : Nat) + (φ + 2 * Real.pi * k * o.offset / (2 * M : Nat)) by
          have := hr.ne'
          field_simp
          ring]
      push_cast
      ring
    have t2 : dft (2 * M) (fun n => ‖z‖ * amplitude * Real.cos (2 * Real.pi * k * n / (2 * M : Nat) + (φ + Complex.arg z))) m
        = (‖z‖ * amplitude : ℝ) *
          dft (2 * M) (fun n => Real.cos (2 * Real.pi * k * n / (2 * M : Nat) + (φ + Complex.arg z))) m := by
      unfold dft
      rw [Finset.mul_sum]
      refine Finset.sum_congr rfl fun j _ => ?_
      push_cast
      ring
    rw [t1, t2, Harmonic.dft_cos (by omega) k m _ hk (by omega) (by omega),
      Harmonic.dft_cos (by omega) k m _ hk (by omega) (by omega)]
    split
    · next hmk =>
      subst hmk
      rw [hw] at hz
      obtain rfl : w = z := Option.some.inj hz
      rw [Fourier.omega_zpow]
      have hzz : (w : ℂ) = ‖w‖ * Complex.exp (Complex.arg w * Complex.I) := (Complex.norm_mul_exp_arg_mul_I w).symm
      have hexp : Complex.exp (((φ + 2 * Real.pi * m * o.offset / (2 * M : Nat) : ℝ) : ℂ) * Complex.I) *
          Complex.exp (2 * Real.pi * Complex.I * ((-((m : ℤ) * o.offset) : ℤ) : ℂ) / (2 * M : Nat)) *
            Complex.exp (Complex.arg w * Complex.I) = Complex.exp (((φ + Complex.arg w : ℝ) : ℂ) * Complex.I) := by
        rw [← Complex.exp_add, ← Complex.exp_add]
        congr 1
        push_cast at hNC ⊢
        field_simp
        ring
      rw [← hexp]
      conv_lhs => rw [hzz]
      push_cast
      ring
    · simp

/-- The hypotheses can be satisfied with a delay of a second, a sinusoid with an offset and an amplitude. -/
example (mem : Memory) : ∃ (o : Signal ℝ ℝ) (k : Nat) (amplitude φ : ℝ) (z : ℂ), o.labels.length = o.channels.rows ∧
    2 ≤ o.channels.cols ∧ o.channels.cols % 2 = 0 ∧ 0 < o.rate ∧
    Fits (delayFilter 1).transferFunctions.length o.channels.rows ∧ 0 < k ∧ 2 * k < o.channels.cols ∧
    (∀ m : Nat, m ≤ o.channels.cols / 2 → (gain mem.s (delayFilter 1) 0 (m * (o.rate / o.channels.cols))).isSome) ∧
    gain mem.s (delayFilter 1) 0 (k * (o.rate / o.channels.cols)) = some z ∧
    ∀ i : Nat, i < o.channels.cols → o.channels.get 0 i =
      amplitude * Real.cos (2 * Real.pi * (k * (o.rate / o.channels.cols)) * ((o.offset + i) / o.rate) + φ) := by
  refine ⟨⟨⟨1, 8, fun _ i => 3 * Real.cos (2 * Real.pi * ((2 : Nat) * (48000 / (8 : Nat))) * (((5 : ℤ) + i) / 48000) + 1)⟩,
    48000, 5, ["a"]⟩, 2, 3, 1, Complex.exp (-(2 * Real.pi * ((2 : Nat) * (48000 / (8 : Nat))) * 1 : ℝ) * Complex.I), rfl, by decide, rfl, by norm_num, Or.inl rfl, by decide, by decide, ?_, ?_, fun _ _ => rfl⟩
  · intro m _
    unfold gain
    rw [C39_value _ _ _ (by positivity)]
    rfl
  · unfold gain
    rw [C39_value _ _ _ (by positivity)]
    rfl

/-- the transform of a rotated signal -/
theorem dft_shift (N : Nat) (hN : N ≠ 0) (x : Nat → ℝ) (e : ℤ) (k : ℤ) :
    dft N (fun n => x (((n : ℤ) - e) % N).toNat) k = dft N x k * omega N ^ (-(k * e)) := by
  have hpos : ∀ m : ℤ, 0 ≤ m % (N : ℤ) := fun m => Int.emod_nonneg _ (by omega)
  have hlt : ∀ m : ℤ, m % (N : ℤ) < N := fun m => Int.emod_lt_of_pos _ (by omega)
  unfold dft
  rw [Finset.sum_mul]
  refine Finset.sum_bij' (fun n _ => (((n : ℤ) - e) % N).toNat) (fun m _ => (((m : ℤ) + e) % N).toNat) ?_ ?_ ?_ ?_ ?_
  · intro n _
    have := hpos ((n : ℤ) - e)
    have := hlt ((n : ℤ) - e)
    rw [mem_range]
    omega
  · intro n _
    have := hpos ((n : ℤ) + e)
    have := hlt ((n : ℤ) + e)
    rw [mem_range]
    omega
  · intro n hn
    rw [mem_range] at hn
    rw [Int.toNat_of_nonneg (hpos _), Int.emod_add_emod, sub_add_cancel, Int.emod_eq_of_lt (by omega) (by omega),
      Int.toNat_natCast]
  · intro n hn
    rw [mem_range] at hn
    rw [Int.toNat_of_nonneg (hpos _), Int.emod_sub_emod, add_sub_cancel_right, Int.emod_eq_of_lt (by omega) (by omega),
      Int.toNat_natCast]
  · intro n hn
    dsimp only
    rw [mul_assoc, Int.toNat_of_nonneg (hpos _)]
    congr 1
    have h0 : omega N ≠ 0 := Complex.exp_ne_zero _
    have h1 : omega N ^ (N : ℤ) = 1 := by
      rw [Fourier.omega_zpow]
      rw [show (2 * Real.pi * Complex.I * ((N : ℤ) : ℂ) / N : ℂ) = 2 * Real.pi * Complex.I by
        have : (N : ℂ) ≠ 0 := Nat.cast_ne_zero.mpr hN
        push_cast
        field_simp]
      exact Complex.exp_two_pi_mul_I
    rw [← zpow_add₀ h0]
    have : -(k * n) = -(k * (((n : ℤ) - e) % N)) + -(k * e) + N * (-(k * (((n : ℤ) - e) / N))) := by
      rw [Int.emod_def]
      ring
    rw [this, zpow_add₀ h0 _ (_ * _), zpow_mul, h1, one_zpow, mul_one]

/-- C93: A delay by a multiple of the sampling interval rotates the samples of a signal with an even number of samples. -/
theorem C93_delay (mem : Memory) (o : Signal ℝ ℝ) (d : ℤ) (hl : o.labels.length = o.channels.rows)
    (hm : 1 ≤ o.channels.rows) (hn : 2 ≤ o.channels.cols) (he : o.channels.cols % 2 = 0) (hr : 0 < o.rate) :
    ∃ r, applySignal complexEnv mem (delayFilter (d / o.rate)) o = .ok r ∧ r.count = o.channels.rows ∧
      r.length = o.channels.cols ∧ r.rate = o.rate ∧ r.offset = 0 ∧ ∀ c n, c < o.channels.rows → n < o.channels.cols →
        r.channels.get c n = some (o.channels.get c (((n : ℤ) - d - o.offset) % o.channels.cols).toNat) := by
  have hfit : Fits (delayFilter (d / o.rate)).transferFunctions.length o.channels.rows := Or.inl rfl
  obtain ⟨b, r, h1, h2, b1, b2, b3, b4, b5⟩ := applySignal_ok mem (delayFilter (d / o.rate)) o hl hm hn hr.ne' hfit
  obtain ⟨M, hM⟩ : ∃ M, o.channels.cols = 2 * M := ⟨o.channels.cols / 2, by omega⟩
  have hM0 : 0 < M := by omega
  have hNR : ((2 * M : Nat) : ℝ) ≠ 0 := Nat.cast_ne_zero.mpr (by omega)
  have hNC : ((2 * M : Nat) : ℂ) ≠ 0 := Nat.cast_ne_zero.mpr (by omega)
  obtain ⟨r', e0, e1, e2, e3, e4, _, e5, _⟩ := inverse_ok mem.signal b M hM0 (by omega) (by rw [b4]; simp)
  rw [h2] at e0
  cases e0
  have hb : b.count = o.channels.rows := by rw [b1]; rfl
  refine ⟨r, h1, by omega, by omega, by rw [e3, b3, hM, div_mul_cancel₀ _ hNR], e4, ?_⟩
  intro c n hc hn'
  refine e5 c (fun n => o.channels.get c (((n : ℤ) - d - o.offset) % o.channels.cols).toNat) (by omega) ?_ n (by omega)
  intro k hk
  rw [b5 c k (by omega) (by omega)]
  have hp : pick o.channels.rows c = c := by unfold pick; split <;> omega
  unfold gain
  rw [C39_value _ _ _ (by positivity), hp, Fourier.transform_eq]
  show Option.map _ (([some _] : List (Option ℂ))[0]?.getD none) = _
  show Option.map _ (some _) = _
  rw [Option.map_some, hM]
  congr 1
  have hshift := dft_shift (2 * M) (by omega) (o.channels.get c) (d + o.offset) k
  rw [show (fun n : Nat => o.channels.get c (((n : ℤ) - d - o.offset) % (2 * M : Nat)).toNat) =
    fun n : Nat => o.channels.get c (((n : ℤ) - (d + o.offset)) % (2 * M : Nat)).toNat by funext n; rw [sub_sub], hshift]
  rw [Fourier.omega_zpow, Fourier.omega_zpow, mul_left_comm, ← Complex.exp_add]
  congr 2
  have hrc : (o.rate : ℂ) ≠ 0 := Complex.ofReal_ne_zero.mpr hr.ne'
  push_cast at hNC ⊢
  field_simp
  ring

example : ∃ o : Signal ℝ ℝ, o.labels.length = o.channels.rows ∧ 1 ≤ o.channels.rows ∧ 2 ≤ o.channels.cols ∧
    o.channels.cols % 2 = 0 ∧ 0 < o.rate :=
  ⟨⟨⟨2, 6, fun c i => c + i⟩, 48000, 3, ["a", "b"]⟩, rfl, by decide, by decide, rfl, by norm_num⟩

/-- C93: If the transfer function has no finite value at one of the bins, all samples of the channel are `nan`. -/
theorem C93_not_finite (mem : Memory) (a : Channels ℝ ℂ) (o : Signal ℝ ℝ) (hl : o.labels.length = o.channels.rows)
    (hm : 1 ≤ o.channels.rows) (hn : 2 ≤ o.channels.cols) (hr : o.rate ≠ 0)
    (h : Fits a.transferFunctions.length o.channels.rows) (c k : Nat)
    (hc : c < filteredCount a.transferFunctions.length o.channels.rows) (hk : k ≤ o.channels.cols / 2)
    (hz : gain mem.s a (pick a.transferFunctions.length c) (k * (o.rate / o.channels.cols)) = none) :
    ∃ r, applySignal complexEnv mem a o = .ok r ∧ ∀ i, i < r.length → r.channels.get c i = none := by
  obtain ⟨b, r, h1, h2, b1, b2, b3, b4, b5⟩ := applySignal_ok mem a o hl hm hn hr h
  obtain ⟨r', e0, _, e2, _, _, _, _, e5⟩ := inverse_ok mem.signal b (o.channels.cols / 2) (by omega) b2 (by rw [b4]; simp)
  rw [h2] at e0
  cases e0
  refine ⟨r, h1, fun i hi => e5 c k (by omega) hk ?_ i (by omega)⟩
  rw [b5 c k (by omega) hk, hz]
  rfl

/-- The hypotheses can be satisfied: an integrator has no finite value at 0 Hz. -/
example (memS : ℂ) : gain memS ⟨[.quotient (.constant 1) (.polynomial [1, 0] false) false], ["a"]⟩ 0 0 = none := by
  simp [gain, Channels.call, evalStateList, evalState, touch, fix, complexEnv_zero, polyval, sMemory, Filter.divide]

/-- C93 is violated for odd numbers of samples: the filtered signal has one sample less and another sampling rate, even if
the transfer function is one. -/
theorem C93_odd_violated (mem : Memory) : ∃ r,
    applySignal complexEnv mem ⟨[.constant 1], ["a"]⟩ ⟨⟨1, 3, fun _ i => i + 1⟩, 3, 0, ["a"]⟩ = .ok r ∧
      r.length = 2 ∧ r.rate = 2 := by
  obtain ⟨b, r, h1, h2, b1, b2, b3, b4, b5⟩ := applySignal_ok mem ⟨[.constant 1], ["a"]⟩
    ⟨⟨1, 3, fun _ i => i + 1⟩, 3, 0, ["a"]⟩ rfl (by decide) (by decide) (by norm_num) (Or.inl rfl)
  obtain ⟨r', e0, _, e2, e3, _⟩ := inverse_ok mem.signal b 1 (by omega) b2 (by rw [b4]; simp)
  rw [h2] at e0
  cases e0
  refine ⟨r, h1, e2, ?_⟩
  rw [e3, b3]
  norm_num

/-! ### spectrograms -/

/-- C93: The bins of the filtered spectrogram are the products of the bins and the values of the transfer functions at the
frequencies of the bins at all times. -/
theorem C93_spectrogram (memS : ℂ) (mem : Nat → Nat → Nat → Option ℂ) (a : Channels ℝ ℂ) (o : Spectrogram ℂ ℝ)
    (h : Fits a.transferFunctions.length o.count) (ha : 1 ≤ a.transferFunctions.length) (ho : 1 ≤ o.count) :
    ∃ r, applySpectrogram complexEnv memS mem a o = .ok r ∧
      r.count = filteredCount a.transferFunctions.length o.count ∧ r.freqs = o.freqs ∧ r.length = o.length ∧
      r.offset = o.offset ∧ r.resolution = o.resolution ∧ r.rate = o.rate ∧
      r.labels = List.replicate r.count "Product" ∧
      ∀ c k t, c < r.count → k < o.freqs → t < o.length → r.channels.get c k t =
        (gain memS a (pick a.transferFunctions.length c) (k * o.resolution)).map fun z =>
          z * o.channels.get (pick o.count c) k t := by
  letI : Zero (Option ℂ) := ⟨some 0⟩
  have e1 : (sampled complexEnv memS a o.resolution o.freqs).count = a.transferFunctions.length := rfl
  have e2 : (liftSpectrogram o).count = o.count := rfl
  have e3 : (sampled complexEnv memS a o.resolution o.freqs).length = o.freqs := rfl
  have e4 : (liftSpectrogram o).freqs = o.freqs := rfl
  have e5 : (liftSpectrogram o).length = o.length := rfl
  have e6 : (liftSpectrogram o).offset = o.offset := rfl
  obtain ⟨r, hr, hs⟩ := Spectrogram.C74_spectrum_partial mem multiply none "Product" (liftSpectrogram o)
    (sampled complexEnv memS a o.resolution o.freqs) rfl (by omega) (by omega) (by intro p hp; cases hp)
  have hcount : r.count = filteredCount a.transferFunctions.length o.count := by
    rw [hs.count, e1, e2]
    unfold filteredCount
    unfold Fits at h
    split_ifs <;> omega
  refine ⟨r, hr, hcount, hs.freqs, hs.length, hs.offset, hs.resolution, hs.rate, hs.labels, ?_⟩
  have k1 := hs.freqs
  have k2 := hs.length
  have k3 := hs.offset
  intro c k t hc hk ht
  rw [hs.value c k t hc (by omega) (by omega)]
  unfold Spectrogram.bcast Spectrogram.spectrumSample
  unfold Fits at h
  unfold filteredCount at hcount
  rw [e1, e2, e3, e4, e5, e6,
    if_pos (show (o.count = 1 ∨ c < o.count) ∧ k < o.freqs ∧ o.offset ≤ r.offset + t ∧ r.offset + t < o.offset + o.length by
      split_ifs at hcount <;> omega),
    if_pos (show (a.transferFunctions.length = 1 ∨ c < a.transferFunctions.length) ∧ k < o.freqs by
      split_ifs at hcount <;> omega)]
  rw [show (r.offset + t - o.offset).toNat = t by omega]
  show multiply (some _) (((a.call complexEnv memS (k * o.resolution))[_]?).getD none) = _
  show _ = Option.map _ (((a.call complexEnv memS (k * o.resolution))[if _ then _ else _]?).getD none)
  cases ((a.call complexEnv memS (k * o.resolution))[if a.transferFunctions.length = 1 then 0 else c]?).getD none with
  | none => rfl
  | some z =>
    show some (_ * z) = some (z * _)
    rw [mul_comm]
    rfl

example : ∃ (a : Channels ℝ ℂ) (o : Spectrogram ℂ ℝ), Fits a.transferFunctions.length o.count ∧
    1 ≤ a.transferFunctions.length ∧ 1 ≤ o.count :=
  ⟨delayFilter 1, ⟨⟨3, 2, 2, fun c k t => c + k + t⟩, 1, 1, 0, ["a", "b", "c"]⟩, Or.inl rfl, Nat.one_pos, by decide⟩

end FilterApply
end Verif
