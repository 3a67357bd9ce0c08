import Verif.FourierLawsProps
import Verif.InverseProps
import Verif.JackMeasurementProps

/-
Property C132: the identification of a system.  The Fourier transform of the response of a linear system is divided by the
Fourier transform of its excitation (`Signal.fourier_transform`, `_signal.py:382-439`; `SampledData.__truediv__`,
`_sampled_data.py:123-125`) and transformed back (`Spectrum.inverse_fourier_transform`, `_spectrum.py:350-367`); the result
is the impulse response of the system.
-/

namespace Verif
namespace Deconvolution

open Finset Dft Fourier

/-! ### Specification -/

/-- the response of a system, whose excitation is repeated periodically -/
def periodic (N : Nat) (h x : Nat → ℝ) (n : Nat) : ℝ := ∑ j ∈ range N, x j * h (((n : ℤ) - j) % N).toNat

/-- no bin of the Fourier transform of the `N` samples is zero -/
def Excites (N : Nat) (x : Nat → ℝ) : Prop := ∀ k : Nat, k ≤ N / 2 →
  ∑ j ∈ range N, (x j : ℂ) * Complex.exp (-2 * Real.pi * Complex.I * k * j / N) ≠ 0

/-! ### Lemmas -/

theorem excites_dft {N : Nat} {x : Nat → ℝ} (h : Excites N x) (k : Nat) (hk : k ≤ N / 2) : dft N x k ≠ 0 := by
  have := h k hk
  unfold dft
  intro h0
  apply this
  rw [← h0]
  refine Finset.sum_congr rfl fun j _ => ?_
  rw [omega_zpow]
  congr 2
  push_cast
  ring

/-- the convolution theorem for periodic signals -/
theorem dft_periodic {N : Nat} (hN : N ≠ 0) (h x : Nat → ℝ) (k : ℤ) :
    dft N (periodic N h x) k = dft N x k * dft N h k := by
  have h1 : ∀ n : Nat, ((periodic N h x n : ℝ) : ℂ) = ∑ j ∈ range N, ∑ l ∈ range N,
      if (N : ℤ) ∣ ((n : ℤ) - j) - l then (x j : ℂ) * h l else 0 := by
    intro n
    unfold periodic
    push_cast
    refine Finset.sum_congr rfl fun j _ => ?_
    rw [sum_congruent hN ((n : ℤ) - j) (fun l => (x j : ℂ) * h l)]
  have h2 : ∀ (j l : Nat), (∑ n ∈ range N, (if (N : ℤ) ∣ ((n : ℤ) - j) - l then (x j : ℂ) * h l else 0) *
      omega N ^ (-(k * n))) = (x j : ℂ) * h l * omega N ^ (-(k * ((j : ℤ) + l))) := by
    intro j l
    have e : ∀ n : Nat, (if (N : ℤ) ∣ ((n : ℤ) - j) - l then (x j : ℂ) * h l else 0) * omega N ^ (-(k * n)) =
        if (N : ℤ) ∣ ((j : ℤ) + l) - n then (x j : ℂ) * h l * omega N ^ (-(k * n)) else 0 := by
      intro n
      have : (N : ℤ) ∣ ((n : ℤ) - j) - l ↔ (N : ℤ) ∣ ((j : ℤ) + l) - n := by
        rw [← dvd_neg]
        ring_nf
      by_cases hd : (N : ℤ) ∣ ((n : ℤ) - j) - l
      · rw [if_pos hd, if_pos (this.mp hd)]
      · rw [if_neg hd, if_neg fun h => hd (this.mpr h), zero_mul]
    rw [Finset.sum_congr rfl fun n _ => e n,
      sum_congruent hN ((j : ℤ) + l) (fun n => (x j : ℂ) * h l * omega N ^ (-(k * n)))]
    have h0 : 0 ≤ ((j : ℤ) + l) % (N : ℤ) := Int.emod_nonneg _ (by omega)
    rw [Int.toNat_of_nonneg h0]
    congr 1
    have : -(k * ((j : ℤ) + l)) = -(k * (((j : ℤ) + l) % N)) + N * (-(k * (((j : ℤ) + l) / N))) := by
      have := Int.emod_add_mul_ediv ((j : ℤ) + l) N
      linear_combination k * this
    rw [this, omega_period hN]
  unfold dft
  simp only [h1, Finset.sum_mul]
  rw [Finset.sum_comm, ]
  refine Finset.sum_congr rfl fun j _ => ?_
  rw [Finset.sum_comm, Finset.mul_sum]
  refine Finset.sum_congr rfl fun l _ => ?_
  rw [h2, mul_mul_mul_comm, ← zpow_add₀ (omega_ne_zero _)]
  congr 2
  ring

/-- an excitation, that is followed by silence, and a short impulse response: the periodic response is that to a single
excitation -/
theorem periodic_linear {N la lb : Nat} (x h : Nat → ℝ) (hx : ∀ j, la ≤ j → j < N → x j = 0) (hh : ∀ i, lb ≤ i → i < N → h i = 0)
    (hl : la + lb ≤ N + 1) (n : Nat) (hn : n < N) :
    periodic N h x n = ∑ u ∈ range (n + 1), h (n - u) * x u := by
  unfold periodic
  rw [← Finset.sum_subset (s₁ := range (n + 1)) (s₂ := range N)]
  · refine Finset.sum_congr rfl fun u hu => ?_
    have := mem_range.mp hu
    rw [mul_comm, Int.emod_eq_of_lt (by omega) (by omega)]
    congr 2
    omega
  · intro u hu
    have := mem_range.mp hu
    exact mem_range.mpr (by omega)
  · intro u hu hu'
    have h1 := mem_range.mp hu
    have h2 : n < u := by
      by_contra hc
      exact hu' (mem_range.mpr (by omega))
    by_cases h3 : la ≤ u
    · rw [hx u h3 h1, zero_mul]
    · rw [← Int.add_emod_right, Int.emod_eq_of_lt (by omega) (by omega), hh _ (by omega) (by omega), mul_zero]

/-! ### C132 -/

/-- C132: If the excitation is repeated periodically (so that the response is in its steady state), the quotient of the
Fourier transforms of the response and of the excitation is the Fourier transform of the impulse response: transforming it
back restores the impulse response. The difference of the offsets delays it. -/
theorem C132_periodic_partial (m1 m2 m3 : Nat → Nat → ℂ) (m4 : Nat → Nat → ℝ) (x y : Signal ℝ ℝ) (hx : x.WF) (hy : y.WF)
    (hr : x.rate ≠ 0) (hrate : y.rate = x.rate) (hn : 1 ≤ x.length) (he : x.length % 2 = 0)
    (hlen : y.length = x.length) (hm : 1 ≤ y.count) (hcount : x.count = 1 ∨ x.count = y.count) (h : Nat → Nat → ℝ)
    (hex : ∀ c, c < x.count → Excites x.length (x.channels.get c))
    (hresp : ∀ c n, c < y.count → n < x.length →
      y.channels.get c n = periodic x.length (h c) (x.channels.get (x.chan c)) n) :
    ∃ Y X Q d, fourierTransform m1 y = .ok Y ∧ fourierTransform m2 x = .ok X ∧
      Spectrum.algebra m3 (· / ·) (some 1) "Quotient" Y X = .ok Q ∧ inverseFourierTransform m4 Q = .ok d ∧
      d.count = y.count ∧ d.length = x.length ∧ d.rate = x.rate ∧ d.offset = 0 ∧
      ∀ c n, c < y.count → n < x.length →
        d.channels.get c n = h c (((n : ℤ) - (y.offset - x.offset)) % x.length).toNat := by
  obtain ⟨M, hM⟩ : ∃ M, x.length = 2 * M := ⟨x.length / 2, by omega⟩
  have hM0 : 0 < M := by omega
  have hxm : 1 ≤ x.count := by omega
  obtain ⟨Y, f1, Y1, Y2, Y3, Y4, Y5⟩ := C52_transform m1 y hy hm (by show 1 ≤ y.length; omega) (by rw [hrate]; exact hr)
  obtain ⟨X, f2, X1, X2, X3, X4, X5⟩ := C52_transform m2 x hx hxm hn hr
  change Y.count = y.count at Y1
  change X.count = x.count at X1
  change Y.length = y.length / 2 + 1 at Y2
  change X.length = x.length / 2 + 1 at X2
  have tr : ∀ (s : Signal ℝ ℝ) (S : Spectrum ℂ ℝ), s.length = 2 * M → s.rate ≠ 0 → S.resolution = s.rate / s.length →
      (∀ c k, c < s.count → k ≤ s.length / 2 →
        S.channels.get c k = ∑ j ∈ range s.length, (s.channels.get c j : ℂ) *
          Complex.exp (-2 * Real.pi * Complex.I * ((k * S.resolution : ℝ) : ℂ) * (((s.offset + j) / s.rate : ℝ) : ℂ))) →
      ∀ c k, c < s.count → k ≤ M → S.channels.get c k = dft (2 * M) (s.channels.get c) k * omega (2 * M) ^ (-((k : ℤ) * s.offset)) := by
    intro s S e1 e2 e3 e4 c k hc hk
    have hL : (s.length : ℂ) ≠ 0 := Nat.cast_ne_zero.mpr (by omega)
    have hrc : (s.rate : ℂ) ≠ 0 := Complex.ofReal_ne_zero.mpr e2
    rw [e4 c k hc (by omega), ← e1, ← transform_eq]
    unfold transform
    refine Finset.sum_congr rfl fun j _ => ?_
    congr 2
    rw [e3]
    push_cast
    field_simp
  have tY := tr y Y (by omega) (by rw [hrate]; exact hr) Y3 Y5
  have tX := tr x X hM hr X3 X5
  obtain ⟨Q, f3, Q1, Q2, Q3, Q4, Q5⟩ := Spectrum.C15_binwise_partial m3 (· / ·) (some 1) "Quotient" Y X (by omega)
  have Q1' : Q.count = y.count := by
    rw [Q1]
    unfold Spectrum.resultCount
    split <;> [skip; split] <;> omega
  have hcols : Q.channels.cols = M + 1 := by
    show Q.length = _
    omega
  have hget : ∀ c, c < y.count → ∀ k, k ≤ M → Q.channels.get c k =
      dft (2 * M) (fun j => if j = ((y.offset - x.offset) % (2 * M : Nat)).toNat then 1 else 0) (1 * k) *
        dft (2 * M) (h c) k := by
    intro c hc k hk
    have hch : x.chan c < x.count := by
      unfold Signal.chan
      split <;> omega
    have b1 : Spectrum.bin Y c k = some (Y.channels.get c k) := by
      unfold Spectrum.bin
      rw [if_pos (Or.inr (by omega))]
      congr 2
      split <;> omega
    have b2 : Spectrum.bin X c k = some (X.channels.get (x.chan c) k) := by
      unfold Spectrum.bin Signal.chan at *
      rw [X1]
      rw [if_pos]
      by_cases h : x.count = 1
      · exact Or.inl h
      · rw [if_neg h] at hch
        exact Or.inr hch
    rw [Q5 c k (by omega) (by change k < Q.channels.cols; omega), b1, b2]
    dsimp only
    rw [tY c k hc hk, tX _ k hch hk, one_mul, dft_impulse (by omega)]
    have e : dft (2 * M) (y.channels.get c) k = dft (2 * M) (x.channels.get (x.chan c)) k * dft (2 * M) (h c) k := by
      rw [← dft_periodic (by omega)]
      refine Inverse.dft_congr (fun n hn => ?_) _
      rw [hresp c n hc (by omega), hM]
    have nz : dft (2 * M) (x.channels.get (x.chan c)) k ≠ 0 := by
      rw [← hM]
      exact excites_dft (hex _ hch) k (by omega)
    have oz : omega (2 * M) ^ (-((k : ℤ) * x.offset)) ≠ 0 := zpow_ne_zero _ (omega_ne_zero _)
    rw [e, div_eq_iff (mul_ne_zero nz oz)]
    have : omega (2 * M) ^ (-((k : ℤ) * y.offset)) =
        omega (2 * M) ^ (-((k : ℤ) * (y.offset - x.offset))) * omega (2 * M) ^ (-((k : ℤ) * x.offset)) := by
      rw [← zpow_add₀ (omega_ne_zero _)]
      congr 1
      ring
    rw [this]
    ring
  obtain ⟨E, hE⟩ : ∃ E, Q.channels.irfft = .ok E := by
    unfold Mat.irfft
    rw [if_neg (by omega)]
    exact ⟨_, rfl⟩
  have hEr : E.rows = Q.channels.rows ∧ E.cols = 2 * M := by
    obtain ⟨B, h1, h2, h3, _⟩ := Mat.irfft_product Q.channels M hM0 hcols 0 _ _ 1 (Or.inl rfl) (hget 0 (by omega))
    rw [hE] at h1
    cases h1
    exact ⟨h2, h3⟩
  have hEg : ∀ c n, c < y.count → n < x.length →
      E.get c n = h c (((n : ℤ) - (y.offset - x.offset)) % x.length).toNat := by
    intro c n hc hn
    obtain ⟨B, h1, _, _, h4⟩ := Mat.irfft_product Q.channels M hM0 hcols c _ _ 1 (Or.inl rfl) (hget c hc)
    rw [hE] at h1
    cases h1
    have h0 : 0 ≤ (y.offset - x.offset) % ((2 * M : Nat) : ℤ) := Int.emod_nonneg _ (by omega)
    have h1 : (y.offset - x.offset) % ((2 * M : Nat) : ℤ) < (2 * M : Nat) := Int.emod_lt_of_pos _ (by omega)
    rw [h4 n, Finset.sum_eq_single ((y.offset - x.offset) % (2 * M : Nat)).toNat]
    · rw [if_pos rfl, one_mul, one_mul, Int.toNat_of_nonneg h0, hM, Int.sub_emod_emod]
    · intro j _ hj
      rw [if_neg hj, zero_mul]
    · intro h
      exfalso
      apply h
      rw [mem_range]
      omega
  have hlen' : max 1 ((Q.length - 1) * 2) = 2 * M := by
    show max 1 ((Q.channels.cols - 1) * 2) = 2 * M
    rw [hcols]
    omega
  obtain ⟨D, h1, h2, h3, h4⟩ := assign_full (A := alloc m4 Q.count (2 * M)) (B := E) hEr.1 hEr.2
  refine ⟨Y, X, Q, Signal.new D (Q.resolution * (2 * M : Nat)) 0 (some Q.labels), f1, f2, f3, ?_, ?_, ?_, ?_, rfl, ?_⟩
  · unfold inverseFourierTransform
    rw [if_neg (show ¬Q.length = 0 by unfold Spectrum.length; omega)]
    dsimp only
    rw [hlen']
    unfold irfftN
    rw [if_neg (show ¬Q.channels.cols = 1 by omega), hE]
    show (Mat.assign _ _ _ _ >>= _) = _
    rw [h1]
    rfl
  · show D.rows = _
    rw [h2]
    exact Q1'
  · show D.cols = _
    rw [h3, hM]
    rfl
  · show Q.resolution * (2 * M : Nat) = x.rate
    have hz : ((2 * M : Nat) : ℝ) ≠ 0 := Nat.cast_ne_zero.mpr (by omega)
    have hyl : y.channels.cols = 2 * M := by
      show y.length = _
      omega
    rw [Q3, Y3, hyl, hrate, div_mul_cancel₀ _ hz]
  · intro c n hc hn
    show D.get c n = _
    rw [h4 c n (by show c < Q.count; omega) (by show n < 2 * M; omega)]
    exact hEg c n hc hn

/-- C132: The response to a signal, that ends with silence, is the convolution with the impulse response of the system, so
that the division of the Fourier transforms restores the impulse response: the impulse response is not longer than the
silence (and one sample). -/
theorem C132_transient_partial (m1 m2 m3 : Nat → Nat → ℂ) (m4 : Nat → Nat → ℝ) (x y : Signal ℝ ℝ) (hx : x.WF) (hy : y.WF)
    (hr : x.rate ≠ 0) (hrate : y.rate = x.rate) (hn : 1 ≤ x.length) (he : x.length % 2 = 0)
    (hlen : y.length = x.length) (hoff : y.offset = x.offset) (hm : 1 ≤ y.count)
    (hcount : x.count = 1 ∨ x.count = y.count) (h : Nat → Nat → ℝ)
    (hex : ∀ c, c < x.count → Excites x.length (x.channels.get c)) (la lb : Nat) (hl : la + lb ≤ x.length + 1)
    (hsilent : ∀ c n, c < x.count → la ≤ n → n < x.length → x.channels.get c n = 0)
    (hshort : ∀ c i, c < y.count → lb ≤ i → i < x.length → h c i = 0)
    (hresp : ∀ c n, c < y.count → n < x.length →
      y.channels.get c n = ∑ u ∈ range (n + 1), h c (n - u) * x.channels.get (x.chan c) u) :
    ∃ Y X Q d, fourierTransform m1 y = .ok Y ∧ fourierTransform m2 x = .ok X ∧
      Spectrum.algebra m3 (· / ·) (some 1) "Quotient" Y X = .ok Q ∧ inverseFourierTransform m4 Q = .ok d ∧
      d.count = y.count ∧ d.length = x.length ∧ d.rate = x.rate ∧ d.offset = 0 ∧
      ∀ c n, c < y.count → n < x.length → d.channels.get c n = h c n := by
  have hch : ∀ c, c < y.count → x.chan c < x.count := by
    intro c hc
    unfold Signal.chan
    split <;> omega
  obtain ⟨Y, X, Q, d, f1, f2, f3, f4, d1, d2, d3, d4, d5⟩ := C132_periodic_partial m1 m2 m3 m4 x y hx hy hr hrate hn he hlen hm
    hcount h hex (fun c n hc hn => by
      rw [hresp c n hc hn, periodic_linear _ _ (fun j => hsilent _ j (hch c hc)) (fun i => hshort c i hc) hl n hn])
  refine ⟨Y, X, Q, d, f1, f2, f3, f4, d1, d2, d3, d4, fun c n hc hn => ?_⟩
  rw [d5 c n hc hn, hoff, Int.sub_self, Int.sub_zero, Int.emod_eq_of_lt (by omega) (by omega), Int.toNat_natCast]

open Signal in
/-- C132: Deconvolution undoes the convolution: the quotient of the Fourier transforms of a convolution and of the first
signal (padded to the length of the convolution) is transformed back to the second signal. -/
theorem C132_convolution_partial (m0 m5 : Nat → Nat → ℝ) (m1 m2 m3 : Nat → Nat → ℂ) (m4 : Nat → Nat → ℝ) (label : String)
    (a b : Signal ℝ ℝ) (ha : a.WF) (hma : 1 ≤ a.count) (hmb : 1 ≤ b.count) (hna : 1 ≤ a.length) (hnb : 1 ≤ b.length)
    (hr : a.rate ≠ 0) (hcount : a.count = 1 ∨ b.count = 1 ∨ a.count = b.count) (he : (a.length + b.length) % 2 = 1)
    (hex : ∀ c, c < a.count → Excites (a.length + b.length - 1)
      (fun n => if n < a.length then a.channels.get c n else 0)) :
    ∃ y x Y X Q d, convolve (fullConvolution m0) label a b = .ok y ∧ a.pad m5 (a.length + b.length - 1) 0 = .ok x ∧
      fourierTransform m1 y = .ok Y ∧ fourierTransform m2 x = .ok X ∧
      Spectrum.algebra m3 (· / ·) (some 1) "Quotient" Y X = .ok Q ∧ inverseFourierTransform m4 Q = .ok d ∧
      d.count = (if a.count = 1 then b.count else a.count) ∧ d.length = a.length + b.length - 1 ∧ d.rate = a.rate ∧
      d.offset = 0 ∧
      (b.offset = 0 → ∀ c t, c < d.count → d.value c t = b.value (b.chan c) t) ∧
      ∀ c i, c < d.count → i < a.length + b.length - 1 →
        d.channels.get c (((i : ℤ) + b.offset) % (a.length + b.length - 1 : Nat)).toNat =
          if i < b.length then b.channels.get (b.chan c) i else 0 := by
  obtain ⟨y, y1, y2, y3, ⟨y4, y5, y6⟩, -⟩ := C17_full m0 label a b (by omega) (by omega)
  obtain ⟨x, x1, x2, x3, x4, x5, x6, x7⟩ := C05_pad m5 a ha (a.length + b.length - 1) 0
  have hcc : convCount a b = if a.count = 1 then b.count else a.count := by
    unfold convCount
    split <;> split <;> omega
  have hW : y.WF := by
    unfold WF
    rw [convolve_labels y1]
    exact C01_labels_length _ _
  have hxget : ∀ c n, c < a.count → n < x.length → x.channels.get c n = if n < a.length then a.channels.get c n else 0 := by
    intro c n hc hn
    have h := x7 c n hc (by omega)
    rw [Signal.sample_of_lt (by omega) hn] at h
    by_cases h1 : n < a.length
    · rw [if_pos h1, Signal.sample_of_lt hc h1] at h
      rw [if_pos h1]
      exact Option.some.inj h
    · rw [if_neg h1] at h
      rw [if_neg h1]
      exact Option.some.inj h
  set h : Nat → Nat → ℝ := fun c i => if i < b.length then b.channels.get (b.chan c) i else 0 with hh
  have hxc : ∀ c, x.chan c = a.chan c := by
    intro c
    unfold Signal.chan
    rw [x2]
  have hch : ∀ c, c < y.count → a.chan c < a.count := fun c hc => chan_lt_left (o := b) (by rw [← y4]; exact hc)
  obtain ⟨Y, X, Q, d, f1, f2, f3, f4, d1, d2, d3, d4, d5⟩ := C132_periodic_partial m1 m2 m3 m4 x y
    (by unfold WF; rw [x6, x2]; exact ha) hW (by rw [x4]; exact hr) (by rw [x4]; exact y5) (by omega) (by omega) (by omega)
    (by rw [y4, hcc]; split <;> omega) (by rw [x2, y4, hcc]; split <;> omega) h
    (fun c hc k hk => by
      have := hex c (by omega) k (by omega)
      rw [x3]
      rw [Finset.sum_congr rfl fun j hj => by rw [hxget c j (by omega) (by rw [x3]; exact mem_range.mp hj)]]
      exact this)
    (fun c n hc hn => by
      rw [hxc, periodic_linear (la := a.length) (lb := b.length) _ _
        (fun j h1 h2 => by rw [hxget _ j (hch c hc) h2, if_neg (by omega)])
        (fun i h1 h2 => by rw [hh]; dsimp only; rw [if_neg (by omega)]) (by omega) n hn]
      have hcov : y.Covers (y.offset + n) := ⟨by omega, by omega⟩
      have hv := y6 c (y.offset + n) (by omega) hcov
      rw [convAt_eq a b (by omega), if_pos (by omega), at_eq_some] at hv
      obtain ⟨-, -, -, hv⟩ := hv
      rw [show (y.offset + n - y.offset).toNat = n by omega,
        show (y.offset + (n : ℤ) - a.offset - b.offset).toNat = n by omega] at hv
      rw [hv]
      unfold npFull
      have hterm : ∀ u, u < n + 1 → h c (n - u) * x.channels.get (a.chan c) u =
          if u < a.length then (if u ≤ n ∧ n - u < b.length then
            a.channels.get (a.chan c) u * b.channels.get (b.chan c) (n - u) else 0) else 0 := by
        intro u hu
        rw [hxget _ u (hch c hc) (by omega), hh]
        dsimp only
        by_cases h1 : u < a.length
        · rw [if_pos h1, if_pos h1]
          by_cases h2 : n - u < b.length
          · rw [if_pos h2, if_pos ⟨by omega, h2⟩, mul_comm]
          · rw [if_neg h2, if_neg (by omega), zero_mul]
        · rw [if_neg h1, if_neg h1, mul_zero]
      rw [Finset.sum_congr rfl fun u hu => hterm u (mem_range.mp hu)]
      conv_rhs => rw [← Finset.sum_filter]
      symm
      refine Finset.sum_subset_zero_on_sdiff (fun u hu => ?_) (fun u hu => ?_) (fun _ _ => rfl)
      · rw [mem_filter] at hu
        exact mem_range.mpr hu.2
      · rw [mem_sdiff, mem_filter, mem_range, mem_range] at hu
        rw [if_neg (by omega)])
  have key : ∀ c i, c < d.count → i < a.length + b.length - 1 →
      d.channels.get c (((i : ℤ) + b.offset) % (a.length + b.length - 1 : Nat)).toNat = h c i := by
    intro c i hc hi
    have h0 : 0 ≤ ((i : ℤ) + b.offset) % (a.length + b.length - 1 : Nat) := Int.emod_nonneg _ (by omega)
    have h1 : ((i : ℤ) + b.offset) % (a.length + b.length - 1 : Nat) < (a.length + b.length - 1 : Nat) :=
      Int.emod_lt_of_pos _ (by omega)
    rw [d5 c _ (by omega) (by omega), x3, Int.toNat_of_nonneg h0, y2, x5, add_sub_cancel_left, Int.emod_sub_emod,
      add_sub_cancel_right, Int.emod_eq_of_lt (by omega) (by omega), Int.toNat_natCast]
  refine ⟨y, x, Y, X, Q, d, y1, x1, f1, f2, f3, f4, by rw [d1, y4, hcc], by omega, by rw [d3, x4], d4, ?_, key⟩
  intro hb0 c t hc
  have hcb : b.chan c < b.count := chan_lt_right (s := a) (by rw [← y4, ← d1]; exact hc)
  rw [value_eq_ext d hc, value_eq_ext b hcb]
  unfold ext
  rw [d4, hb0]
  by_cases ht : 0 ≤ t ∧ t < 0 + (d.length : ℤ)
  · have hk := key c t.toNat hc (by omega)
    rw [hb0, Int.add_zero, Int.emod_eq_of_lt (by omega) (by omega), Int.toNat_natCast, hh] at hk
    dsimp only at hk
    rw [if_pos ht, Int.sub_zero, hk]
    by_cases h2 : t.toNat < b.length
    · rw [if_pos h2, if_pos (by omega)]
    · rw [if_neg h2, if_neg (by omega)]
  · rw [if_neg ht, if_neg (by omega)]

/-- C132: A measurement: a signal, that ends with silence, is played back through a JACK port and the responses of systems
with the impulse responses `h k` are recorded. The division of the Fourier transforms restores the impulse responses. -/
theorem C132_measurement_partial (mem : Nat → Nat → ℝ) (m1 m2 m3 : Nat → Nat → ℂ) (m4 : Nat → Nat → ℝ) (s : Signal ℝ ℝ)
    (hs : s.WF) (hs1 : s.count = 1) (hr : s.rate ≠ 0) (hn : 1 ≤ s.length) (he : s.length % 2 = 0)
    (hex : Excites s.length (s.channels.get 0)) (la lb : Nat) (hl : la + lb ≤ s.length + 1)
    (hsilent : ∀ n, la ≤ n → n < s.length → s.channels.get 0 n = 0)
    (names : List String) (hin : 1 ≤ names.length) (h : Nat → Nat → ℝ)
    (hshort : ∀ k i, k < names.length → lb ≤ i → i < s.length → h k i = 0)
    (bs : List (Jack.Block ℝ)) (hv : ∀ b ∈ bs, b.Valid names.length s.count) (hc : Jack.Clean s.length bs)
    (hL : s.length ≤ Jack.total bs) (p : Nat → Nat → ℝ) (st : Jack.State ℝ) (outs : List (Mat ℝ))
    (hrun : Jack.process s (Jack.start mem names.length s) bs = .ok (st, outs)) (hp : Jack.Stream bs outs p)
    (hcon : Jack.Connected (fun k _ i => h k i) s.count p bs names.length) :
    ∃ Y X Q d, fourierTransform m1 (Jack.output s s.rate names st) = .ok Y ∧ fourierTransform m2 s = .ok X ∧
      Spectrum.algebra m3 (· / ·) (some 1) "Quotient" Y X = .ok Q ∧ inverseFourierTransform m4 Q = .ok d ∧
      d.count = names.length ∧ d.length = s.length ∧ d.rate = s.rate ∧ d.offset = 0 ∧
      ∀ k n, k < names.length → n < s.length → d.channels.get k n = h k n := by
  obtain ⟨q1, q2, q3⟩ := Jack.C131_response_partial mem s names.length bs hv hc hL _ p st outs hrun hp hcon
  have hcnt : (Jack.output s s.rate names st).count = names.length := q1
  have hlen : (Jack.output s s.rate names st).length = s.length := q2
  obtain ⟨Y, X, Q, d, f1, f2, f3, f4, d1, d2, d3, d4, d5⟩ := C132_transient_partial m1 m2 m3 m4 s
    (Jack.output s s.rate names st) hs (C01_labels_length (some names) st.channels.rows) hr rfl hn he hlen rfl (by omega) (Or.inl hs1) h
    (fun c hc => by rw [show c = 0 by omega]; exact hex) la lb hl
    (fun c n hc => by rw [show c = 0 by omega]; exact hsilent n) (fun c i hc => hshort c i (by omega))
    (fun c n hc hn => by
      show st.channels.get c n = _
      rw [q3 c n (by omega) hn]
      unfold Jack.response
      have : s.chan c = 0 := by
        unfold Signal.chan
        rw [if_pos hs1]
      rw [hs1, sum_range_one, this])
  exact ⟨Y, X, Q, d, f1, f2, f3, f4, by omega, d2, d3, d4, fun k n hk hn => d5 k n (by omega) hn⟩

/-- C132 is violated for all odd lengths: the result has one sample less than the impulse response and another sampling
rate, because `Spectrum.inverse_fourier_transform` cannot know that the length was odd. -/
theorem C132_odd_violated (m1 m2 m3 : Nat → Nat → ℂ) (m4 : Nat → Nat → ℝ) (x y : Signal ℝ ℝ) (hx : x.WF) (hy : y.WF)
    (hr : x.rate ≠ 0) (hrate : y.rate = x.rate) (hn : 3 ≤ x.length) (he : x.length % 2 = 1)
    (hlen : y.length = x.length) (hm : 1 ≤ y.count) (hcount : x.count = 1 ∨ x.count = y.count) :
    ∃ Y X Q d, fourierTransform m1 y = .ok Y ∧ fourierTransform m2 x = .ok X ∧
      Spectrum.algebra m3 (· / ·) (some 1) "Quotient" Y X = .ok Q ∧ inverseFourierTransform m4 Q = .ok d ∧
      d.length + 1 = x.length ∧ d.rate ≠ x.rate := by
  obtain ⟨Y, f1, Y1, Y2, Y3, -, -⟩ := C52_transform m1 y hy hm (by show 1 ≤ y.length; omega) (by rw [hrate]; exact hr)
  obtain ⟨X, f2, X1, X2, X3, -, -⟩ := C52_transform m2 x hx (by show 1 ≤ x.count; omega) (by show 1 ≤ x.length; omega) hr
  change Y.count = y.count at Y1
  change X.count = x.count at X1
  change Y.length = y.length / 2 + 1 at Y2
  change X.length = x.length / 2 + 1 at X2
  obtain ⟨Q, f3, Q1, Q2, Q3, Q4, Q5⟩ := Spectrum.C15_binwise_partial m3 (· / ·) (some 1) "Quotient" Y X (by omega)
  have Q1' : Q.count = y.count := by
    rw [Q1]
    unfold Spectrum.resultCount
    split <;> [skip; split] <;> omega
  have hL : (x.length : ℝ) ≠ 0 := Nat.cast_ne_zero.mpr (by omega)
  have hyl : y.channels.cols = x.length := hlen
  have hres : Q.resolution = x.rate / x.length := by rw [Q3, Y3, hyl, hrate]
  obtain ⟨d, _, hd, _, h1, _, h2, _⟩ := C52_spectrum m1 m4 Q (by rw [Q4, List.length_replicate]; rfl)
    (by show 1 ≤ Q.count; omega) (by show 2 ≤ Q.length; omega) (by rw [hres]; exact div_ne_zero hr hL)
  have hQl : Q.channels.cols = Q.length := rfl
  refine ⟨Y, X, Q, d, f1, f2, f3, hd, by show d.channels.cols + 1 = _; omega, ?_⟩
  rw [h2, hres]
  intro h
  have hz : (d.channels.cols : ℝ) = x.length := by
    field_simp at h
    exact h
  have := Nat.cast_injective hz
  omega

/-- two samples, of which the first one is greater, excite all systems -/
theorem excites_two (N : Nat) (hN : 2 ≤ N) (a b : ℝ) (h : |b| < |a|) :
    Excites N (fun n => if n = 0 then a else if n = 1 then b else 0) := by
  intro k _ h0
  obtain ⟨K, rfl⟩ : ∃ K, N = K + 2 := ⟨N - 2, by omega⟩
  rw [Finset.sum_range_succ', Finset.sum_range_succ'] at h0
  simp only [Nat.add_eq_zero_iff, one_ne_zero, and_false, if_false, Nat.reduceAdd, if_true] at h0
  rw [Finset.sum_eq_zero] at h0
  · simp only [zero_add, Nat.cast_zero, mul_zero, zero_div, Complex.exp_zero, mul_one] at h0
    have h1 := congrArg norm (eq_neg_of_add_eq_zero_right h0)
    rw [norm_neg, norm_mul, Complex.norm_real, Complex.norm_real, Real.norm_eq_abs, Real.norm_eq_abs] at h1
    rw [show (-2 * (Real.pi : ℂ) * Complex.I * k * ((1 : Nat) : ℂ) / ((K + 2 : Nat) : ℂ)) =
      ((-2 * Real.pi * k / (K + 2 : Nat) : ℝ) : ℂ) * Complex.I by push_cast; ring, Complex.norm_exp_ofReal_mul_I] at h1
    linarith
  · intro j _
    rw [if_neg (by omega), Complex.ofReal_zero, zero_mul]

-- the hypotheses are satisfiable: a signal with two samples and two impulse responses with three samples
example : ∃ a b : Signal ℝ ℝ, a.WF ∧ 1 ≤ a.count ∧ 1 ≤ b.count ∧ 1 ≤ a.length ∧ 1 ≤ b.length ∧ a.rate ≠ 0 ∧
    (a.count = 1 ∨ b.count = 1 ∨ a.count = b.count) ∧ (a.length + b.length) % 2 = 1 ∧ b.count = 2 ∧
    ∀ c, c < a.count → Excites (a.length + b.length - 1) (fun n => if n < a.length then a.channels.get c n else 0) := by
  refine ⟨⟨⟨1, 2, fun _ n => if n = 0 then 2 else if n = 1 then -1 else 0⟩, 48000, -3, ["a"]⟩,
    ⟨⟨2, 3, fun c n => c + n⟩, 48000, 0, ["b", "c"]⟩, rfl, by decide, by decide, by decide, by decide, by norm_num,
    Or.inl rfl, rfl, rfl, ?_⟩
  intro c _
  have h := excites_two 4 (by decide) 2 (-1) (by norm_num)
  refine (congrArg (Excites 4) (funext fun n => ?_)).mpr h
  show (if n < 2 then (if n = 0 then (2 : ℝ) else if n = 1 then -1 else 0) else 0) = _
  by_cases hn : n < 2
  · rw [if_pos hn]
  · rw [if_neg hn, if_neg (by omega), if_neg (by omega)]

-- an impulse excites all systems
example : Excites 4 (fun n => if n = 0 then 1 else if n = 1 then 0 else 0) := excites_two 4 (by decide) 1 0 (by norm_num)

end Deconvolution
end Verif
