import Verif.Inverse
import Verif.ConvolutionSpectrumProps
import Verif.SpectrumLevelProps

/-
Property C92: convolving a signal with its inverse results in a unit impulse.
-/

namespace Verif
namespace Inverse

open Finset Dft

/-! ### Specification -/

/-- the sample `n` of the cyclic convolution of two sequences with `N` samples -/
def cyclic (N : Nat) (x y : Nat → ℝ) (n : Nat) : ℝ := ∑ j ∈ range N, x j * y (((n : ℤ) - j) % N).toNat

/-- the unit impulse -/
def impulse (n : Nat) : ℝ := if n = 0 then 1 else 0

/-- The length of the Fourier transform, in which the reciprocal is computed. -/
def fftLength (N : Nat) : Nat := if N % 2 = 0 then N else 2 * N

/-- No bin of the Fourier transform of the channel is zero. -/
def Invertible (N : Nat) (x : Nat → ℝ) : Prop := ∀ k : Nat, k ≤ fftLength N / 2 →
  ∑ j ∈ range N, (x j : ℂ) * Complex.exp (-2 * Real.pi * Complex.I * k * j / fftLength N) ≠ 0

/-! ### The discrete Fourier transform of the inverse -/

theorem dft_zero {N : Nat} (x : Nat → ℝ) (h : ∀ n, n < N → x n = 0) (k : ℤ) : dft N x k = 0 := by
  unfold dft
  refine Finset.sum_eq_zero fun j hj => ?_
  rw [h j (mem_range.mp hj)]
  simp

theorem dft_congr {N : Nat} {x y : Nat → ℝ} (h : ∀ n, n < N → x n = y n) (k : ℤ) : dft N x k = dft N y k := by
  unfold dft
  refine Finset.sum_congr rfl fun j hj => ?_
  rw [h j (mem_range.mp hj)]

/-- a sequence is determined by its transform -/
theorem dft_injective {N : Nat} (hN : N ≠ 0) (x y : Nat → ℝ) (h : ∀ k : Nat, k < N → dft N x k = dft N y k) (n : Nat)
    (hn : n < N) : x n = y n := by
  have hp := Level.parseval hN (fun n => x n - y n)
  have hd : ∀ k ∈ range N, ‖dft N (fun n => x n - y n) k‖ ^ 2 = 0 := by
    intro k hk
    have e : dft N (fun n => x n - y n) k = dft N x k - dft N y k := by
      unfold dft
      rw [← Finset.sum_sub_distrib]
      refine Finset.sum_congr rfl fun j _ => ?_
      push_cast
      ring
    rw [e, h k (mem_range.mp hk), sub_self]
    simp
  rw [Finset.sum_eq_zero hd] at hp
  have hz : ∑ j ∈ range N, (x j - y j) ^ 2 = 0 := by
    rcases mul_eq_zero.mp hp.symm with h0 | h0
    · exact absurd (Nat.cast_eq_zero.mp h0) hN
    · exact h0
  have := (Finset.sum_eq_zero_iff_of_nonneg (fun j _ => sq_nonneg _)).mp hz n (mem_range.mpr hn)
  nlinarith [pow_eq_zero_iff (two_ne_zero) |>.mp this]

/-- if the product of the transforms is one, the cyclic convolution is the unit impulse -/
theorem cyclic_of_dft {N : Nat} (hN : N ≠ 0) (x y : Nat → ℝ) (h : ∀ k : Nat, k < N → dft N x k * dft N y k = 1)
    (n : Nat) (hn : n < N) : cyclic N x y n = impulse n := by
  have hc := inverse_core hN (fun j l => (x j : ℂ) * y l) (fun j l => (j : ℤ) + l) n
  have hprod : ∀ k ∈ range N, (∑ j ∈ range N, ∑ l ∈ range N, ((x j : ℂ) * y l) * omega N ^ (-((k : ℤ) * ((j : ℤ) + l)))) *
      omega N ^ ((k : ℤ) * n) = omega N ^ ((k : ℤ) * n) := by
    intro k hk
    have e : (∑ j ∈ range N, ∑ l ∈ range N, ((x j : ℂ) * y l) * omega N ^ (-((k : ℤ) * ((j : ℤ) + l)))) =
        dft N x k * dft N y k := by
      unfold dft
      rw [Finset.sum_mul_sum]
      refine Finset.sum_congr rfl fun j _ => Finset.sum_congr rfl fun l _ => ?_
      rw [mul_mul_mul_comm, ← zpow_add₀ (omega_ne_zero _)]
      congr 2
      ring
    rw [e, h k (mem_range.mp hk), one_mul]
  rw [Finset.sum_congr rfl hprod, sum_omega hN] at hc
  have hN' : (N : ℂ) ≠ 0 := Nat.cast_ne_zero.mpr hN
  apply Complex.ofReal_injective
  have hr : ∑ j ∈ range N, ∑ l ∈ range N, (if (N : ℤ) ∣ (n : ℤ) - ((j : ℤ) + l) then (x j : ℂ) * y l else 0) =
      ((cyclic N x y n : ℝ) : ℂ) := by
    unfold cyclic
    rw [Complex.ofReal_sum]
    refine Finset.sum_congr rfl fun j _ => ?_
    have : ∀ l : Nat, ((n : ℤ) - ((j : ℤ) + (l : ℤ))) = ((n : ℤ) - j) - l := by intro l; ring
    simp only [this]
    rw [sum_congruent hN ((n : ℤ) - j) (fun l => (x j : ℂ) * y l), ← Complex.ofReal_mul]
  rw [← hr, ← hc]
  unfold impulse
  by_cases h0 : n = 0
  · subst h0
    simp [hN']
  · have : ¬ (N : ℤ) ∣ (n : ℤ) := by
      intro hd
      have := Int.eq_zero_of_abs_lt_dvd hd (by rw [abs_lt]; omega)
      omega
    rw [if_neg this, if_neg h0]
    simp

theorem omega_double {N : Nat} (hN : N ≠ 0) (m : ℤ) : omega (2 * N) ^ (2 * m) = omega N ^ m := by
  rw [Fourier.omega_zpow, Fourier.omega_zpow]
  congr 1
  have : (N : ℂ) ≠ 0 := Nat.cast_ne_zero.mpr hN
  push_cast
  field_simp

/-- folding a sequence decimates its transform -/
theorem dft_fold {N : Nat} (hN : N ≠ 0) (y : Nat → ℝ) (k : ℤ) :
    dft N (fun n => y n + y (N + n)) k = dft (2 * N) y (2 * k) := by
  unfold dft
  rw [show 2 * N = N + N by ring, Finset.sum_range_add, ← Finset.sum_add_distrib, show N + N = 2 * N by ring]
  refine Finset.sum_congr rfl fun j _ => ?_
  have h1 : omega (2 * N) ^ (-(2 * k * (j : ℤ))) = omega N ^ (-(k * j)) := by
    rw [← omega_double hN]; congr 1; ring
  have h2 : omega (2 * N) ^ (-(2 * k * ((N + j : Nat) : ℤ))) = omega N ^ (-(k * j)) := by
    rw [← h1, ← omega_period (N := 2 * N) (by omega) (-(2 * k * (j : ℤ))) (-k)]
    congr 1
    push_cast
    ring
  rw [h1, h2]
  push_cast
  ring

/-- the transform of `irfft(1 / rfft(x))` -/
theorem dft_reciprocal {M : Nat} (hM : 0 < M) (x : Nat → ℝ) (X : Nat → ℂ) (hX : ∀ k, k ≤ M → X k = 1 / dft (2 * M) x k)
    (k : Nat) (hk : k < 2 * M) :
    dft (2 * M) (fun n => ((1 / ((2 * M : Nat) : ℂ)) * ∑ k ∈ range (2 * M),
      hermitian M X k * omega (2 * M) ^ ((k : ℤ) * n)).re) k = 1 / dft (2 * M) x k := by
  have hN : 2 * M ≠ 0 := by omega
  have hh : ∀ m : Nat, m ≤ M → hermitian M X m = 1 / dft (2 * M) x m := by
    intro m hm
    exact hermitian_eq X (fun k => 1 / dft (2 * M) x k) hX
      (fun k => by rw [map_div₀, map_one, conj_dft]) (fun k => by rw [dft_period hN]) m (by omega)
  by_cases hkM : k ≤ M
  · rw [Fourier.dft_inverse hM X hkM, hh k hkM]
  · have h1 := Fourier.dft_inverse hM X (show 2 * M - k ≤ M by omega)
    rw [hh _ (by omega)] at h1
    have hcast : ((2 * M - k : Nat) : ℤ) = -(k : ℤ) + (2 * M : Nat) := by omega
    rw [hcast, dft_period hN, dft_period hN] at h1
    have h2 := congrArg (starRingEnd ℂ) h1
    rw [conj_dft, map_div₀, map_one, conj_dft, neg_neg] at h2
    exact h2

/-! ### The reciprocal in the frequency domain -/

theorem reciprocal_ok (A : Mat ℝ) (M : Nat) (hM : 0 < M) (hA : A.cols = 2 * M) :
    ∃ S B, A.rfft = .ok S ∧ irfftReciprocal S = .ok B ∧ B.rows = A.rows ∧ B.cols = 2 * M ∧
      ∀ c, ((∀ k, k ≤ M → dft (2 * M) (A.get c) k ≠ 0) → ∃ y : Nat → ℝ, (∀ n, B.get c n = some (y n)) ∧
          ∀ k : Nat, k < 2 * M → dft (2 * M) y k = 1 / dft (2 * M) (A.get c) k) ∧
        ((∃ k, k ≤ M ∧ dft (2 * M) (A.get c) k = 0) → ∀ n, B.get c n = none) := by
  unfold Mat.rfft
  rw [if_neg (by omega)]
  refine ⟨_, ⟨A.rows, 2 * M, fun c n => open Classical in
      if ∃ k < M + 1, dft (2 * M) (A.get c) k = 0 then none
      else some (((1 / ((2 * M : Nat) : ℂ)) * ∑ k ∈ range (2 * M),
        hermitian M (fun k => 1 / dft (2 * M) (A.get c) k) k * omega (2 * M) ^ ((k : ℤ) * n)).re)⟩, rfl, ?_, ?_⟩
  · unfold irfftReciprocal Mat.irfft Mat.map
    have h2 : 2 * M / 2 = M := by omega
    dsimp only
    rw [hA, h2, if_neg (by omega), Nat.add_sub_cancel]
    rfl
  · refine ⟨rfl, rfl, fun c => ⟨?_, ?_⟩⟩
    · intro h
      refine ⟨_, fun n => if_neg ?_, fun k hk => dft_reciprocal hM (A.get c) _ (fun _ _ => rfl) k hk⟩
      rintro ⟨k, hk, h0⟩
      exact h k (by omega) h0
    · rintro ⟨k, hk, h0⟩ n
      exact if_pos ⟨k, by omega, h0⟩

/-- the value of a bin -/
theorem bin_eq (N L : Nat) (hL : L ≠ 0) (hN : N ≤ L) (x : Nat → ℝ) (k : Nat) :
    ∑ j ∈ range N, (x j : ℂ) * Complex.exp (-2 * Real.pi * Complex.I * k * j / L) =
      dft L (fun n => if n < N then x n else 0) k := by
  unfold dft
  rw [← Finset.sum_subset (Finset.range_mono hN)]
  · refine Finset.sum_congr rfl fun j hj => ?_
    dsimp only
    rw [if_pos (mem_range.mp hj), Fourier.omega_zpow]
    congr 2
    push_cast
    ring
  · intro j _ hj
    rw [mem_range] at hj
    dsimp only
    rw [if_neg hj]
    simp

/-- The inverse of a signal: shape and parameters, the values of the channels, that can be inverted, and those, that
cannot. -/
theorem invert_ok {R : Type} (mem : Nat → Nat → Option ℝ) (memP : Nat → Nat → ℝ) (s : Signal ℝ R)
    (hl : s.labels.length = s.count) (hn : 0 < s.length) :
    ∃ r, invert mem memP s = .ok r ∧ r.count = s.count ∧ r.length = s.length ∧ r.rate = s.rate ∧
      r.offset = -s.offset ∧ r.labels = s.labels ∧
      (∀ c, c < s.count → Invertible s.length (s.channels.get c) →
        ∃ y : Nat → ℝ, (∀ n, n < s.length → r.channels.get c n = some (y n)) ∧
          ∀ k : Nat, k < s.length → dft s.length (s.channels.get c) k * dft s.length y k = 1) ∧
      (∀ c, c < s.count → ¬ Invertible s.length (s.channels.get c) →
        ∀ n, n < s.length → r.channels.get c n = none) := by
  have hcols : s.channels.cols = s.length := rfl
  have hrows : s.channels.rows = s.count := rfl
  unfold invert
  dsimp only
  by_cases he : s.length % 2 = 0
  · rw [if_pos he]
    have hM : s.length = 2 * (s.length / 2) := by omega
    have hf : fftLength s.length = s.length := if_pos he
    have hb : ∀ c k, ∑ j ∈ range s.length, (s.channels.get c j : ℂ) *
        Complex.exp (-2 * Real.pi * Complex.I * (k : Nat) * j / fftLength s.length) =
          dft s.length (s.channels.get c) k := by
      intro c k
      rw [hf, bin_eq s.length s.length (by omega) le_rfl]
      exact dft_congr (fun n hn => if_pos hn) k
    obtain ⟨S, B, h1, h2, h3, h4, h5⟩ := reciprocal_ok s.channels (s.length / 2) (by omega) (by omega)
    obtain ⟨D, d1, d2, d3, d4⟩ := Fourier.assign_full (A := alloc mem s.count s.length) (B := B) h3 (h4.trans hM.symm)
    simp only [h1, h2, d1, bind, Except.bind]
    refine ⟨_, rfl, d2, d3, rfl, rfl, Signal.sanitize_self (hl.trans d2.symm), ?_, ?_⟩
    · intro c hc hi
      obtain ⟨y, y1, y2⟩ := (h5 c).1 (fun k hk h0 => hi k (by rw [hf]; exact hk) (by rw [hb, hM]; exact h0))
      refine ⟨y, fun n hn => (d4 c n hc hn).trans (y1 n), ?_⟩
      intro k hk
      have hne : dft s.length (s.channels.get c) k ≠ 0 := by
        by_cases hkM : k ≤ s.length / 2
        · rw [← hb]; exact hi k (by rw [hf]; exact hkM)
        · have h0 := hi (s.length - k) (by rw [hf]; omega)
          rw [hb, show ((s.length - k : Nat) : ℤ) = -(k : ℤ) + (s.length : Nat) by omega, dft_period (by omega),
            ← conj_dft] at h0
          intro hz
          exact h0 (by rw [hz, map_zero])
      rw [← hM] at y2
      rw [y2 k hk, mul_one_div_cancel hne]
    · intro c hc hi n hn
      refine (d4 c n hc hn).trans ((h5 c).2 ?_ n)
      unfold Invertible at hi
      push Not at hi
      obtain ⟨k, hk, h0⟩ := hi
      rw [hb] at h0
      rw [hf] at hk
      exact ⟨k, hk, by rw [← hM]; exact h0⟩
  · rw [if_neg he]
    have hf : fftLength s.length = 2 * s.length := if_neg he
    obtain ⟨P, p1, p2, p3, p4, p5⟩ := Mat.assign_cols (A := alloc memP s.count (2 * s.length)) (S := s.channels)
      (c := .range 0 s.length) 0 s.length (by simp [PySlice.lo, PySlice.range, alloc]) (by simp [PySlice.hi, PySlice.range, alloc]; omega)
      rfl (by omega)
    obtain ⟨Q, q1, q2, q3, q4, q5⟩ := Mat.assign_cols_scalar (A := P) (c := .drop s.length) (0 : ℝ) s.length (2 * s.length)
      (by rw [p3]; simp [PySlice.lo, PySlice.drop, alloc]; omega) (by rw [p3]; simp [PySlice.hi, PySlice.drop, alloc])
    have hQr : Q.rows = s.count := q2.trans p2
    have hQc : Q.cols = 2 * s.length := q3.trans p3
    have hQ : ∀ c n, c < s.count → n < 2 * s.length → Q.get c n = if n < s.length then s.channels.get c n else 0 := by
      intro c n hc hn
      by_cases h : n < s.length
      · rw [if_pos h, q5 c n (by omega), p4 c n hc (Nat.zero_le _) h, Nat.sub_zero]
      · rw [if_neg h, q4 c n (by rw [p2]; exact hc) (by omega) hn]
    have hb : ∀ c k, c < s.count → ∑ j ∈ range s.length, (s.channels.get c j : ℂ) *
        Complex.exp (-2 * Real.pi * Complex.I * (k : Nat) * j / fftLength s.length) =
          dft (2 * s.length) (Q.get c) k := by
      intro c k hc
      rw [hf, bin_eq s.length (2 * s.length) (by omega) (by omega)]
      exact dft_congr (fun n hn => (hQ c n hc hn).symm) k
    obtain ⟨S, B, h1, h2, h3, h4, h5⟩ := reciprocal_ok Q s.length hn hQc
    obtain ⟨D, d1, d2, d3, d4⟩ := Fourier.assign_full (A := alloc mem s.count s.length)
      (B := B.slice .all (.range 0 s.length)) (by show PySlice.all.count B.rows = s.count; rw [h3, hQr]; simp [PySlice.count, PySlice.lo, PySlice.hi, PySlice.all])
      (by show (PySlice.range 0 s.length).count B.cols = s.length; rw [h4]; simp [PySlice.count, PySlice.lo, PySlice.hi, PySlice.range]; omega)
    have hD : ∀ c n, c < s.count → n < s.length → D.get c n = B.get c n := by
      intro c n hc hn
      rw [d4 c n hc hn]
      show B.get (0 + c) (_ + n) = _
      rw [Nat.zero_add]
      congr 1
      simp [PySlice.lo, PySlice.range]
    have hB2r : (B.slice .all (.drop s.length)).rows = s.count := by
      show PySlice.all.count B.rows = s.count
      rw [h3, hQr]; simp [PySlice.count, PySlice.lo, PySlice.hi, PySlice.all]
    have hB2c : (B.slice .all (.drop s.length)).cols = s.length := by
      show (PySlice.drop s.length).count B.cols = s.length
      rw [h4]; simp [PySlice.count, PySlice.lo, PySlice.hi, PySlice.drop]; omega
    have hB2 : ∀ c n, (B.slice .all (.drop s.length)).get c n = B.get c (s.length + n) := by
      intro c n
      show B.get (0 + c) (_ + n) = _
      rw [Nat.zero_add, h4]
      congr 2
      simp [PySlice.lo, PySlice.drop]
      omega
    have d2' : D.rows = s.count := d2
    have d3' : D.cols = s.length := d3
    obtain ⟨A', a1, a2, a3, a4⟩ := Mat.broadcastTo_self (A := D) (r := D.rows - 0) (c := D.cols - 0) rfl rfl
    obtain ⟨B', b1, b2, b3, b4⟩ := Mat.broadcastTo_self (A := B.slice .all (.drop s.length)) (r := D.rows - 0)
      (c := D.cols - 0) (by rw [hB2r, d2']; rfl) (by rw [hB2c, d3']; rfl)
    obtain ⟨E, e1, e2, e3, e4, _⟩ := Mat.ufunc2_of_broadcast (f := add) (A := D) (B := B.slice .all (.drop s.length))
      (out := D) (r := .all) (c := .all) 0 D.rows 0 D.cols rfl rfl rfl rfl a1 b1
    have hE : ∀ c n, c < s.count → n < s.length → E.get c n = add (B.get c n) (B.get c (s.length + n)) := by
      intro c n hc hn
      rw [e4 c n (Nat.zero_le _) (by omega) (Nat.zero_le _) (by omega), a4 _ _ (by omega) (by omega),
        b4 _ _ (by omega) (by omega), hB2, Nat.sub_zero, Nat.sub_zero, hD c n hc hn]
    simp only [p1, q1, h1, h2, d1, e1, bind, Except.bind]
    refine ⟨_, rfl, e2.trans d2, e3.trans d3, rfl, rfl, Signal.sanitize_self (hl.trans (e2.trans d2).symm), ?_, ?_⟩
    · intro c hc hi
      have hi' : ∀ k : Nat, k ≤ s.length → dft (2 * s.length) (Q.get c) k ≠ 0 := by
        intro k hk
        rw [← hb c k hc]
        exact hi k (by rw [hf]; omega)
      obtain ⟨y, y1, y2⟩ := (h5 c).1 hi'
      refine ⟨fun n => y n + y (s.length + n), ?_, ?_⟩
      · intro n hn
        refine (hE c n hc hn).trans ?_
        rw [y1, y1]
        rfl
      · intro k hk
        have hx : dft s.length (s.channels.get c) k = dft (2 * s.length) (Q.get c) ((2 * k : Nat) : ℤ) := by
          have := dft_fold (by omega : s.length ≠ 0) (Q.get c) k
          rw [show (((2 * k : Nat) : ℤ)) = 2 * (k : ℤ) by push_cast; rfl, ← this]
          refine dft_congr (fun n hn => ?_) k
          rw [hQ c n hc (by omega), hQ c (s.length + n) hc (by omega), if_pos hn, if_neg (by omega), add_zero]
        have hne : dft (2 * s.length) (Q.get c) ((2 * k : Nat) : ℤ) ≠ 0 := by
          by_cases hkM : 2 * k ≤ s.length
          · exact hi' _ hkM
          · have h0 := hi' (2 * s.length - 2 * k) (by omega)
            rw [show ((2 * s.length - 2 * k : Nat) : ℤ) = -((2 * k : Nat) : ℤ) + (2 * s.length : Nat) by omega,
              dft_period (by omega), ← conj_dft] at h0
            intro hz
            exact h0 (by rw [hz, map_zero])
        rw [dft_fold (by omega) y k, show 2 * (k : ℤ) = ((2 * k : Nat) : ℤ) by push_cast; rfl, y2 _ (by omega), hx,
          mul_one_div_cancel hne]
    · intro c hc hi n hn
      have hnone : ∀ m, B.get c m = none := by
        refine (h5 c).2 ?_
        unfold Invertible at hi
        push Not at hi
        obtain ⟨k, hk, h0⟩ := hi
        rw [hb c k hc] at h0
        rw [hf] at hk
        exact ⟨k, by omega, h0⟩
      refine (hE c n hc hn).trans ?_
      rw [hnone]
      rfl

/-- `q` is the signal `r` without values, that are not finite. -/
structure Finite {R : Type} (r : Signal (Option ℝ) R) (q : Signal ℝ R) : Prop where
  count : q.count = r.count
  length : q.length = r.length
  rate : q.rate = r.rate
  offset : q.offset = r.offset
  labels : q.labels = r.labels
  samples : ∀ c i, c < r.count → i < r.length → r.channels.get c i = some (q.channels.get c i)

/-- what is common to a signal and its inverse -/
def SameShape {R β : Type} (s : Signal ℝ R) (r : Signal β R) : Prop :=
  r.count = s.count ∧ r.length = s.length ∧ r.rate = s.rate ∧ r.offset = -s.offset ∧ r.labels = s.labels

/-! ### C92 -/

/-- C92: the inverse has the shape, the sampling rate and the labels of the signal and the opposite offset.  For each
channel, whose Fourier transform has no zero, the cyclic convolution of the channel with its inverse is the unit
impulse.  The length may be even or odd. -/
theorem C92_cyclic {R : Type} (mem : Nat → Nat → Option ℝ) (memP : Nat → Nat → ℝ) (s : Signal ℝ R)
    (hl : s.labels.length = s.count) (hn : 0 < s.length) :
    ∃ r, invert mem memP s = .ok r ∧ SameShape s r ∧
      ∀ c, c < s.count → Invertible s.length (s.channels.get c) →
        ∃ y : Nat → ℝ, (∀ n, n < s.length → r.channels.get c n = some (y n)) ∧
          ∀ n, n < s.length → cyclic s.length (s.channels.get c) y n = impulse n := by
  obtain ⟨r, h1, h2, h3, h4, h5, h6, h7, _⟩ := invert_ok mem memP s hl hn
  refine ⟨r, h1, ⟨h2, h3, h4, h5, h6⟩, ?_⟩
  intro c hc hi
  obtain ⟨y, y1, y2⟩ := h7 c hc hi
  exact ⟨y, y1, cyclic_of_dft (by omega) _ y y2⟩

/-- C92: channels, whose Fourier transform has a zero, have no inverse: all samples are `nan`; the other channels are
not affected (`C92_cyclic`). -/
theorem C92_singular {R : Type} (mem : Nat → Nat → Option ℝ) (memP : Nat → Nat → ℝ) (s : Signal ℝ R)
    (hl : s.labels.length = s.count) (hn : 0 < s.length) :
    ∃ r, invert mem memP s = .ok r ∧ ∀ c, c < s.count → ¬ Invertible s.length (s.channels.get c) →
      ∀ n, n < s.length → r.channels.get c n = none := by
  obtain ⟨r, h1, _, _, _, _, _, _, h8⟩ := invert_ok mem memP s hl hn
  exact ⟨r, h1, h8⟩

/-- C92: empty signals raise a `ValueError`. -/
theorem C92_empty {R : Type} (mem : Nat → Nat → Option ℝ) (memP : Nat → Nat → ℝ) (s : Signal ℝ R)
    (hn : s.length = 0) : invert mem memP s = .error .valueError := by
  unfold invert
  dsimp only
  rw [if_pos (by omega), Mat.rfft, if_pos (show s.channels.cols = 0 from hn)]
  rfl

/-- the inverse as a signal of real numbers -/
theorem invert_finite {R : Type} (mem : Nat → Nat → Option ℝ) (memP : Nat → Nat → ℝ) (s : Signal ℝ R)
    (hl : s.labels.length = s.count) (hn : 0 < s.length)
    (hi : ∀ c, c < s.count → Invertible s.length (s.channels.get c)) :
    ∃ r q, invert mem memP s = .ok r ∧ Finite r q ∧ SameShape s q ∧
      ∀ c k : Nat, c < s.count → k < s.length → dft s.length (s.channels.get c) k * dft s.length (q.channels.get c) k = 1 := by
  obtain ⟨r, h1, h2, h3, h4, h5, h6, h7, _⟩ := invert_ok mem memP s hl hn
  refine ⟨r, ⟨⟨r.channels.rows, r.channels.cols, fun c i => (r.channels.get c i).getD 0⟩, r.rate, r.offset, r.labels⟩, h1,
    ⟨rfl, rfl, rfl, rfl, rfl, ?_⟩, ⟨h2, h3, h4, h5, h6⟩, ?_⟩
  · intro c i hc hi'
    obtain ⟨y, y1, _⟩ := h7 c (by omega) (hi c (by omega))
    show _ = some ((r.channels.get c i).getD 0)
    rw [y1 i (by omega)]
    rfl
  · intro c k hc hk
    obtain ⟨y, y1, y2⟩ := h7 c hc (hi c hc)
    rw [← y2 k hk]
    congr 1
    refine dft_congr (fun n hn => ?_) k
    show (r.channels.get c n).getD 0 = _
    rw [y1 n hn]
    rfl

theorem cyclic_of_circular {N : Nat} (hN : 0 < N) (he : N % 2 = 0) (x y : Nat → ℝ) (n : Nat) :
    circularConv N N x y n = cyclic N x y n := by
  rw [circularConv_eq hN]
  unfold cyclic
  rw [Nat.max_self, show evenLength N = N from if_pos he]
  refine Finset.sum_congr rfl fun j hj => ?_
  rw [mem_range] at hj
  have h1 : 0 ≤ ((n : ℤ) - j) % (N : ℤ) := Int.emod_nonneg _ (by omega)
  have h2 : ((n : ℤ) - j) % (N : ℤ) < N := Int.emod_lt_of_pos _ (by omega)
  rw [one_mul]
  unfold ext
  rw [if_pos (by omega), if_pos (by omega)]
  congr 2
  · omega

/-- C92: for even lengths, `signal.convolve(~signal, SPECTRUM)` is a unit impulse at the time zero, whatever the offset
of the signal is.  `_partial`: false for odd lengths (`C92_odd_violated`) and for the other modes, including the
default one (`C92_default_mode_violated`). -/
theorem C92_convolve_partial {R : Type} (mem : Nat → Nat → Option ℝ) (memP memC : Nat → Nat → ℝ) (label : String)
    (s : Signal ℝ R) (hl : s.labels.length = s.count) (hn : 0 < s.length) (he : s.length % 2 = 0)
    (hi : ∀ c, c < s.count → Invertible s.length (s.channels.get c)) :
    ∃ r q p, invert mem memP s = .ok r ∧ Finite r q ∧ Signal.convolve (spectrumConvolution memC) label s q = .ok p ∧
      p.count = s.count ∧ p.length = s.length ∧ p.rate = s.rate ∧ p.offset = 0 ∧
      ∀ c i, c < s.count → i < s.length → p.channels.get c i = impulse i := by
  obtain ⟨r, q, h1, h2, ⟨h3, h4, h5, h6, h7⟩, h8⟩ := invert_finite mem memP s hl hn hi
  obtain ⟨p, p1, p2, p3, p4, p5, p6⟩ := Signal.convolve_computes (spectrumConvolution_computes memC) label s q hn
    (by omega)
  have hcount : Signal.convCount s q = s.count := by
    unfold Signal.convCount
    rw [h3]
    split
    · rfl
    · exact Nat.min_self _
  refine ⟨r, q, p, h1, h2, p1, p2.trans hcount, ?_, p5.1, ?_, ?_⟩
  · rw [p3, h4, Nat.max_self]
  · rw [p4]
    show s.offset + q.offset = 0
    omega
  · intro c i hc hi'
    rw [p6 c i (by omega) (by rw [h4, Nat.max_self]; exact hi'), h4, cyclic_of_circular hn he]
    have hs : s.chan c = c := by unfold Signal.chan; split <;> omega
    have hq : q.chan c = c := by unfold Signal.chan; split <;> omega
    rw [hs, hq]
    exact cyclic_of_dft (by omega) _ _ (fun k hk => h8 c k hc hk) i hi'

/-- C92: for even lengths, the inverse of the inverse is the signal. -/
theorem C92_involution {R : Type} (mem mem' : Nat → Nat → Option ℝ) (memP memP' : Nat → Nat → ℝ) (s : Signal ℝ R)
    (hl : s.labels.length = s.count) (hn : 0 < s.length) (he : s.length % 2 = 0)
    (hi : ∀ c, c < s.count → Invertible s.length (s.channels.get c)) :
    ∃ r q r', invert mem memP s = .ok r ∧ Finite r q ∧ invert mem' memP' q = .ok r' ∧ Finite r' s := by
  obtain ⟨r, q, h1, h2, ⟨h3, h4, h5, h6, h7⟩, h8⟩ := invert_finite mem memP s hl hn hi
  have hqi : ∀ c, c < q.count → Invertible q.length (q.channels.get c) := by
    intro c hc k hk
    have hf : fftLength s.length = s.length := if_pos he
    rw [h4, hf] at hk
    rw [h4, hf, bin_eq s.length s.length (by omega) le_rfl, dft_congr (fun n hn => if_pos hn)]
    exact right_ne_zero_of_mul_eq_one (h8 c k (by omega) (by omega))
  obtain ⟨r', q', g1, g2, ⟨g3, g4, g5, g6, g7⟩, g8⟩ := invert_finite mem' memP' q (by rw [h7, h3]; exact hl) (by omega) hqi
  refine ⟨r, q, r', h1, h2, g1, ?_⟩
  have c1 := g2.count
  have c2 := g2.length
  refine ⟨by omega, by omega, ?_, ?_, ?_, ?_⟩
  · rw [← g2.rate, g5, h5]
  · rw [← g2.offset, g6, h6, neg_neg]
  · rw [← g2.labels, g7, h7]
  · intro c i hc hi'
    rw [g2.samples c i hc hi']
    congr 1
    refine dft_injective (N := s.length) (by omega) _ _ (fun k hk => ?_) i (by omega)
    have e1 := h8 c k (by omega) hk
    have e2 := g8 c k (by omega) (by omega)
    rw [h4] at e2
    have hne := right_ne_zero_of_mul_eq_one e1
    calc dft s.length (q'.channels.get c) k
        = (dft s.length (s.channels.get c) k * dft s.length (q.channels.get c) k) * dft s.length (q'.channels.get c) k := by
          rw [e1, one_mul]
      _ = dft s.length (s.channels.get c) k := by rw [mul_assoc, e2, mul_one]

theorem norm_phase (k j L : Nat) : ‖Complex.exp (-2 * Real.pi * Complex.I * k * j / L)‖ = 1 := by
  rw [show -2 * (Real.pi : ℂ) * Complex.I * k * j / L = ((-2 * Real.pi * k * j / L : ℝ) : ℂ) * Complex.I by
    push_cast; ring]
  exact Complex.norm_exp_ofReal_mul_I _

/-- a signal, whose first sample is larger than the sum of the magnitudes of the others, can be inverted -/
theorem invertible_two_one (N : Nat) (hN : 2 ≤ N) (x : Nat → ℝ) (h0 : x 0 = 2) (h1 : x 1 = 1)
    (h2 : ∀ n, 2 ≤ n → x n = 0) : Invertible N x := by
  intro k _ hz
  rw [← Finset.sum_subset (Finset.range_mono hN) (fun j _ hj => by
    rw [mem_range] at hj
    rw [h2 j (by omega)]
    simp)] at hz
  rw [Finset.sum_range_succ, Finset.sum_range_one, h0, h1] at hz
  have hn : ‖Complex.exp (-2 * Real.pi * Complex.I * k * (1 : Nat) / fftLength N)‖ = 1 := norm_phase k 1 _
  have h0' : Complex.exp (-2 * Real.pi * Complex.I * k * (0 : Nat) / fftLength N) = 1 := by simp
  rw [h0'] at hz
  have e : Complex.exp (-2 * Real.pi * Complex.I * k * (1 : Nat) / fftLength N) = -2 := by
    push_cast at hz ⊢
    linear_combination hz
  rw [e] at hn
  norm_num at hn

/-- the samples `2, 1, 0, 0, …` -/
def demo (N : Nat) (offset : Int) : Signal ℝ Nat :=
  ⟨⟨1, N, fun _ n => if n = 0 then 2 else if n = 1 then 1 else 0⟩, 48000, offset, [""]⟩

theorem demo_invertible (N : Nat) (hN : 2 ≤ N) (offset : Int) :
    ∀ c, c < (demo N offset).count → Invertible (demo N offset).length ((demo N offset).channels.get c) :=
  fun c _ => invertible_two_one N hN _ rfl rfl (fun n hn => by
    show (if n = 0 then (2 : ℝ) else if n = 1 then 1 else 0) = 0
    rw [if_neg (by omega), if_neg (by omega)])

/-- the hypotheses of the theorems -/
example : (demo 4 3).labels.length = (demo 4 3).count ∧ 0 < (demo 4 3).length ∧ (demo 4 3).length % 2 = 0 ∧
    ∀ c, c < (demo 4 3).count → Invertible (demo 4 3).length ((demo 4 3).channels.get c) :=
  ⟨rfl, by decide, by decide, demo_invertible 4 (by decide) 3⟩

/-- C92 is violated for odd lengths: the convolution of the signal `2, 1, 0` with its inverse `4/9, -2/9, 1/9` in the
mode SPECTRUM is `8/9, 0, 0`, because it is computed with an even period. -/
theorem C92_odd_violated (mem : Nat → Nat → Option ℝ) (memP memC : Nat → Nat → ℝ) :
    ∃ (s q p : Signal ℝ Nat) (r : Signal (Option ℝ) Nat), invert mem memP s = .ok r ∧ Finite r q ∧
      Signal.convolve (spectrumConvolution memC) "Convolution" s q = .ok p ∧ p.channels.get 0 0 = 8 / 9 := by
  obtain ⟨r, q, h1, h2, ⟨h3, h4, h5, h6, h7⟩, h8⟩ := invert_finite mem memP (demo 3 0) rfl (by decide)
    (demo_invertible 3 (by decide) 0)
  have h3' : q.count = 1 := h3
  have h4' : q.length = 3 := h4
  obtain ⟨p, p1, p2, p3, p4, p5, p6⟩ := Signal.convolve_computes (spectrumConvolution_computes memC)
    "Convolution" (demo 3 0) q (by decide) (by omega)
  refine ⟨demo 3 0, q, p, r, h1, h2, p1, ?_⟩
  have hc := cyclic_of_dft (N := 3) (by decide) _ _ (fun k hk => h8 0 k (by decide) hk)
  have e0 := hc 0 (by decide)
  have e1 := hc 1 (by decide)
  have e2 := hc 2 (by decide)
  simp only [cyclic, Finset.sum_range_succ, Finset.sum_range_zero, impulse, demo] at e0 e1 e2
  norm_num [show Int.toNat 2 = 2 from rfl] at e0 e1 e2
  have hq : q.chan 0 = 0 := by unfold Signal.chan; split <;> rfl
  have hs : (demo 3 0).chan 0 = 0 := rfl
  rw [p6 0 0 (by unfold Signal.convCount; rw [if_pos h3']; decide) (by rw [h4']; decide), hq, hs, h4',
    show (demo 3 0).length = 3 from rfl, circularConv_eq (by decide)]
  simp only [show evenLength (max 3 3) = 4 from rfl, Finset.sum_range_succ, Finset.sum_range_zero, ext, demo]
  norm_num [show Int.toNat 2 = 2 from rfl]
  linarith

/-- C92 is violated for the default mode of `convolve`, which is the same as `FULL` (C19): the convolution of the
signal `2, 1` with its inverse `2/3, -1/3` is `4/3, 0, -1/3`. -/
theorem C92_default_mode_violated (mem : Nat → Nat → Option ℝ) (memP memC : Nat → Nat → ℝ) :
    ∃ (s q p : Signal ℝ Nat) (r : Signal (Option ℝ) Nat), invert mem memP s = .ok r ∧ Finite r q ∧
      Signal.convolve (spectrumPaddedConvolution memC) "Convolution" s q = .ok p ∧ p.channels.get 0 0 = 4 / 3 ∧
      p.channels.get 0 2 = -1 / 3 := by
  obtain ⟨r, q, h1, h2, ⟨h3, h4, h5, h6, h7⟩, h8⟩ := invert_finite mem memP (demo 2 0) rfl (by decide)
    (demo_invertible 2 (by decide) 0)
  have h3' : q.count = 1 := h3
  have h4' : q.length = 2 := h4
  obtain ⟨p, p1, p2, p3, p4, p5, p6⟩ := Signal.convolve_computes (spectrumPaddedConvolution_computes memC)
    "Convolution" (demo 2 0) q (by decide) (by omega)
  refine ⟨demo 2 0, q, p, r, h1, h2, p1, ?_⟩
  have hc := cyclic_of_dft (N := 2) (by decide) _ _ (fun k hk => h8 0 k (by decide) hk)
  have e0 := hc 0 (by decide)
  have e1 := hc 1 (by decide)
  simp only [cyclic, Finset.sum_range_succ, Finset.sum_range_zero, impulse, demo] at e0 e1
  norm_num at e0 e1
  have hq : q.chan 0 = 0 := by unfold Signal.chan; split <;> rfl
  have hs : (demo 2 0).chan 0 = 0 := rfl
  have hk : ∀ i, i < 3 → p.channels.get 0 i = npFull 2 2 ((demo 2 0).channels.get 0) (q.channels.get 0) i := by
    intro i hi
    rw [p6 0 i (by unfold Signal.convCount; rw [if_pos h3']; decide)
      (by rw [h4']; exact hi), hq, hs, h4']
    rfl
  rw [hk 0 (by decide), hk 2 (by decide)]
  simp only [npFull, Finset.sum_range_succ, Finset.sum_range_zero, demo]
  norm_num
  constructor <;> linarith

/-- C92 is violated for odd lengths in another way: the signal `1, 1, 0` has the cyclic inverse `1/2, -1/2, 1/2`, but
the padded signal, from which the inverse is computed, has a zero at half of the sampling rate, so all samples of the
result are `nan`. -/
theorem C92_padding_violated (mem : Nat → Nat → Option ℝ) (memP : Nat → Nat → ℝ) :
    ∃ (s : Signal ℝ Nat) (y : Nat → ℝ) (r : Signal (Option ℝ) Nat), s.count = 1 ∧ s.length = 3 ∧
      (∀ n, n < 3 → cyclic 3 (s.channels.get 0) y n = impulse n) ∧ invert mem memP s = .ok r ∧
      ∀ n, n < 3 → r.channels.get 0 n = none := by
  obtain ⟨r, h1, h2⟩ := C92_singular mem memP
    ⟨⟨1, 3, fun _ n => if n = 2 then 0 else 1⟩, (48000 : Nat), 0, [""]⟩ rfl (by decide)
  refine ⟨_, fun n => if n = 1 then -1 / 2 else 1 / 2, r, rfl, rfl, ?_, h1, h2 0 (by decide) ?_⟩
  · intro n hn
    interval_cases n <;> norm_num [cyclic, Finset.sum_range_succ, impulse, show Int.toNat 2 = 2 from rfl]
  · intro h
    refine h 3 (by decide) ?_
    show ∑ j ∈ range 3, _ = _
    have e : Complex.exp (-2 * Real.pi * Complex.I * (3 : Nat) * (1 : Nat) / (6 : Nat)) = -1 := by
      rw [show -2 * (Real.pi : ℂ) * Complex.I * (3 : Nat) * (1 : Nat) / (6 : Nat) = -(Real.pi * Complex.I) by
        push_cast; ring, Complex.exp_neg, Complex.exp_pi_mul_I]
      norm_num
    rw [show fftLength (Signal.length (⟨⟨1, 3, fun _ n => if n = 2 then 0 else 1⟩, (48000 : Nat), 0, [""]⟩ : Signal ℝ Nat)) = 6
      from rfl, Finset.sum_range_succ, Finset.sum_range_succ, Finset.sum_range_one, e]
    simp

end Inverse
end Verif
