import Verif.MlsPeriodProps
import Verif.ConvolutionSpectrumProps

/-
C152: The impulse response of a system is the correlation of a maximum length sequence with the response of the system to it
(`sumpf.MaximumLengthSequence`, `sumpf.Signal.convolve`, `sumpf.Signal.correlate`).
-/

namespace Verif
namespace Mls

open Finset Signal

/-- Two sequences with the same seed, but different lengths, are parts of the same periodic sequence. -/
theorem sequence_two {α R : Type} [Ring α] (m1 m2 : Nat → Nat → α) (choice : Nat → Bool) (draw : Nat) (rate : R)
    (bits length bits' length' : Option Nat) (b l l' : Nat) (hp : parameters bits length = (b, l))
    (hp' : parameters bits' length' = (b, l')) (h2 : 2 ≤ b) (h32 : b ≤ 32) :
    ∃ (x : Nat → Bool) (s t : Signal α R), sequence m1 choice draw bits rate length = .ok (s, b) ∧
      sequence m2 choice draw bits' rate length' = .ok (t, b) ∧
      (s.rate = rate ∧ s.offset = 0 ∧ s.channels.rows = 1 ∧ s.channels.cols = l) ∧
      (t.rate = rate ∧ t.offset = 0 ∧ t.channels.rows = 1 ∧ t.channels.cols = l') ∧
      Recurrent b (polynomial b) x ∧ (∃ i, x i = true) ∧
      (∀ i, i < l → s.channels.get 0 i = if x i then 1 else -1) ∧
      ∀ i, i < l' → t.channels.get 0 i = if x i then 1 else -1 := by
  obtain ⟨state, s1, s, n1, n2, n3, n4, n5, n6, n7⟩ := C53_samples_partial m1 shiftRegister choice draw bits length rate
    b l hp h2 h32
  obtain ⟨state', s1', t, k1, k2, k3, k4, k5, k6, k7⟩ := C53_samples_partial m2 shiftRegister choice draw bits' length' rate
    b l' hp' h2 h32
  obtain rfl : state = state' := by
    rw [s1] at s1'
    exact Except.ok.inj s1'
  obtain ⟨state', t1, t2, t3, _⟩ := C53_seed b h2 choice draw
  obtain rfl : state = state' := by
    rw [s1] at t1
    exact Except.ok.inj t1
  refine ⟨shiftRegister b state, s, t, n1, k1, ⟨n2, n3, n5, n6⟩, ⟨k2, k3, k5, k6⟩,
    shiftRegister_recurrent b state (by omega) t2, ?_, n7, k7⟩
  obtain ⟨i, i1, i2⟩ := List.mem_iff_getElem.mp t3
  refine ⟨i, ?_⟩
  rw [shiftRegister_start b state t2 i (by omega), List.getD_eq_getElem?_getD, List.getElem?_eq_getElem i1, i2]
  rfl

/-- the correlation of one period with the delayed sequence -/
theorem correlation_real {b : Nat} (h2 : 2 ≤ b) (h32 : b ≤ 32) {x : Nat → Bool} (hx : Recurrent b (polynomial b) x)
    (h0 : ∃ i, x i = true) (k : Nat) :
    ∑ i ∈ range (2 ^ b - 1), (if x i then (1 : ℝ) else -1) * (if x (i + k) then (1 : ℝ) else -1) =
      if (2 ^ b - 1) ∣ k then ((2 ^ b - 1 : Nat) : ℝ) else -1 := by
  have h := congrArg (fun z : Int => (z : ℝ)) (autocorrelation h2 h32 hx h0 k)
  rw [Int.cast_sum] at h
  refine Eq.trans (sum_congr rfl fun i _ => ?_) (h.trans ?_)
  · split <;> split <;> norm_num
  · split <;> norm_num

/-- the convolution, where the shorter signal is overlapped completely -/
theorem npFull_inside {la lb : Nat} (a f : Nat → ℝ) {i : Nat} (h1 : lb ≤ i + 1) (h3 : i < la) :
    npFull la lb a f i = ∑ j ∈ range lb, a (i - j) * f j := by
  unfold npFull
  rw [← sum_filter]
  refine sum_nbij' (fun u => i - u) (fun j => i - j) ?_ ?_ ?_ ?_ ?_
  · intro u hu
    simp only [mem_filter, mem_range] at hu ⊢
    omega
  · intro j hj
    simp only [mem_filter, mem_range] at hj ⊢
    omega
  · intro u hu
    simp only [mem_filter, mem_range] at hu
    show i - (i - u) = u
    omega
  · intro j hj
    simp only [mem_range] at hj
    show i - (i - j) = j
    omega
  · intro u hu
    simp only [mem_filter, mem_range] at hu
    show a u * f (i - u) = a (i - (i - u)) * f (i - u)
    rw [show i - (i - u) = u by omega]

theorem convCount_single {R : Type} {s h : Signal ℝ R} (hs : s.count = 1) : convCount s h = h.count := by
  unfold convCount
  split <;> omega

theorem chan_of_lt {R : Type} {s : Signal ℝ R} {c : Nat} (hc : c < s.count) : s.chan c = c := by
  unfold chan
  split <;> omega

/-- C152: A system with an impulse response, that is not longer than the period of the sequence, is excited with three periods of
a maximum length sequence. In the correlation of one period of the sequence with the response of the system, the impulse response
is found one period after its actual time, multiplied with `2^bits`. The only deviation is a constant offset, which is the
negative sum of the samples of the impulse response. Missing: the correlation with the mode `SPECTRUM`. -/
theorem C152_measurement_partial {R : Type} (m1 m2 m3 m4 : Nat → Nat → ℝ) (choice : Nat → Bool) (draw : Nat) (rate : R) (b : Nat)
    (h2 : 2 ≤ b) (h32 : b ≤ 32) (l1 l2 : String) (h : Signal ℝ R) (hh : 0 < h.length) (hN : h.length ≤ 2 ^ b - 1) :
    ∃ s x y r, sequence m1 choice draw (some b) rate none = .ok (s, b) ∧
      sequence m2 choice draw (some b) rate (some (3 * (2 ^ b - 1))) = .ok (x, b) ∧
      convolve (fullConvolution m3) l1 x h = .ok y ∧ convolve (validCorrelation m4) l2 s y = .ok r ∧
      r.count = h.count ∧ r.rate = rate ∧
      ∀ c k : Nat, c < h.count → k < 2 ^ b - 1 → r.at_ c (h.offset + (2 ^ b - 1 : Nat) + k) =
        some (2 ^ b * (if k < h.length then h.channels.get c k else 0) - ∑ j ∈ range h.length, h.channels.get c j) := by
  obtain ⟨f, s, x, hs, hx, ⟨s1, s2, s3, s4⟩, ⟨x1, x2, x3, x4⟩, hf, hf0, fs, fx⟩ := sequence_two m1 m2 choice draw rate (some b)
    none (some b) (some (3 * (2 ^ b - 1))) b (2 ^ b - 1) (3 * (2 ^ b - 1)) rfl rfl h2 h32
  have hNpos := period_pos h2
  obtain ⟨N, hNe⟩ : ∃ N, N = 2 ^ b - 1 := ⟨_, rfl⟩
  have hNb : (2 : ℝ) ^ b = N + 1 := by
    have : 2 ^ b = N + 1 := by omega
    exact_mod_cast this
  have hcorr := correlation_real h2 h32 hf hf0
  rw [← hNe] at hN hx s4 x4 fs fx hNpos hcorr ⊢
  have sl : s.length = N := s4
  have xl : x.length = 3 * N := x4
  have sc : s.count = 1 := s3
  have xc : x.count = 1 := x3
  obtain ⟨y, hy, y1, y2, ⟨y3, y4, y5⟩, -⟩ := C17_full m3 l1 x h (by omega) hh
  rw [convCount_single xc] at y3 y5
  obtain ⟨r, hr, r1, ⟨r3, r4, r5⟩⟩ := C20_valid m4 l2 s y (by omega) (by omega)
  rw [convCount_single sc, y3] at r3 r5
  refine ⟨s, x, y, r, hs, hx, hy, hr, r3, r4.trans s1, fun c k hc hk => ?_⟩
  have hcov : r.Covers (h.offset + (N : Nat) + k) := by
    rw [r1]
    left
    intro u hu
    unfold Covers at hu ⊢
    omega
  rw [r5 c _ hc hcov]
  congr 1
  have yval : ∀ i, h.length ≤ i + 1 → i < 3 * N → y.channels.get c i =
      ∑ j ∈ range h.length, x.channels.get 0 (i - j) * h.channels.get c j := by
    intro i hi1 hi2
    have hv := y5 c (y.offset + i) hc ⟨by omega, by omega⟩
    rw [at_eq_some] at hv
    have hv := hv.2.2.2
    rw [show (y.offset + (i : Int) - y.offset).toNat = i by omega] at hv
    rw [hv, convAt_eq x h (by rw [convCount_single xc]; exact hc), if_pos (by omega),
      show (y.offset + (i : Int) - x.offset - h.offset).toNat = i by omega, chan_of_lt hc,
      show x.chan c = 0 by unfold chan; rw [if_pos xc], npFull_inside _ _ hi1 (by omega)]
  rw [corrAt_eq s y (by rw [convCount_single sc, y3]; exact hc)]
  unfold corrSum
  rw [show s.chan c = 0 by unfold chan; rw [if_pos sc], chan_of_lt (s := y) (by omega), sl]
  have hterm : ∀ l ∈ range N, s.channels.get 0 l * ext y.length 0 (y.channels.get c)
      ((l : Int) + (s.offset + (h.offset + (N : Nat) + k) - y.offset)) =
      ∑ j ∈ range h.length, h.channels.get c j *
        ((if f l then (1 : ℝ) else -1) * (if f (l + (N + k - j)) then (1 : ℝ) else -1)) := by
    intro l hl
    rw [mem_range] at hl
    unfold ext
    rw [if_pos (by omega), show ((l : Int) + (s.offset + (h.offset + (N : Nat) + k) - y.offset) - 0).toNat = l + N + k by omega,
      yval _ (by omega) (by omega), mul_sum]
    refine sum_congr rfl fun j hj => ?_
    rw [mem_range] at hj
    rw [fs l hl, fx _ (by omega), show l + N + k - j = l + (N + k - j) by omega]
    ring
  rw [sum_congr rfl hterm, sum_comm]
  have hinner : ∀ j ∈ range h.length, ∑ l ∈ range N, h.channels.get c j *
        ((if f l then (1 : ℝ) else -1) * (if f (l + (N + k - j)) then (1 : ℝ) else -1)) =
      (if j = k then ((N : ℝ) + 1) * h.channels.get c k else 0) - h.channels.get c j := by
    intro j hj
    rw [mem_range] at hj
    rw [← mul_sum, hcorr]
    by_cases hjk : j = k
    · subst hjk
      rw [if_pos ⟨1, by omega⟩, if_pos rfl]
      ring
    · rw [if_neg ?_, if_neg hjk]
      · ring
      · rintro ⟨d, hd⟩
        have hd1 : d ≠ 0 := by
          rintro rfl
          omega
        have hd2 : d < 2 := by
          by_contra hge
          have := Nat.mul_le_mul_left N (Nat.not_lt.mp hge)
          omega
        obtain rfl : d = 1 := by omega
        omega
  rw [sum_congr rfl hinner, sum_sub_distrib, hNb, sum_ite_eq' (range h.length) k]
  simp only [mem_range]
  split <;> simp

/-- C152, violated: The mode `SPECTRUM` computes a cyclic correlation, but its period is always even, while the period of a
maximum length sequence is odd. The autocorrelation of one period, that is computed with this mode, is therefore not -1 for a
delay of one sample, so this mode does not give the impulse response of a system, that is excited with a maximum length
sequence. -/
theorem C152_spectrum_violated {R : Type} (m1 m2 : Nat → Nat → ℝ) (choice : Nat → Bool) (draw : Nat) (rate : R) (b : Nat)
    (h2 : 2 ≤ b) (h32 : b ≤ 32) (label : String) :
    ∃ (s r : Signal ℝ R) (v : ℝ), sequence m1 choice draw (some b) rate none = .ok (s, b) ∧
      convolve (spectrumCorrelation m2) label s s = .ok r ∧ r.at_ 0 (-1) = some v ∧ v ≠ -1 := by
  obtain ⟨f, s, _, hs, -, ⟨s1, s2, s3, s4⟩, -, -, -, fs, -⟩ := sequence_two m1 m1 choice draw rate (some b) none (some b) none b
    (2 ^ b - 1) (2 ^ b - 1) rfl rfl h2 h32
  have h4 : 2 ^ 2 ≤ 2 ^ b := Nat.pow_le_pow_right (by decide) h2
  have heven : 2 ^ b % 2 = 0 := by
    obtain ⟨e, rfl⟩ : ∃ e, b = e + 1 := ⟨b - 1, by omega⟩
    rw [pow_succ]
    omega
  have sl : s.length = 2 ^ b - 1 := s4
  obtain ⟨N, hN⟩ : ∃ N, 2 ^ b = N + 2 := ⟨2 ^ b - 2, (Nat.sub_add_cancel (Nat.le_trans (by decide) h4)).symm⟩
  have sc : s.count = 1 := s3
  obtain ⟨r, P, hr, p1, p2, p3, r1, r2, ⟨r3, r4, r5⟩⟩ := C21_spectrum m2 label s s (by omega) (by omega)
  rw [Nat.max_self] at p2 p3 r2
  have hP : P = N + 2 := by omega
  have hc : 0 < convCount s s := by rw [convCount_single sc]; omega
  have hv := r5 0 (-1) hc ⟨by omega, by omega⟩
  refine ⟨s, r, _, hs, hr, hv, ?_⟩
  have hz : ∀ k : Int, k ≠ 0 → corrAt s s 0 (-1 + k * P) = 0 := by
    intro k hk
    rw [corrAt_eq s s hc]
    refine sum_eq_zero fun l hl => ?_
    rw [mem_range] at hl
    unfold ext
    rw [if_neg, mul_zero]
    intro ⟨e1, e2⟩
    have hk' : k ≤ -1 ∨ 1 ≤ k := by omega
    rcases hk' with hk' | hk'
    · have := Int.mul_le_mul_of_nonneg_right hk' (show (0 : Int) ≤ (P : Int) by omega)
      omega
    · have := Int.mul_le_mul_of_nonneg_right hk' (show (0 : Int) ≤ (P : Int) by omega)
      omega
  rw [finsum_eq_single _ 0 hz, zero_mul, corrAt_eq s s hc, add_zero]
  unfold corrSum
  rw [show s.chan 0 = 0 by unfold chan; rw [if_pos sc], sl, show 2 ^ b - 1 = N + 1 by omega, sum_range_succ']
  have hterm : ∀ l ∈ range N, s.channels.get 0 (l + 1) * ext (N + 1) 0 (s.channels.get 0)
      (((l + 1 : Nat) : Int) + (s.offset + -1 - s.offset)) =
      (((if f (l + 1) then (1 : Int) else -1) * (if f l then (1 : Int) else -1) : Int) : ℝ) := by
    intro l hl
    rw [mem_range] at hl
    unfold ext
    rw [if_pos (by omega), show (((l + 1 : Nat) : Int) + (s.offset + -1 - s.offset) - 0).toNat = l by omega,
      fs _ (by omega), fs l (by omega)]
    split <;> split <;> norm_num
  rw [sum_congr rfl hterm, show ext (N + 1) 0 (s.channels.get 0) (((0 : Nat) : Int) + (s.offset + -1 - s.offset)) = 0 by
    unfold ext
    rw [if_neg (by omega)], mul_zero, add_zero, ← Int.cast_sum]
  have hmod : ∀ M : Nat, (∑ l ∈ range M, (if f (l + 1) then (1 : Int) else -1) * (if f l then (1 : Int) else -1)) % 2 =
      (M : Int) % 2 := by
    intro M
    induction M with
    | zero => rfl
    | succ M ih =>
      rw [sum_range_succ]
      split <;> split <;> push_cast <;> omega
  intro hneg
  have hneg' : (∑ l ∈ range N, (if f (l + 1) then (1 : Int) else -1) * (if f l then (1 : Int) else -1)) = -1 := by
    exact_mod_cast hneg
  have := hmod N
  rw [hneg'] at this
  omega

/-- an impulse response with two channels and five samples, that can be measured with the sequence of three bits -/
example : let h : Signal ℝ ℚ := ⟨⟨2, 5, fun c i => (c : ℝ) + 1 / (i + 1)⟩, 48000, -3, ["a", "b"]⟩
    0 < h.length ∧ h.length ≤ 2 ^ 3 - 1 := by
  constructor <;> simp [Signal.length]

end Mls
end Verif
