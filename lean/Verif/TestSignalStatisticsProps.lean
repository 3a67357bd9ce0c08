import Verif.StatisticsProps
import Verif.WavesProps
import Verif.MlsPeriodProps

/-
Property C143: the statistical parameters of the test signals (`SineWave`, `SquareWave`, `ConstantSignal`,
`MaximumLengthSequence`), which are computed by the methods of the signals (`_signal.py:728-801`).
-/

namespace Verif
namespace Statistics

open Finset Waves

/-! ### Specification -/

/-- the results of the five methods for a signal with one channel; `none` is `nan` -/
structure Parameters {R : Type} (s : Signal ℝ R) (m v sd : ℝ) (sk ku : Option ℝ) : Prop where
  mean : mean s false = .array [some m]
  variance : variance s false = .array [some v]
  deviation : standardDeviation s false = .array [some sd]
  skewness : skewness s false = .array [sk]
  kurtosis : kurtosis s false = .array [ku]

/-! ### Lemmas -/

variable {R : Type}

theorem each_one (s : Signal ℝ R) (hc : s.count = 1) (f : Nat → Option ℝ) : eachChannel s f = .array [f 0] := by
  unfold eachChannel
  rw [hc]
  rfl

/-- the parameters are determined by the averages of the powers -/
theorem parameters_of (s : Signal ℝ R) (h : 0 < s.length) (hc : s.count = 1) {m1 m2 m3 m4 v : ℝ}
    (e1 : average s 0 (fun x => x) = m1) (e2 : average s 0 (fun x => x ^ 2) = m2)
    (e3 : average s 0 (fun x => x ^ 3) = m3) (e4 : average s 0 (fun x => x ^ 4) = m4) (hv : v = m2 - m1 ^ 2) :
    (v ≠ 0 → Parameters s m1 v √v (some ((m3 - 3 * m1 * m2 + 2 * m1 ^ 3) / √v ^ 3))
      (some ((m4 - 4 * m1 * m3 + 6 * m1 ^ 2 * m2 - 3 * m1 ^ 4) / v ^ 2 - 3))) ∧
    (v = 0 → Parameters s m1 0 0 none none) := by
  have hE := average_rules s 0 h
  have hμ : μ (average s 0) = m1 := e1
  have h2 : moment (average s 0) 2 = v := by rw [hE.variance_eq, e2, hμ, hv]
  have hv0 : 0 ≤ v := by rw [← h2]; exact hE.variance_nonneg
  have h3 : moment (average s 0) 3 = m3 - 3 * m1 * m2 + 2 * m1 ^ 3 := by
    unfold moment
    rw [hμ, show (fun x : ℝ => (x - m1) ^ 3) = fun x => x ^ 3 + ((-3 * m1) * x ^ 2 + ((3 * m1 ^ 2) * x + -m1 ^ 3)) by
        funext x; ring,
      hE.add (fun x => x ^ 3), hE.add (fun x => (-3 * m1) * x ^ 2), hE.add (fun x => (3 * m1 ^ 2) * x),
      hE.smul _ (fun x => x ^ 2), hE.smul _ (fun x => x), hE.const, e1, e2, e3]
    ring
  have h4 : moment (average s 0) 4 = m4 - 4 * m1 * m3 + 6 * m1 ^ 2 * m2 - 3 * m1 ^ 4 := by
    unfold moment
    rw [hμ, show (fun x : ℝ => (x - m1) ^ 4) =
        fun x => x ^ 4 + ((-4 * m1) * x ^ 3 + ((6 * m1 ^ 2) * x ^ 2 + ((-4 * m1 ^ 3) * x + m1 ^ 4))) by funext x; ring,
      hE.add (fun x => x ^ 4), hE.add (fun x => (-4 * m1) * x ^ 3), hE.add (fun x => (6 * m1 ^ 2) * x ^ 2),
      hE.add (fun x => (-4 * m1 ^ 3) * x), hE.smul _ (fun x => x ^ 3), hE.smul _ (fun x => x ^ 2),
      hE.smul _ (fun x => x), hE.const, e1, e2, e3, e4]
    ring
  have hσ : σ (average s 0) = √v := by unfold σ; rw [h2]
  have h44 : √v ^ 4 = v ^ 2 := by
    rw [show √v ^ 4 = (√v ^ 2) ^ 2 by ring, Real.sq_sqrt hv0]
  obtain ⟨a1, a2, a3, a4, a5⟩ := C94_channels s h
  rw [each_one s hc] at a1 a2 a3 a4 a5
  rw [hμ] at a1
  rw [hσ] at a2 a4 a5
  rw [h2] at a3 a4 a5
  rw [h3] at a4
  rw [h4, h44] at a5
  constructor
  · intro hne
    rw [if_neg hne] at a4 a5
    exact ⟨a1, a3, a2, a4, a5⟩
  · intro h0
    rw [if_pos h0] at a4 a5
    rw [h0] at a2 a3
    rw [Real.sqrt_zero] at a2
    exact ⟨a1, a3, a2, a4, a5⟩

/-! ### C143 -/

/-- the length of the sine wave does not divide a multiple of its number of periods -/
def Generic (L : Nat) (m : ℤ) : Prop := ¬ (L : ℤ) ∣ m ∧ ¬ (L : ℤ) ∣ 2 * m ∧ ¬ (L : ℤ) ∣ 3 * m ∧ ¬ (L : ℤ) ∣ 4 * m

/-- C143: The parameters of a sine wave with a whole number of periods: the mean and the skewness are zero, the variance is
1/2 and the excess kurtosis is -3/2; for all phases. (It is assumed that the period is not `1`, `2`, `3` or `4` samples or a
quotient of these.) -/
theorem C143_sine (mem : Nat → Nat → ℝ) (frequency phase rate : ℝ) (length : Nat) (hr : rate ≠ 0) (hL : 0 < length)
    (m : ℤ) (hm : frequency * (length / rate) = m) (hg : Generic length m) :
    ∃ w, sineWave mem frequency phase rate length = .ok w ∧
      Parameters w.signal 0 (1 / 2) √(1 / 2) (some 0) (some (-3 / 2)) := by
  obtain ⟨w, w1, wr, wc, _, _, _, _, w3⟩ := C82_sine mem frequency phase rate length hr
  have hL' : (length : ℝ) ≠ 0 := by exact_mod_cast hL.ne'
  have wl : w.signal.length = length := wc
  refine ⟨w, w1, ?_⟩
  obtain ⟨g1, g2, g3, g4⟩ := hg
  have val : ∀ i, i < length → w.signal.channels.get 0 i = Real.sin (2 * Real.pi * m * (i / length) + phase) := by
    intro i hi
    rw [w3 i hi, ← hm]
    congr 2
    field_simp
  have cosk : ∀ k : ℤ, ¬ (length : ℤ) ∣ k * m → ∀ p : ℝ,
      ∑ i ∈ range length, Real.cos (k * (2 * Real.pi * m * (i / length) + phase) + p) = 0 := by
    intro k hk p
    rw [← sum_cos length hL (k * m) (k * phase + p) hk]
    refine sum_congr rfl fun i _ => ?_
    push_cast
    congr 1
    ring
  have sink : ∀ k : ℤ, ¬ (length : ℤ) ∣ k * m →
      ∑ i ∈ range length, Real.sin (k * (2 * Real.pi * m * (i / length) + phase)) = 0 := by
    intro k hk
    rw [← cosk k hk (-(Real.pi / 2))]
    refine sum_congr rfl fun i _ => ?_
    rw [← sub_eq_add_neg, Real.cos_sub_pi_div_two]
  have s1 := sink 1 (by rwa [one_mul])
  have s3 := sink 3 g3
  have c2 := cosk 2 g2 0
  have c4 := cosk 4 g4 0
  have p1 : ∑ i ∈ range length, w.signal.channels.get 0 i = 0 := by
    rw [← s1]
    refine sum_congr rfl fun i hi => ?_
    rw [val i (mem_range.mp hi), Int.cast_one, one_mul]
  have p2 : ∑ i ∈ range length, w.signal.channels.get 0 i ^ 2 = length * (1 / 2) := by
    have : ∀ i ∈ range length, w.signal.channels.get 0 i ^ 2 =
        1 / 2 - 1 / 2 * Real.cos ((2 : ℤ) * (2 * Real.pi * m * (i / length) + phase) + 0) := by
      intro i hi
      rw [val i (mem_range.mp hi), Real.sin_sq_eq_half_sub, add_zero]
      push_cast
      ring
    rw [sum_congr rfl this, sum_sub_distrib, ← mul_sum, c2, sum_const, card_range, nsmul_eq_mul]
    ring
  have p3 : ∑ i ∈ range length, w.signal.channels.get 0 i ^ 3 = 0 := by
    have : ∀ i ∈ range length, w.signal.channels.get 0 i ^ 3 =
        3 / 4 * Real.sin ((1 : ℤ) * (2 * Real.pi * m * (i / length) + phase)) -
          1 / 4 * Real.sin ((3 : ℤ) * (2 * Real.pi * m * (i / length) + phase)) := by
      intro i hi
      rw [val i (mem_range.mp hi)]
      push_cast
      rw [Real.sin_three_mul, one_mul]
      ring
    rw [sum_congr rfl this, sum_sub_distrib, ← mul_sum, ← mul_sum, s1, s3]
    ring
  have p4 : ∑ i ∈ range length, w.signal.channels.get 0 i ^ 4 = length * (3 / 8) := by
    have : ∀ i ∈ range length, w.signal.channels.get 0 i ^ 4 =
        3 / 8 - 1 / 2 * Real.cos ((2 : ℤ) * (2 * Real.pi * m * (i / length) + phase) + 0) +
          1 / 8 * Real.cos ((4 : ℤ) * (2 * Real.pi * m * (i / length) + phase) + 0) := by
      intro i hi
      rw [val i (mem_range.mp hi)]
      push_cast
      generalize 2 * Real.pi * m * (i / length) + phase = x
      rw [add_zero, add_zero, show (4 : ℝ) * x = 2 * (2 * x) by ring, Real.cos_two_mul (2 * x), Real.cos_two_mul x]
      have := Real.sin_sq_add_cos_sq x
      rw [show Real.sin x ^ 4 = (Real.sin x ^ 2) ^ 2 by ring, show Real.sin x ^ 2 = 1 - Real.cos x ^ 2 by linarith]
      ring
    rw [sum_congr rfl this, sum_add_distrib, sum_sub_distrib, ← mul_sum, ← mul_sum, c2, c4, sum_const, card_range,
      nsmul_eq_mul]
    ring
  have h := (parameters_of w.signal (m1 := 0) (m2 := 1 / 2) (m3 := 0) (m4 := 3 / 8) (v := 1 / 2) (by rw [wl]; exact hL)
    wr ?_ ?_ ?_ ?_ (by norm_num)).1 (by norm_num)
  · refine ⟨h.mean, h.variance, h.deviation, ?_, ?_⟩
    · rw [h.skewness]
      norm_num
    · rw [h.kurtosis]
      norm_num
  all_goals
    unfold average
    rw [wl]
  · rw [p1, zero_div]
  · rw [p2, mul_div_cancel_left₀ _ hL']
  · rw [p3, zero_div]
  · rw [p4, mul_div_cancel_left₀ _ hL']

/-- a sine wave with 1 kHz and 2 periods -/
example : ∃ (frequency rate : ℝ) (length : Nat) (m : ℤ), rate ≠ 0 ∧ 0 < length ∧ frequency * (length / rate) = m ∧
    Generic length m :=
  ⟨1000, 48000, 96, 2, by norm_num, by decide, by norm_num, by unfold Generic; decide⟩

/-- the parameters of a signal, all of whose samples are `1` or `-1` -/
theorem binary (s : Signal ℝ R) (h : 0 < s.length) (hc : s.count = 1)
    (hx : ∀ i, i < s.length → s.channels.get 0 i ^ 2 = 1) (m : ℝ) (hm : average s 0 (fun x => x) = m) :
    (m ^ 2 ≠ 1 → Parameters s m (1 - m ^ 2) √(1 - m ^ 2) (some (-2 * m / √(1 - m ^ 2)))
      (some (4 * m ^ 2 / (1 - m ^ 2) - 2))) := by
  intro hne
  have hL' : (s.length : ℝ) ≠ 0 := by exact_mod_cast h.ne'
  have avg : ∀ f g : ℝ → ℝ, (∀ i, i < s.length → f (s.channels.get 0 i) = g (s.channels.get 0 i)) →
      average s 0 f = average s 0 g := by
    intro f g hfg
    unfold average
    rw [sum_congr rfl fun i hi => hfg i (mem_range.mp hi)]
  have h2 : average s 0 (fun x => x ^ 2) = 1 := by
    rw [avg _ (fun _ => 1) hx, (average_rules s 0 h).one]
  have hv0 : 0 ≤ 1 - m ^ 2 := by
    have := (average_rules s 0 h).variance_nonneg
    rw [(average_rules s 0 h).variance_eq, h2] at this
    have e : μ (average s 0) = m := hm
    rwa [e] at this
  have hv : 0 < 1 - m ^ 2 := lt_of_le_of_ne hv0 fun h => hne (by linarith)
  have hq := (parameters_of s h hc (m1 := m) (m2 := 1) (m3 := m) (m4 := 1) (v := 1 - m ^ 2) hm h2 ?_ ?_ rfl).1 hv.ne'
  · refine ⟨hq.mean, hq.variance, hq.deviation, ?_, ?_⟩
    · rw [hq.skewness]
      congr 3
      have hs : √(1 - m ^ 2) ≠ 0 := (Real.sqrt_pos.mpr hv).ne'
      rw [show √(1 - m ^ 2) ^ 3 = √(1 - m ^ 2) * √(1 - m ^ 2) ^ 2 by ring, Real.sq_sqrt hv.le]
      have := hv.ne'
      field_simp
      ring
    · rw [hq.kurtosis]
      congr 3
      have := hv.ne'
      field_simp
      ring
  · rw [avg _ (fun x => x) fun i hi => ?_, hm]
    rw [pow_succ, hx i hi, one_mul]
  · rw [avg _ (fun _ => 1) fun i hi => ?_, (average_rules s 0 h).one]
    rw [show s.channels.get 0 i ^ 4 = (s.channels.get 0 i ^ 2) ^ 2 by ring, hx i hi, one_pow]

theorem sum_antiperiodic {x : Nat → ℝ} {T L : Nat} (hx : ∀ i, i + T < L → x (i + T) = -x i) {n : Nat} (hL : L = 2 * T * n) :
    ∑ i ∈ range L, x i = 0 := by
  induction n generalizing L with
  | zero => rw [hL]; simp
  | succ n ih =>
    have e : L = 2 * T * n + (T + T) := by rw [hL]; ring
    rw [e, sum_range_add, ih (fun i hi => hx i (by omega)) rfl, sum_range_add, zero_add, ← sum_add_distrib]
    refine sum_eq_zero fun i hi => ?_
    rw [mem_range] at hi
    rw [show 2 * T * n + (T + i) = 2 * T * n + i + T by omega, hx _ (by omega)]
    ring

/-- C143: The parameters of a square wave, whose length is a multiple of its period (which has an even number of samples):
the mean and the skewness are zero; the variance is the fraction `v` of the samples, at which the sine wave is not zero (the
square wave is zero there), the kurtosis is `1 / v - 3`. If the wave is not sampled at its jumps, the variance is 1 and the
kurtosis is -2, which is the smallest possible one (`C94_pearson`). -/
theorem C143_square (mem mem' : Nat → Nat → ℝ) (frequency phase rate : ℝ) (T n : Nat) (hr : rate ≠ 0) (hT : 0 < T)
    (hn : 0 < n) (h : 2 * frequency * T = rate) :
    ∃ w s, squareWave mem frequency phase rate (2 * T * n) = .ok w ∧ sineWave mem' frequency phase rate (2 * T * n) = .ok s ∧
      ∀ v : ℝ, v * (2 * T * n : Nat) = ((range (2 * T * n)).filter fun i => s.signal.channels.get 0 i ≠ 0).card → v ≠ 0 →
        Parameters w.signal 0 v √v (some 0) (some (1 / v - 3)) ∧
        ((∀ i, i < 2 * T * n → s.signal.channels.get 0 i ≠ 0) → v = 1 ∧ Parameters w.signal 0 1 1 (some 0) (some (-2))) := by
  obtain ⟨w, s, h1, h2, wr, wc, _, _, _, _, w3⟩ := C82_square mem mem' frequency phase rate (2 * T * n) hr
  obtain ⟨s', s1, _, _, _, _, _, _, s3⟩ := C82_sine mem' frequency phase rate (2 * T * n) hr
  obtain rfl : s = s' := by
    rw [h2] at s1
    exact Except.ok.inj s1
  refine ⟨w, s, h1, h2, fun v hv hv0 => ?_⟩
  have wl : w.signal.length = 2 * T * n := wc
  have hL : 0 < 2 * T * n := by positivity
  have hL' : ((2 * T * n : Nat) : ℝ) ≠ 0 := by exact_mod_cast hL.ne'
  have hx : ∀ i, i < 2 * T * n → (w.signal.channels.get 0 i ^ 2 = if s.signal.channels.get 0 i ≠ 0 then 1 else 0) ∧
      w.signal.channels.get 0 i ^ 3 = w.signal.channels.get 0 i ∧
      w.signal.channels.get 0 i ^ 4 = w.signal.channels.get 0 i ^ 2 := by
    intro i hi
    obtain ⟨a, b, c⟩ := w3 i hi
    rcases lt_trichotomy (s.signal.channels.get 0 i) 0 with h | h | h
    · rw [c h, if_pos h.ne]; norm_num
    · rw [b h, if_neg (by simpa using h)]; norm_num
    · rw [a h, if_pos h.ne']; norm_num
  have hanti : ∀ i, i + T < 2 * T * n → w.signal.channels.get 0 (i + T) = -w.signal.channels.get 0 i := by
    intro i hi
    have e : s.signal.channels.get 0 (i + T) = -s.signal.channels.get 0 i := by
      rw [s3 _ hi, s3 i (by omega), ← Real.sin_add_pi]
      congr 1
      push_cast
      rw [← h]
      have : (T : ℝ) ≠ 0 := by exact_mod_cast hT.ne'
      have hf : frequency ≠ 0 := by
        rintro rfl
        apply hr
        rw [← h]
        ring
      field_simp
      ring
    obtain ⟨a, b, c⟩ := w3 i (by omega)
    obtain ⟨a', b', c'⟩ := w3 (i + T) hi
    rcases lt_trichotomy (s.signal.channels.get 0 i) 0 with h | h | h
    · rw [c h, a' (by linarith)]; norm_num
    · rw [b h, b' (by linarith), neg_zero]
    · rw [a h, c' (by linarith)]
  have m1 : average w.signal 0 (fun x => x) = 0 := by
    unfold average
    rw [wl, sum_antiperiodic hanti rfl, zero_div]
  have m2 : average w.signal 0 (fun x => x ^ 2) = v := by
    unfold average
    rw [wl, sum_congr rfl fun i hi => (hx i (mem_range.mp hi)).1, ← sum_filter, sum_const, nsmul_eq_mul, mul_one, ← hv,
      mul_div_cancel_right₀ _ hL']
  have m3 : average w.signal 0 (fun x => x ^ 3) = 0 := by
    rw [← m1]
    unfold average
    rw [wl, sum_congr rfl fun i hi => (hx i (mem_range.mp hi)).2.1]
  have m4 : average w.signal 0 (fun x => x ^ 4) = v := by
    rw [← m2]
    unfold average
    rw [wl, sum_congr rfl fun i hi => (hx i (mem_range.mp hi)).2.2]
  have hq := (parameters_of w.signal (by rw [wl]; exact hL) wr m1 m2 m3 m4 (v := v) (by ring)).1 hv0
  have hq' : Parameters w.signal 0 v √v (some 0) (some (1 / v - 3)) := by
    refine ⟨hq.mean, hq.variance, hq.deviation, ?_, ?_⟩
    · rw [hq.skewness]
      norm_num
    · rw [hq.kurtosis]
      congr 3
      field_simp
      ring
  refine ⟨hq', fun hne => ?_⟩
  have hv1 : v = 1 := by
    rw [filter_true_of_mem fun i hi => hne i (mem_range.mp hi), card_range] at hv
    exact mul_right_cancel₀ hL' (hv.trans (one_mul _).symm)
  subst hv1
  refine ⟨rfl, hq'.mean, hq'.variance, ?_, hq'.skewness, ?_⟩
  · rw [hq'.deviation, Real.sqrt_one]
  · rw [hq'.kurtosis]
    norm_num

/-- the hypotheses for a square wave, whose period has two samples and which starts in the middle between two jumps -/
example : ∃ (frequency phase rate : ℝ) (T n : Nat), rate ≠ 0 ∧ 0 < T ∧ 0 < n ∧ 2 * frequency * T = rate ∧
    ∀ i, i < 2 * T * n → Real.sin (2 * Real.pi * frequency * (i / rate) + phase) ≠ 0 := by
  refine ⟨1, Real.pi / 2, 2, 1, 1, by norm_num, by decide, by decide, by norm_num, fun i hi => ?_⟩
  have : i = 0 ∨ i = 1 := by omega
  rcases this with rfl | rfl
  · norm_num
  · rw [show 2 * Real.pi * 1 * (((1 : Nat) : ℝ) / 2) + Real.pi / 2 = Real.pi / 2 + Real.pi by push_cast; ring,
      Real.sin_add_pi]
    norm_num

/-- C143: The parameters of a constant signal. -/
theorem C143_constant (mem : Nat → Nat → ℝ) (value : ℝ) (rate : R) (length : Nat) (h : 0 < length) :
    ∃ s, constantSignal mem value rate length = .ok s ∧ Parameters s value 0 0 none none := by
  obtain ⟨s, s1, s2, s3, _, _, _, s4⟩ := C83_signal mem value rate length
  have sl : s.length = length := s3
  have avg : ∀ f : ℝ → ℝ, average s 0 f = f value := by
    intro f
    have e : average s 0 f = average s 0 fun _ => f value := by
      unfold average
      rw [sum_congr rfl fun i hi => by rw [s4 i (by rw [mem_range] at hi; omega)]]
    rw [e, (average_rules s 0 (by omega)).const]
  exact ⟨s, s1, (parameters_of s (by omega) s2 (avg _) (avg _) (avg _) (avg _) (v := 0) (by ring)).2 rfl⟩

/-- C143: The parameters of a maximum length sequence with one or more whole periods of the length `P = 2 ** bits - 1`: the
mean is `1 / P`, from which the other parameters follow, because the samples are `1` and `-1`. -/
theorem C143_mls (mem : Nat → Nat → ℝ) (choice : Nat → Bool) (draw : Nat)
    (bits length : Option Nat) (rate : R) (b n : Nat) (hn : 0 < n) (hp : Mls.parameters bits length = (b, n * (2 ^ b - 1)))
    (h2 : 2 ≤ b) (h32 : b ≤ 32) (m : ℝ) (hm : m = 1 / (2 ^ b - 1)) :
    ∃ s : Signal ℝ R, Mls.sequence mem choice draw bits rate length = .ok (s, b) ∧
      Parameters s m (1 - m ^ 2) √(1 - m ^ 2) (some (-2 * m / √(1 - m ^ 2))) (some (4 * m ^ 2 / (1 - m ^ 2) - 2)) := by
  obtain ⟨x, s, h1, _, _, _, k1, k2, k3, k4, k5⟩ := Mls.sequence_ok mem choice draw bits length rate b _ hp h2 h32
  have hP := Mls.period_pos h2
  have sl : s.length = n * (2 ^ b - 1) := k2
  have hl : 0 < n * (2 ^ b - 1) := Nat.mul_pos hn (by omega)
  have hc : ((2 ^ b - 1 : Nat) : ℝ) = 2 ^ b - 1 := by
    rw [Nat.cast_sub (by omega)]
    push_cast
    rfl
  have hP' : (3 : ℝ) ≤ 2 ^ b - 1 := by
    rw [← hc]
    exact_mod_cast hP
  refine ⟨s, h1, binary s (by omega) k1 (fun i hi => ?_) m ?_ ?_⟩
  · rw [k5 i (by omega)]
    split <;> norm_num
  · have per : ∀ j, j < n → ∑ i ∈ range (2 ^ b - 1), s.channels.get 0 (j * (2 ^ b - 1) + i) = 1 := by
      intro j hj
      have hle : j * (2 ^ b - 1) + (2 ^ b - 1) ≤ n * (2 ^ b - 1) := by
        rw [← Nat.succ_mul]
        exact Nat.mul_le_mul_right _ hj
      obtain ⟨s', q1, q2⟩ := Mls.C110_balance mem choice draw bits length rate b _ hp h2 h32 (j * (2 ^ b - 1)) hle
      obtain rfl : s = s' := by
        rw [h1] at q1
        exact congrArg Prod.fst (Except.ok.inj q1)
      exact q2
    have tot : ∀ k, k ≤ n → ∑ i ∈ range (k * (2 ^ b - 1)), s.channels.get 0 i = k := by
      intro k
      induction k with
      | zero => intro _; simp
      | succ k ih =>
        intro hk
        rw [Nat.succ_mul, sum_range_add, ih (by omega), per k (by omega)]
        push_cast
        rfl
    unfold average
    rw [sl, tot n le_rfl, hm]
    push_cast
    rw [hc]
    have : (n : ℝ) ≠ 0 := by exact_mod_cast hn.ne'
    have : (2 : ℝ) ^ b - 1 ≠ 0 := by linarith
    field_simp
  · rw [hm]
    intro h
    rw [div_pow, one_pow, div_eq_one_iff_eq (by positivity)] at h
    nlinarith

/-- two periods of a sequence with 5 bits -/
example : Mls.parameters (some 5) (some 62) = (5, 2 * (2 ^ 5 - 1)) := by decide

end Statistics
end Verif
