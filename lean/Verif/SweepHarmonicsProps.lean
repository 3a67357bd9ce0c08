import Verif.SweepProps
import Verif.HarmonicProps
import Mathlib.Analysis.SpecialFunctions.Trigonometric.Chebyshev.Basic
import Mathlib.Analysis.Calculus.MeanValue

/-
C117: the harmonics of exponential sweeps.
-/

namespace Verif
namespace Sweep

open Indexing

/-- a positive function, that is proportional to its derivative -/
theorem exponential_of_deriv {f : ℝ → ℝ} {l : ℝ} (h : ∀ t, HasDerivAt f (f t / l) t) (t u : ℝ) :
    f (t + u) = f t * Real.exp (u / l) := by
  have hd : ∀ x, HasDerivAt (fun x => f x * Real.exp (-(x / l))) 0 x := by
    intro x
    refine ((h x).mul (((hasDerivAt_id x).div_const l).neg.exp)).congr_deriv ?_
    simp only [id, Pi.neg_apply]
    ring
  have hc := is_const_of_deriv_eq_zero (fun x => (hd x).differentiableAt) (fun x => (hd x).deriv) (t + u) t
  have e : Real.exp (-((t + u) / l)) = Real.exp (-(t / l)) * (Real.exp (u / l))⁻¹ := by
    rw [← Real.exp_neg, ← Real.exp_add]
    congr 1
    ring
  rw [e] at hc
  have h1 := Real.exp_ne_zero (-(t / l))
  have h2 := Real.exp_ne_zero (u / l)
  field_simp at hc
  rw [hc, mul_comm]

/-- the phase of an exponential sweep is an affine function of the instantaneous frequency -/
theorem phase_of_deriv {Φ f : ℝ → ℝ} {l : ℝ} (hl : l ≠ 0) (hf : ∀ t, HasDerivAt f (f t / l) t)
    (hΦ : ∀ t, HasDerivAt Φ (2 * Real.pi * f t) t) (t u : ℝ) : Φ t - Φ u = 2 * Real.pi * l * (f t - f u) := by
  have hd : ∀ x, HasDerivAt (fun x => Φ x - 2 * Real.pi * l * f x) 0 x := by
    intro x
    refine ((hΦ x).sub ((hf x).const_mul (2 * Real.pi * l))).congr_deriv ?_
    field_simp
    ring
  have hc := is_const_of_deriv_eq_zero (fun x => (hd x).differentiableAt) (fun x => (hd x).deriv) t u
  linarith

/-! ### C117 -/

/-- `Φ` and `f` are the phase and the instantaneous frequency of the sweep -/
def IsPhase (s : Instance) (Φ f : ℝ → ℝ) : Prop :=
  (∀ i : Nat, i < s.signal.channels.cols → s.signal.channels.get 0 i = Real.sin (Φ (i / s.signal.rate))) ∧
  (∀ t, s.instantaneousFrequency t = .ok (f t)) ∧ ∀ t, HasDerivAt Φ (2 * Real.pi * f t) t

/-- C117: The instantaneous frequency of an exponential sweep is multiplied by `k`, when the delay, that is used by
`harmonic_impulse_response`, has passed. At that time, the phase is that of the harmonic with the order `k`, except for a
constant. -/
theorem C117_delay (f0 f1 phase : ℝ) (interval : Idx × Idx) (rate : ℝ) (length : Nat) (numexpr : Bool)
    (start stop : Int) (hr : rate ≠ 0) (h1 : index length interval.1 = some start)
    (h2 : index length interval.2 = some stop) (hne : start ≠ stop) (hf : 0 < f0) (hf1 : 0 < f1) (hff : f0 ≠ f1) :
    ∃ s Φ f, exponentialSweep f0 f1 phase interval rate length numexpr = some (.ok s) ∧ s.l ≠ 0 ∧
      s.signal.channels.cols = length ∧ s.signal.rate = rate ∧ IsPhase s Φ f ∧
      ∀ k t, 0 < k → f (t + Real.log k * s.l) = k * f t ∧
        Φ (t + Real.log k * s.l) = k * Φ t + (k - 1) * (2 * Real.pi * f0 * s.l - phase) := by
  obtain ⟨s, s1, -, s3, s4, -, s6, Φ, f, g1, g2, g3, g4, g5, -, -, g8, -, -, -⟩ :=
    C44_exponential f0 f1 phase interval rate length numexpr start stop hr h1 h2 hne hf hf1 hff
  have hl : s.l ≠ 0 := by
    intro h
    rw [h, zero_mul, eq_comm, div_eq_zero_iff] at s6
    rcases s6 with h | h
    · exact hne (by exact_mod_cast (sub_eq_zero.mp h).symm)
    · exact hr h
  refine ⟨s, Φ, f, s1, hl, s3, s4, ⟨by rw [s3, s4]; exact g1, g2, g3⟩, fun k t hk => ?_⟩
  have e : f (t + Real.log k * s.l) = k * f t := by
    rw [exponential_of_deriv g8, mul_div_cancel_right₀ _ hl, Real.exp_log hk, mul_comm]
  refine ⟨e, ?_⟩
  have p1 := phase_of_deriv hl g8 g3 (t + Real.log k * s.l) (start / rate)
  have p2 := phase_of_deriv hl g8 g3 t (start / rate)
  rw [g4, g5, e] at p1
  rw [g4, g5] at p2
  linear_combination p1 - k * p2

/-- a delay of one second for the second harmonic: the frequency of the sweep is doubled in each second -/
example : ∃ s Φ f, exponentialSweep 20 40 0 (.int 0, .int 48000) 48000 65536 true = some (.ok s) ∧ IsPhase s Φ f ∧
    s.l ≠ 0 := by
  obtain ⟨s, Φ, f, h1, h2, -, -, h3, -⟩ := C117_delay 20 40 0 (.int 0, .int 48000) 48000 65536 true 0 48000 (by norm_num)
    (by decide) (by decide) (by decide) (by norm_num) (by norm_num) (by norm_num)
  exact ⟨s, Φ, f, h1, h3, h2⟩

/-- C117: If the delay of a harmonic is an integer number of samples and the phase of the sweep is synchronized, the
harmonic with the order `k` of the sweep is the sweep itself, started so many samples earlier. -/
theorem C117_synchronized (f0 f1 phase : ℝ) (interval : Idx × Idx) (rate : ℝ) (length : Nat) (numexpr : Bool)
    (start stop : Int) (hr : rate ≠ 0) (h1 : index length interval.1 = some start)
    (h2 : index length interval.2 = some stop) (hne : start ≠ stop) (hf : 0 < f0) (hf1 : 0 < f1) (hff : f0 ≠ f1) :
    ∃ s Φ f, exponentialSweep f0 f1 phase interval rate length numexpr = some (.ok s) ∧ IsPhase s Φ f ∧
      s.signal.channels.cols = length ∧
      ∀ (k d : Nat) (m : Int), 0 < k → Real.log k * s.l * rate = d →
        (k - 1) * (2 * Real.pi * f0 * s.l - phase) = 2 * Real.pi * m → ∀ i : Nat, i + d < length →
          s.signal.channels.get 0 (i + d) = Real.sin (k * Φ (i / rate)) := by
  obtain ⟨s, Φ, f, s1, hl, s3, s4, hp, hk⟩ := C117_delay f0 f1 phase interval rate length numexpr start stop hr h1 h2 hne hf
    hf1 hff
  refine ⟨s, Φ, f, s1, hp, s3, fun k d m k0 hd hm i hi => ?_⟩
  rw [hp.1 (i + d) (by rw [s3]; exact hi), s4]
  have e : (((i + d : Nat) : ℝ)) / rate = i / rate + Real.log k * s.l := by
    push_cast
    rw [← hd]
    field_simp
  rw [e, (hk k _ (by exact_mod_cast k0)).2, hm, mul_comm (2 * Real.pi) (m : ℝ)]
  exact Real.sin_add_int_mul_two_pi _ m

/-- C117: The nonlinear system, that maps a sine to its harmonic with the order `k` (the Chebyshev polynomial), transforms
the samples of a synchronized sweep to the samples of the same sweep, that follow after the delay of the harmonic. -/
theorem C117_nonlinear (f0 f1 phase : ℝ) (interval : Idx × Idx) (rate : ℝ) (length : Nat) (numexpr : Bool)
    (start stop : Int) (hr : rate ≠ 0) (h1 : index length interval.1 = some start)
    (h2 : index length interval.2 = some stop) (hne : start ≠ stop) (hf : 0 < f0) (hf1 : 0 < f1) (hff : f0 ≠ f1) :
    ∃ s, exponentialSweep f0 f1 phase interval rate length numexpr = some (.ok s) ∧
      s.signal.channels.cols = length ∧
      ∀ (k d : Nat) (m : Int), 0 < k → Real.log k * s.l * rate = d →
        (k - 1) * (2 * Real.pi * f0 * s.l - phase + Real.pi / 2) = 2 * Real.pi * m → ∀ i : Nat, i + d < length →
          (Polynomial.Chebyshev.T ℝ k).eval (s.signal.channels.get 0 i) = s.signal.channels.get 0 (i + d) := by
  obtain ⟨s, Φ, f, s1, hl, s3, s4, hp, hk⟩ := C117_delay f0 f1 phase interval rate length numexpr start stop hr h1 h2 hne hf
    hf1 hff
  refine ⟨s, s1, s3, fun k d m k0 hd hm i hi => ?_⟩
  rw [hp.1 (i + d) (by rw [s3]; exact hi), hp.1 i (by rw [s3]; omega), s4]
  have e : (((i + d : Nat) : ℝ)) / rate = i / rate + Real.log k * s.l := by
    push_cast
    rw [← hd]
    field_simp
  have hs : ∀ x, Real.sin x = Real.cos (Real.pi / 2 - x) := fun x => (Real.cos_pi_div_two_sub x).symm
  rw [e, (hk k _ (by exact_mod_cast k0)).2, hs (Φ (i / rate)), Polynomial.Chebyshev.T_real_cos, ← Real.cos_sub_pi_div_two]
  have e2 : (k : ℝ) * Φ (i / rate) + (k - 1) * (2 * Real.pi * f0 * s.l - phase) - Real.pi / 2 =
      -(((k : Int) : ℝ) * (Real.pi / 2 - Φ (i / rate))) + m * (2 * Real.pi) := by
    push_cast
    linear_combination hm
  rw [e2, Real.cos_add_int_mul_two_pi, Real.cos_neg]

/-- a synchronized sweep, whose second harmonic has a delay of six samples -/
example : ∃ phase s, exponentialSweep 20 40 phase (.int 0, .int 6) 48000 16 true = some (.ok s) ∧
    Real.log (2 : Nat) * s.l * 48000 = (6 : Nat) ∧
    (((2 : Nat) : ℝ) - 1) * (2 * Real.pi * 20 * s.l - phase + Real.pi / 2) = 2 * Real.pi * (0 : Int) := by
  have hlog : (0 : ℝ) < Real.log 2 := Real.log_pos (by norm_num)
  obtain ⟨s, h, -, -, -, -, hl, -⟩ := C44_exponential 20 40 (2 * Real.pi * 20 * (6 / 48000 / Real.log 2) + Real.pi / 2)
    (.int 0, .int 6) 48000 16 true 0 6 (by norm_num) (by decide) (by decide) (by decide) (by norm_num) (by norm_num)
    (by norm_num)
  have hs : s.l = 6 / 48000 / Real.log 2 := by
    rw [eq_div_iff hlog.ne']
    norm_num at hl ⊢
    exact hl
  refine ⟨_, s, h, ?_, ?_⟩
  · rw [hs]
    push_cast
    field_simp
  · rw [hs]
    push_cast
    ring

/-- C117: The part of the impulse response, that `harmonic_impulse_response` cuts out for the harmonic with the order `k`,
consists of the samples, which precede the linear impulse response by the time, in which the frequency of the sweep
is multiplied by more than `k - 1` and at most `k`. -/
theorem C117_cut (mem : Nat → Nat → ℝ) (f0 f1 phase : ℝ) (interval : Idx × Idx) (rate : ℝ) (length : Nat) (numexpr : Bool)
    (start stop : Int) (hr : 0 < rate) (h1 : index length interval.1 = some start)
    (h2 : index length interval.2 = some stop) (hne : start < stop) (hf : 0 < f0) (hff : f0 < f1) :
    ∃ (s : Instance) (f : ℝ → ℝ), exponentialSweep f0 f1 phase interval rate length numexpr = some (.ok s) ∧
      (∀ t, s.instantaneousFrequency t = .ok (f t)) ∧
      ∀ (k d : Nat) (ir : Signal ℝ ℝ) (n : Nat) (t : ℝ), 2 ≤ k → f (t + d / rate) = k * f t → ir.rate = rate →
        1 ≤ ir.channels.rows → ir.channels.rows ≤ n → d ≤ -ir.offset → -ir.offset ≤ ir.channels.cols →
        ∃ r, Harmonic.harmonicImpulseResponse mem s.l ir k (some n) = .ok r ∧ r.result.channels.cols = n ∧
          ∀ c i j : Nat, c < ir.channels.rows → j < n → (i : Int) + ir.offset = j - d →
            ((k - 1) * f t < f (t + (d - j) / rate) → r.result.channels.get c j = ir.channels.get c i) ∧
            (f (t + (d - j) / rate) ≤ (k - 1) * f t → r.result.channels.get c j = 0) := by
  obtain ⟨s, s1, -, s3, s4, -, s6, Φ, f, g1, g2, g3, g4, g5, -, gpos, g8, -, -, -⟩ :=
    C44_exponential f0 f1 phase interval rate length numexpr start stop hr.ne' h1 h2 hne.ne hf (hf.trans hff) hff.ne
  have hlog : 0 < Real.log (f1 / f0) := Real.log_pos ((one_lt_div hf).mpr hff)
  have hl : 0 < s.l := by
    have : 0 < s.l * Real.log (f1 / f0) := by
      rw [s6]
      exact div_pos (sub_pos.mpr (by exact_mod_cast hne)) hr
    exact (pos_iff_pos_of_mul_pos this).mpr hlog
  refine ⟨s, f, s1, g2, fun k d ir n t hk hfd hir hrows hn ho1 ho2 => ?_⟩
  have hk1 : (0 : ℝ) < (k : ℝ) - 1 := by
    have : (2 : ℝ) ≤ k := by exact_mod_cast hk
    linarith
  have hd : Real.log ((k : Int) : ℝ) * s.l * ir.rate = d := by
    rw [exponential_of_deriv g8, mul_comm] at hfd
    have h := mul_right_cancel₀ (gpos t).ne' hfd
    have h := congrArg Real.log h
    rw [Real.log_exp] at h
    rw [hir, Int.cast_natCast, ← h]
    field_simp
  have hlr : 0 < s.l * ir.rate := by
    rw [hir]
    exact mul_pos hl hr
  obtain ⟨b1, b2⟩ := Harmonic.duration_bounds s.l ir.rate k d (by exact_mod_cast hk) hlr hd
  obtain ⟨r, r1, r2, r3, r4⟩ := Harmonic.C45_harmonic mem s.l ir k n d hrows hn (by exact_mod_cast hk)
    (by rw [hir]; exact hr.ne') hlr hd (.inl ⟨ho1, ho2⟩)
  have key : ∀ j : Nat, (k - 1) * f t < f (t + (d - j) / rate) ↔ (j : Int) < Harmonic.duration s.l ir.rate k d := by
    intro j
    rw [exponential_of_deriv g8, mul_comm, mul_lt_mul_iff_right₀ (gpos t), ← Real.log_lt_iff_lt_exp hk1]
    unfold Harmonic.duration
    rw [lt_sub_comm, Int.floor_lt, hir, div_div, lt_div_iff₀ (mul_pos hr hl)]
    push_cast
    rw [mul_assoc, mul_comm s.l rate]
  refine ⟨r, r1, r2, fun c i j hc hj hi => ⟨fun h => ?_, fun h => ?_⟩⟩
  · have hjd := (key j).mp h
    rw [r3 c j hc hj hjd]
    congr 1
    rw [Int.emod_eq_of_lt (by omega) (by omega)]
    omega
  · exact r4 c j hc hj (not_lt.mp fun h' => not_lt.mpr h ((key j).mpr h'))

/-- the frequency of this sweep is doubled within six samples -/
example : ∃ (s : Instance) (f : ℝ → ℝ), exponentialSweep 20 40 0 (.int 0, .int 6) 48000 16 true = some (.ok s) ∧
    (∀ t, s.instantaneousFrequency t = .ok (f t)) ∧ f (0 + (6 : Nat) / 48000) = (2 : Nat) * f 0 := by
  obtain ⟨s, h, -, -, -, -, -, Φ, f, -, g2, -, -, g5, g6, -⟩ := C44_exponential 20 40 0 (.int 0, .int 6) 48000 16 true 0 6
    (by norm_num) (by decide) (by decide) (by decide) (by norm_num) (by norm_num) (by norm_num)
  refine ⟨s, f, h, g2, ?_⟩
  have e1 : f 0 = 20 := by simpa using g5
  have e2 : f (6 / 48000) = 40 := by simpa using g6
  rw [zero_add, e1]
  push_cast
  rw [e2]
  norm_num

end Sweep
end Verif
