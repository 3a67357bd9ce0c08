import Verif.ChebyshevOptimalProps
import Verif.BesselDelayProps
import Mathlib.Analysis.Normed.Group.Tannery

/-
C128: the behaviour of the filters for rising orders. The magnitudes of the Butterworth filters approach those of ideal
filters. The Bessel filters approach a delay.
-/

namespace Verif
namespace Filter

open Complex (I)
open Polynomial.Chebyshev (T)
open _root_.Filter (Tendsto atTop)
open scoped Topology

/-! ### The polynomials -/

/-- outside of the interval between -1 and 1, the Chebyshev polynomials grow at least linearly with the order -/
theorem T_growth (x : ℝ) (hx : 1 ≤ x) (n : Nat) : 1 + n * (x - 1) ≤ (T ℝ n).eval x := by
  have key : ∀ n : Nat, 1 ≤ (T ℝ n).eval x ∧ x - 1 ≤ (T ℝ ((n : ℤ) + 1)).eval x - (T ℝ n).eval x := by
    intro n
    induction n with
    | zero => simp
    | succ n ih =>
      obtain ⟨h1, h2⟩ := ih
      have h3 : 1 ≤ (T ℝ ((n : ℤ) + 1)).eval x := by linarith
      refine ⟨by exact_mod_cast h3, ?_⟩
      push_cast
      rw [show (n : ℤ) + 1 + 1 = n + 2 by ring, Polynomial.Chebyshev.T_add_two]
      simp only [Polynomial.eval_sub, Polynomial.eval_mul, Polynomial.eval_X, Polynomial.eval_ofNat]
      nlinarith
  induction n with
  | zero => simp
  | succ n ih =>
    have := (key n).2
    push_cast
    linarith

theorem T_tendsto (x : ℝ) (hx : 1 < x) : Tendsto (fun n : Nat => (T ℝ n).eval x ^ 2) atTop atTop := by
  have h1 : Tendsto (fun n : Nat => 1 + (n : ℝ) * (x - 1)) atTop atTop :=
    _root_.Filter.tendsto_atTop_add_const_left _ _
      (tendsto_natCast_atTop_atTop.atTop_mul_const (by linarith))
  have h2 := _root_.Filter.tendsto_atTop_mono (T_growth x hx.le) h1
  exact (_root_.Filter.tendsto_pow_atTop (n := 2) (by norm_num)).comp h2

theorem coefficient_step (i o : Nat) :
    (besselCoefficient (i + 1) o : ℝ) * ((i + 1) * (i + 2 * o + 2)) = besselCoefficient i (o + 1) * (2 * (o + 1)) := by
  have h1 := (C38_exact (i + 1) o).1
  have h2 := (C38_exact i (o + 1)).1
  rw [show i + (o + 1) + (o + 1) = i + 1 + o + o + 1 by ring, Nat.factorial_succ (i + 1 + o + o), ← h1,
    Nat.factorial_succ i, Nat.factorial_succ o] at h2
  have hp : (2 ^ o * i.factorial * o.factorial : ℝ) ≠ 0 := by positivity
  have h3 : (besselCoefficient i (o + 1) : ℝ) * (2 ^ (o + 1) * i.factorial * ((o + 1) * o.factorial)) =
      (i + 1 + o + o + 1) * (besselCoefficient (i + 1) o * (2 ^ o * ((i + 1) * i.factorial) * o.factorial)) := by
    exact_mod_cast h2
  apply mul_right_cancel₀ hp
  rw [pow_succ] at h3
  linear_combination -h3

/-- the relative coefficients of the reverse Bessel polynomials -/
noncomputable def relativeCoefficient (n i : Nat) : ℝ := ∏ j ∈ Finset.range i, (2 * (n - j) / (2 * n - j) : ℝ)

theorem relative_value (n i : Nat) (h : i ≤ n) :
    (besselCoefficient i (n - i) : ℝ) = besselCoefficient 0 n * relativeCoefficient n i / i.factorial := by
  induction i with
  | zero => simp [relativeCoefficient]
  | succ i ih =>
    obtain ⟨o, rfl⟩ : ∃ o, n = i + 1 + o := ⟨n - (i + 1), by omega⟩
    have ih := ih (by omega)
    rw [show i + 1 + o - i = o + 1 by omega] at ih
    rw [show i + 1 + o - (i + 1) = o by omega]
    have hs := coefficient_step i o
    rw [ih] at hs
    unfold relativeCoefficient at hs ⊢
    rw [Finset.prod_range_succ, Nat.factorial_succ]
    have hi : (i.factorial : ℝ) ≠ 0 := by positivity
    have hd : (2 * ((i + 1 + o : Nat) : ℝ) - i) ≠ 0 := by
      push_cast
      have : (0 : ℝ) ≤ i := by positivity
      have : (0 : ℝ) ≤ o := by positivity
      nlinarith
    have hi1 : ((i : ℝ) + 1) ≠ 0 := by positivity
    have hd' : (i + 2 * o + 2 : ℝ) ≠ 0 := by positivity
    push_cast at hs hd ⊢
    rw [show (2 * ((i : ℝ) + 1 + o) - i) = i + 2 * o + 2 by ring, show 2 * ((i : ℝ) + 1 + o - i) = 2 * (o + 1) by ring]
    field_simp
    field_simp at hs
    linear_combination hs

theorem relative_zero (n i : Nat) (h : n < i) : relativeCoefficient n i = 0 :=
  Finset.prod_eq_zero (Finset.mem_range.mpr h) (by simp)

theorem relative_bounds (n i : Nat) : 0 ≤ relativeCoefficient n i ∧ relativeCoefficient n i ≤ 1 := by
  by_cases h : n < i
  · rw [relative_zero n i h]; norm_num
  · have hj : ∀ j ∈ Finset.range i, (0 : ℝ) ≤ 2 * (n - j) / (2 * n - j) ∧ (2 * (n - j) / (2 * n - j) : ℝ) ≤ 1 := by
      intro j hj
      have h1 : (j : ℝ) < n := by exact_mod_cast lt_of_lt_of_le (Finset.mem_range.mp hj) (not_lt.mp h)
      have h0 : (0 : ℝ) ≤ j := by positivity
      have h2 : (0 : ℝ) < 2 * n - j := by linarith
      exact ⟨div_nonneg (by linarith) h2.le, (div_le_one h2).mpr (by linarith)⟩
    exact ⟨Finset.prod_nonneg fun j h => (hj j h).1, Finset.prod_le_one (fun j h => (hj j h).1) fun j h => (hj j h).2⟩

theorem relative_tendsto (i : Nat) : Tendsto (fun n => relativeCoefficient n i) atTop (𝓝 1) := by
  have h : ∀ j : Nat, Tendsto (fun n : Nat => (2 * (n - j) / (2 * n - j) : ℝ)) atTop (𝓝 1) := by
    intro j
    have h1 : Tendsto (fun n : Nat => (2 * n - j : ℝ)) atTop atTop :=
      _root_.Filter.tendsto_atTop_add_const_right _ (-(j : ℝ))
        (tendsto_natCast_atTop_atTop.const_mul_atTop (by norm_num : (0 : ℝ) < 2))
    have h2 : Tendsto (fun n : Nat => 1 - (j : ℝ) / (2 * n - j)) atTop (𝓝 (1 - 0)) :=
      tendsto_const_nhds.sub (h1.const_div_atTop _)
    rw [sub_zero] at h2
    refine h2.congr' ?_
    filter_upwards [h1.eventually_gt_atTop 0] with n hn
    field_simp
    ring
  have := tendsto_finsetProd (Finset.range i) fun j _ => h j
  simpa [relativeCoefficient] using this

/-- the reverse Bessel polynomials approach the exponential function -/
theorem reverseBessel_tendsto (s : ℂ) :
    Tendsto (fun n => reverseBessel n s / reverseBessel n 0) atTop (𝓝 (Complex.exp s)) := by
  have hs : ∀ n, reverseBessel n s / reverseBessel n 0 =
      ∑' i, (relativeCoefficient n i : ℂ) * (s ^ i / i.factorial) := by
    intro n
    have c0 : (besselCoefficient 0 n : ℂ) ≠ 0 := by exact_mod_cast (coefficient_pos 0 n).ne'
    rw [reverseBessel_sum, reverseBessel_zero, tsum_eq_sum (s := Finset.range (n + 1)), Finset.sum_div]
    · refine Finset.sum_congr rfl fun i hi => ?_
      have h := congrArg (fun x : ℝ => (x : ℂ)) (relative_value n i (by have := Finset.mem_range.mp hi; omega))
      push_cast at h
      rw [h]
      have hi : (i.factorial : ℂ) ≠ 0 := by exact_mod_cast i.factorial_ne_zero
      field_simp
    · intro i hi
      rw [relative_zero n i (by simpa using hi)]
      simp
  have he : Complex.exp s = ∑' i : Nat, s ^ i / i.factorial := by
    rw [Complex.exp_eq_exp_ℂ]
    exact (NormedSpace.expSeries_div_hasSum_exp s).tsum_eq.symm
  rw [he]
  simp_rw [hs]
  refine tendsto_tsum_of_dominated_convergence (bound := fun i => ‖s ^ i / i.factorial‖) ?_ ?_ ?_
  · exact (NormedSpace.norm_expSeries_div_summable s)
  · intro i
    have := ((Complex.continuous_ofReal.tendsto 1).comp (relative_tendsto i)).mul_const (s ^ i / i.factorial)
    simpa using this
  · refine _root_.Filter.Eventually.of_forall fun n i => ?_
    rw [norm_mul]
    have := relative_bounds n i
    rw [Complex.norm_real, Real.norm_eq_abs, abs_of_nonneg this.1]
    exact mul_le_of_le_one_left (norm_nonneg _) this.2

/-! ### The filters -/

theorem channels_nonempty : Nonempty (Channels ℝ ℂ) := ⟨delayFilter 0⟩

theorem sq_tendsto {u : Nat → ℂ} {c : ℝ} (h : Tendsto (fun n => ‖u n‖ ^ 2) atTop (𝓝 (c ^ 2))) (hc : 0 ≤ c) :
    Tendsto (fun n => ‖u n‖) atTop (𝓝 c) := by
  have := (Real.continuous_sqrt.tendsto _).comp h
  simpa [Function.comp_def, Real.sqrt_sq, hc] using this

/-- C128: With rising order, the magnitudes of the Butterworth filters approach that of an ideal filter: one in the pass band
and zero in the stop band. -/
theorem C128_butterworth (mem : ℂ) (n : Nat) (cutoff : ℝ) (hc : 0 < cutoff) (highpass : Bool) :
    ∃ (a : Nat → Channels ℝ ℂ) (H : Nat → ℝ → ℂ),
      (∀ order, 0 < order → butterworthFilter complexEnv (n + 3) cutoff order highpass = .ok (a order) ∧
        HasTransfer mem (a order) (H order)) ∧
      ∀ f, 0 < f → f ≠ cutoff →
        (InPassBand cutoff highpass f → Tendsto (fun order => ‖H order f‖) atTop (𝓝 1)) ∧
        (InStopBand cutoff highpass f → Tendsto (fun order => ‖H order f‖) atTop (𝓝 0)) := by
  have h := fun order : Nat => fun ho : 0 < order => butterworth_transfer mem n cutoff hc order ho highpass
  have := channels_nonempty
  choose! a H ha ht hm using h
  refine ⟨a, H, fun o ho => ⟨ha o ho, ht o ho⟩, fun f hf hne => ?_⟩
  set x := if highpass then cutoff / f else f / cutoff with hx
  have hx0 : 0 < x := by rw [hx]; split <;> positivity
  have hev : ∀ᶠ order : Nat in atTop, 1 / (1 + (x ^ 2) ^ order) = ‖H order f‖ ^ 2 := by
    filter_upwards [_root_.Filter.eventually_gt_atTop 0] with o ho
    rw [hm o ho f hf, pow_mul]
  constructor
  · intro hp
    have hx1 : x < 1 := by
      unfold InPassBand at hp
      rw [hx]
      cases highpass
      · exact (div_lt_one hc).mpr (lt_of_le_of_ne hp hne)
      · exact (div_lt_one hf).mpr (lt_of_le_of_ne hp (Ne.symm hne))
    refine sq_tendsto ?_ zero_le_one
    have h1 : Tendsto (fun o : Nat => (x ^ 2) ^ o) atTop (𝓝 0) :=
      tendsto_pow_atTop_nhds_zero_of_lt_one (by positivity) (by nlinarith)
    have h2 : Tendsto (fun o : Nat => 1 / (1 + (x ^ 2) ^ o)) atTop (𝓝 (1 / (1 + 0))) :=
      (tendsto_const_nhds.div (tendsto_const_nhds.add h1) (by norm_num))
    have h3 := h2.congr' hev
    simpa using h3
  · intro hp
    have hx1 : 1 < x := by
      unfold InStopBand at hp
      rw [hx]
      cases highpass
      · exact (one_lt_div hc).mpr (lt_of_le_of_ne hp (Ne.symm hne))
      · exact (one_lt_div hf).mpr (lt_of_le_of_ne hp hne)
    refine sq_tendsto ?_ le_rfl
    have h1 : Tendsto (fun o : Nat => (x ^ 2) ^ o) atTop atTop :=
      tendsto_pow_atTop_atTop_of_one_lt (by nlinarith)
    have h2 : Tendsto (fun o : Nat => 1 / (1 + (x ^ 2) ^ o)) atTop (𝓝 0) :=
      (_root_.Filter.tendsto_atTop_add_const_left _ _ h1).const_div_atTop _
    have h3 := h2.congr' hev
    simpa using h3

/-- C128: At the cutoff frequency, the Butterworth filters of all orders transmit half of the power. -/
theorem C128_cutoff (mem : ℂ) (n : Nat) (cutoff : ℝ) (hc : 0 < cutoff) (highpass : Bool) (order : Nat) (ho : 0 < order) :
    ∃ a x, butterworthFilter complexEnv (n + 3) cutoff order highpass = .ok a ∧
      a.call complexEnv mem cutoff = [some x] ∧ ‖x‖ ^ 2 = 1 / 2 := by
  obtain ⟨a, H, h1, h2, h3⟩ := butterworth_transfer mem n cutoff hc order ho highpass
  refine ⟨a, H cutoff, h1, h2 cutoff hc, ?_⟩
  rw [h3 cutoff hc, div_self hc.ne']
  norm_num

/-- C128: With rising order, the magnitudes of the Chebyshev filters of type 1 approach zero in the stop band. -/
theorem C128_chebyshev1 (mem : ℂ) (n : Nat) (cutoff ripple : ℝ) (hc : 0 < cutoff) (hr : ripple ≠ 0) (highpass : Bool) :
    ∃ (a : Nat → Channels ℝ ℂ) (H : Nat → ℝ → ℂ),
      (∀ order, 0 < order → chebyshev1Filter complexEnv (n + 3) cutoff ripple order highpass = .ok (a order) ∧
        HasTransfer mem (a order) (H order)) ∧
      ∀ f, 0 < f → f ≠ cutoff → InStopBand cutoff highpass f → Tendsto (fun order => ‖H order f‖) atTop (𝓝 0) := by
  have h := fun order : Nat => fun ho : 0 < order => chebyshev1_transfer mem n cutoff ripple hc hr order ho highpass
  have := channels_nonempty
  choose! a H ha ht hm using h
  refine ⟨a, H, fun o ho => ⟨ha o ho, ht o ho⟩, fun f hf hne hp => ?_⟩
  have he := ripple_pos hr
  set x := if highpass then cutoff / f else f / cutoff with hx
  have hx1 : 1 < x := by
    unfold InStopBand at hp
    rw [hx]
    cases highpass
    · exact (one_lt_div hc).mpr (lt_of_le_of_ne hp (Ne.symm hne))
    · exact (one_lt_div hf).mpr (lt_of_le_of_ne hp hne)
  refine sq_tendsto ?_ le_rfl
  have h1 : Tendsto (fun o : Nat => 1 + (10 ^ (|ripple| / 10) - 1) * (T ℝ o).eval x ^ 2) atTop atTop :=
    _root_.Filter.tendsto_atTop_add_const_left _ _ ((T_tendsto x hx1).const_mul_atTop he)
  have h2 : Tendsto (fun o : Nat => (10 : ℝ) ^ (|ripple| / 10) /
      (1 + (10 ^ (|ripple| / 10) - 1) * (T ℝ o).eval x ^ 2)) atTop (𝓝 0) := h1.const_div_atTop _
  have h0 : (0 : ℝ) ^ 2 = 0 := by norm_num
  rw [h0]
  refine tendsto_of_tendsto_of_tendsto_of_le_of_le' tendsto_const_nhds h2
    (_root_.Filter.Eventually.of_forall fun o => by positivity) ?_
  filter_upwards [_root_.Filter.eventually_gt_atTop 0] with o ho
  rw [hm o ho f hf]
  have : 0 < 1 + ((10 : ℝ) ^ (|ripple| / 10) - 1) * (T ℝ o).eval x ^ 2 := by positivity
  refine div_le_div_of_nonneg_right ?_ this.le
  unfold peak
  split
  · exact le_rfl
  · linarith

/-- C128: With rising order, the magnitudes of the Chebyshev filters of type 2 approach one in the pass band. -/
theorem C128_chebyshev2 (mem : ℂ) (n : Nat) (cutoff ripple : ℝ) (hc : 0 < cutoff) (hr : ripple ≠ 0) (highpass : Bool) :
    ∃ (a : Nat → Channels ℝ ℂ) (H : Nat → ℝ → ℂ),
      (∀ order, 0 < order → chebyshev2Filter complexEnv (n + 4) cutoff ripple order highpass = .ok (a order) ∧
        HasTransfer mem (a order) (H order)) ∧
      ∀ f, 0 < f → f ≠ cutoff → InPassBand cutoff highpass f → Tendsto (fun order => ‖H order f‖) atTop (𝓝 1) := by
  have h : ∀ order : Nat, 0 < order → ∃ a H, chebyshev2Filter complexEnv (n + 4) cutoff ripple order highpass = .ok a ∧
      HasTransfer mem a H ∧ ∀ f, 0 < f → ‖H f‖ ^ 2 = chebyshev2Spec cutoff ripple order highpass f := by
    intro order ho
    obtain ⟨a, h1, -, h2, -⟩ := C63_magnitude_partial mem n cutoff ripple hc hr order ho highpass
    choose! H h3 h4 using h2
    exact ⟨a, H, h1, h3, h4⟩
  have := channels_nonempty
  choose! a H ha ht hm using h
  refine ⟨a, H, fun o ho => ⟨ha o ho, ht o ho⟩, fun f hf hne hp => ?_⟩
  have he := ripple_pos hr
  set x := if highpass then f / cutoff else cutoff / f with hx
  have hx1 : 1 < x := by
    unfold InPassBand at hp
    rw [hx]
    cases highpass
    · exact (one_lt_div hf).mpr (lt_of_le_of_ne hp hne)
    · exact (one_lt_div hc).mpr (lt_of_le_of_ne hp (Ne.symm hne))
  refine sq_tendsto ?_ zero_le_one
  have h1 : Tendsto (fun o : Nat => (T ℝ o).eval x ^ 2 + ((10 : ℝ) ^ (|ripple| / 10) - 1)) atTop atTop :=
    _root_.Filter.tendsto_atTop_add_const_right _ _ (T_tendsto x hx1)
  have h2 : Tendsto (fun o : Nat => 1 - ((10 : ℝ) ^ (|ripple| / 10) - 1) /
      ((T ℝ o).eval x ^ 2 + ((10 : ℝ) ^ (|ripple| / 10) - 1))) atTop (𝓝 (1 - 0)) :=
    tendsto_const_nhds.sub (h1.const_div_atTop _)
  rw [show (1 : ℝ) ^ 2 = 1 - 0 by norm_num]
  refine h2.congr' ?_
  filter_upwards [_root_.Filter.eventually_gt_atTop 0] with o ho
  rw [hm o ho f hf]
  unfold chebyshev2Spec
  dsimp only
  rw [← hx]
  have : 0 < (T ℝ o).eval x ^ 2 + ((10 : ℝ) ^ (|ripple| / 10) - 1) := by positivity
  field_simp
  ring

theorem bessel_tendsto (mem : ℂ) (cutoff : ℝ) (hc : 0 < cutoff) (highpass : Bool) :
    ∃ (a : Nat → Channels ℝ ℂ) (H : Nat → ℝ → ℂ),
      (∀ order, besselFilter cutoff order highpass = .ok (a order) ∧ HasTransfer mem (a order) (H order)) ∧
      ∀ f, 0 < f → Tendsto (fun order => H order f) atTop
        (𝓝 (Complex.exp (-(if highpass then cutoff / (I * f) else I * f / cutoff)))) := by
  choose a h1 _ h2 using fun order => C38_value mem cutoff hc order highpass
  refine ⟨a, fun order f => reverseBessel order 0 / reverseBessel order
    (if highpass then cutoff / (I * f) else I * f / cutoff),
    fun order => ⟨h1 order, fun f hf => h2 order f hf.le fun _ => hf.ne'⟩, fun f hf => ?_⟩
  have h := (reverseBessel_tendsto (if highpass then cutoff / (I * f) else I * f / cutoff)).inv₀ (Complex.exp_ne_zero _)
  rw [Complex.exp_neg]
  refine h.congr fun n => ?_
  rw [inv_div]

/-- C128: With rising order, the Bessel lowpass filters approach the delay filter with the delay, that the Bessel filters have
at low frequencies. -/
theorem C128_bessel (mem : ℂ) (cutoff : ℝ) (hc : 0 < cutoff) :
    ∃ (a : Nat → Channels ℝ ℂ) (H : Nat → ℝ → ℂ),
      (∀ order, besselFilter cutoff order false = .ok (a order) ∧ HasTransfer mem (a order) (H order)) ∧
      ∀ f, 0 < f → ∃ x, (delayFilter (1 / (2 * Real.pi * cutoff))).call complexEnv mem f = [some x] ∧
        Tendsto (fun order => H order f) atTop (𝓝 x) := by
  obtain ⟨a, H, h1, h2⟩ := bessel_tendsto mem cutoff hc false
  refine ⟨a, H, h1, fun f hf => ⟨_, C39_value mem _ f hf.le, ?_⟩⟩
  have h := h2 f hf
  have hpi : (Real.pi : ℂ) ≠ 0 := by exact_mod_cast Real.pi_ne_zero
  have hc' : (cutoff : ℂ) ≠ 0 := by exact_mod_cast hc.ne'
  have e : -(I * f / cutoff) = -((2 * Real.pi * f * (1 / (2 * Real.pi * cutoff)) : ℝ) : ℂ) * I := by
    push_cast
    field_simp
  simp only [Bool.false_eq_true, if_false] at h
  rw [e] at h
  exact h

/-- C128: The cutoff frequency of the Bessel filters does not separate a pass band from a stop band: with rising order, the
magnitudes of lowpass and highpass filters approach one at every frequency. -/
theorem C128_bessel_magnitude (mem : ℂ) (cutoff : ℝ) (hc : 0 < cutoff) (highpass : Bool) :
    ∃ (a : Nat → Channels ℝ ℂ) (H : Nat → ℝ → ℂ),
      (∀ order, besselFilter cutoff order highpass = .ok (a order) ∧ HasTransfer mem (a order) (H order)) ∧
      ∀ f, 0 < f → Tendsto (fun order => ‖H order f‖) atTop (𝓝 1) := by
  obtain ⟨a, H, h1, h2⟩ := bessel_tendsto mem cutoff hc highpass
  refine ⟨a, H, h1, fun f hf => ?_⟩
  have h := (h2 f hf).norm
  have hf' : (f : ℂ) ≠ 0 := by exact_mod_cast hf.ne'
  have e : -(if highpass then (cutoff : ℂ) / (I * f) else I * f / cutoff) =
      ((if highpass then cutoff / f else -(f / cutoff) : ℝ) : ℂ) * I := by
    cases highpass
    · push_cast
      simp
      ring
    · simp only [if_true]
      push_cast
      have : (I : ℂ) ≠ 0 := Complex.I_ne_zero
      field_simp
      rw [Complex.I_sq]
      ring
  rw [e, Complex.norm_exp_ofReal_mul_I] at h
  exact h

/-- C128: For a vanishing ripple, the magnitudes of the Chebyshev filters of type 1 approach one at every frequency. (With a
ripple of zero, the filter is a Butterworth filter. See `C128_jump`.) -/
theorem C128_ripple (mem : ℂ) (n : Nat) (cutoff : ℝ) (hc : 0 < cutoff) (order : Nat) (ho : 0 < order) (highpass : Bool) :
    ∃ (a : ℝ → Channels ℝ ℂ) (H : ℝ → ℝ → ℂ),
      (∀ ripple, ripple ≠ 0 → chebyshev1Filter complexEnv (n + 3) cutoff ripple order highpass = .ok (a ripple) ∧
        HasTransfer mem (a ripple) (H ripple)) ∧
      ∀ f, 0 < f → Tendsto (fun ripple => ‖H ripple f‖ ^ 2) (𝓝[≠] 0) (𝓝 1) := by
  have h := fun ripple : ℝ => fun hr : ripple ≠ 0 => chebyshev1_transfer mem n cutoff ripple hc hr order ho highpass
  have := channels_nonempty
  choose! a H ha ht hm using h
  refine ⟨a, H, fun o ho => ⟨ha o ho, ht o ho⟩, fun f hf => ?_⟩
  set x := if highpass then cutoff / f else f / cutoff with hx
  have hp : Tendsto (fun ripple : ℝ => (10 : ℝ) ^ (|ripple| / 10)) (𝓝[≠] 0) (𝓝 1) := by
    have hcont : Continuous fun ripple : ℝ => (10 : ℝ) ^ (|ripple| / 10) :=
      continuous_const.rpow (continuous_abs.div_const _) fun _ => Or.inl (by norm_num)
    have := (hcont.tendsto 0).mono_left (nhdsWithin_le_nhds (s := {0}ᶜ))
    simpa using this
  have hpk : Tendsto (fun ripple : ℝ => peak ripple order) (𝓝[≠] 0) (𝓝 1) := by
    unfold peak
    split
    · exact hp
    · exact tendsto_const_nhds
  have h3 : Tendsto (fun ripple : ℝ => peak ripple order /
      (1 + ((10 : ℝ) ^ (|ripple| / 10) - 1) * (T ℝ order).eval x ^ 2)) (𝓝[≠] 0)
      (𝓝 (1 / (1 + (1 - 1) * (T ℝ order).eval x ^ 2))) :=
    hpk.div (tendsto_const_nhds.add ((hp.sub tendsto_const_nhds).mul tendsto_const_nhds)) (by norm_num)
  have h4 : (1 : ℝ) / (1 + (1 - 1) * (T ℝ order).eval x ^ 2) = 1 := by norm_num
  rw [h4] at h3
  refine h3.congr' ?_
  filter_upwards [self_mem_nhdsWithin] with r hr
  rw [hm r hr f hf]

/-- C128: The jump, which the documentation mentions: without ripple, the filter transmits half of the power at the cutoff
frequency. -/
theorem C128_jump (mem : ℂ) (n : Nat) (cutoff : ℝ) (hc : 0 < cutoff) (order : Nat) (ho : 0 < order) (highpass : Bool) :
    ∃ a x, chebyshev1Filter complexEnv (n + 3) cutoff 0 order highpass = .ok a ∧
      a.call complexEnv mem cutoff = [some x] ∧ ‖x‖ ^ 2 = 1 / 2 := by
  obtain ⟨a, x, h1, h2, h3⟩ := C128_cutoff mem n cutoff hc highpass order ho
  rw [C62_no_ripple]
  unfold butterworthFilter at h1
  cases ht : butterworth complexEnv (n + 3) cutoff order highpass with
  | error e =>
    rw [ht] at h1
    cases h1
  | ok t =>
    rw [ht] at h1
    cases h1
    exact ⟨_, x, rfl, h2, h3⟩

/-! ### Examples -/

example : InStopBand 1000 false 2000 ∧ InPassBand 1000 true 2000 ∧ (2000 : ℝ) ≠ 1000 := by
  unfold InStopBand InPassBand
  norm_num

end Filter
end Verif
