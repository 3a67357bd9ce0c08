import Verif.ChebyshevOptimalProps
import Verif.BesselDelayProps
import Verif.WeightingProps
import Mathlib.Analysis.Polynomial.Basic
import Mathlib.Analysis.SpecialFunctions.Log.Base

/-
C123: the slopes of the filters (`_data/_filters/_butterworth.py`, `_bessel.py`, `_chebyshev.py`, `_weighting.py`): far from
the cutoff frequency, the level of a Butterworth, a Bessel or a Chebyshev filter of type 1 with the order n changes by 20·n
decibels per decade.
-/

namespace Verif
namespace Filter

open Polynomial (C X)
open Polynomial.Chebyshev (T U)
open scoped Topology

/-! ### Specification -/

/-- the level of the transfer function in decibels -/
noncomputable def levelOf (H : ℝ → ℂ) (f : ℝ) : ℝ := 20 * Real.logb 10 ‖H f‖

/-- In the limit `l`, the level changes by `d` decibels, when the frequency is increased by one decade. -/
def SlopeAt (H : ℝ → ℂ) (l : _root_.Filter ℝ) (d : ℝ) : Prop :=
  Filter.Tendsto (fun f => levelOf H (10 * f) - levelOf H f) l (𝓝 d)

/-- the end of the frequency axis in the stop band -/
def stopEnd (highpass : Bool) : _root_.Filter ℝ := if highpass then 𝓝[>] 0 else Filter.atTop

/-! ### From asymptotes to slopes -/

/-- an end of the frequency axis: it contains only positive frequencies and does not change, when they are scaled -/
structure IsEnd (l : _root_.Filter ℝ) : Prop where
  pos : ∀ᶠ f in l, 0 < f
  scale : Filter.Tendsto (fun f => 10 * f) l l

theorem isEnd_atTop : IsEnd Filter.atTop :=
  ⟨Filter.eventually_gt_atTop 0, Filter.tendsto_id.const_mul_atTop (by norm_num)⟩

theorem isEnd_zero : IsEnd (𝓝[>] (0 : ℝ)) := by
  refine ⟨self_mem_nhdsWithin, ?_⟩
  refine tendsto_nhdsWithin_iff.2 ⟨?_, ?_⟩
  · have : Filter.Tendsto (fun f : ℝ => 10 * f) (𝓝 0) (𝓝 (10 * 0)) := (continuous_const.mul continuous_id).tendsto 0
    rw [mul_zero] at this
    exact this.mono_left nhdsWithin_le_nhds
  · filter_upwards [self_mem_nhdsWithin] with f hf
    exact mul_pos (show (0 : ℝ) < 10 by norm_num) hf

theorem isEnd_stop (highpass : Bool) : IsEnd (stopEnd highpass) := by
  cases highpass
  · exact isEnd_atTop
  · exact isEnd_zero

/-- If the squared magnitude is asymptotically proportional to the power `-2·m` of the frequency, the slope is `-20·m`
decibels per decade. -/
theorem slope_of_asymptote {H : ℝ → ℂ} {l : _root_.Filter ℝ} (hl : IsEnd l) (m : ℤ) {c : ℝ} (hc : 0 < c)
    (h : Filter.Tendsto (fun f => ‖H f‖ ^ 2 * f ^ (2 * m)) l (𝓝 c)) : SlopeAt H l (-(20 * m)) := by
  have h10 := h.comp hl.scale
  have hpos : ∀ᶠ f in l, 0 < ‖H f‖ ^ 2 * f ^ (2 * m) := h.eventually (lt_mem_nhds hc)
  have hpos10 := hl.scale.eventually hpos
  have L : Filter.Tendsto (fun f => 10 * Real.logb 10 (‖H (10 * f)‖ ^ 2 * (10 * f) ^ (2 * m)) -
      10 * Real.logb 10 (‖H f‖ ^ 2 * f ^ (2 * m)) - 20 * m) l (𝓝 (-(20 * m))) := by
    have a : Filter.Tendsto (fun f => Real.logb 10 (‖H f‖ ^ 2 * f ^ (2 * m))) l (𝓝 (Real.logb 10 c)) :=
      ((Real.continuousAt_log hc.ne').div_const _).tendsto.comp h
    have b : Filter.Tendsto (fun f => Real.logb 10 (‖H (10 * f)‖ ^ 2 * (10 * f) ^ (2 * m))) l (𝓝 (Real.logb 10 c)) :=
      a.comp hl.scale
    have := ((b.const_mul 10).sub (a.const_mul 10)).sub_const (20 * (m : ℝ))
    rwa [sub_self, zero_sub] at this
  refine L.congr' ?_
  filter_upwards [hpos, hpos10, hl.pos] with f h1 h2 hf
  have n1 : ‖H f‖ ≠ 0 := by
    intro e
    rw [e] at h1
    norm_num at h1
  have n2 : ‖H (10 * f)‖ ≠ 0 := by
    intro e
    rw [e] at h2
    norm_num at h2
  have p1 : f ^ (2 * m) ≠ 0 := zpow_ne_zero _ hf.ne'
  have p2 : (10 * f) ^ (2 * m) ≠ 0 := zpow_ne_zero _ (by positivity)
  have lz : ∀ x : ℝ, Real.logb 10 (x ^ (2 * m)) = 2 * m * Real.logb 10 x := by
    intro x
    unfold Real.logb
    rw [Real.log_zpow]
    push_cast
    ring
  have lp : ∀ x : ℝ, Real.logb 10 (x ^ 2) = 2 * Real.logb 10 x := by
    intro x
    rw [Real.logb_pow]
    push_cast
    ring
  rw [Real.logb_mul (pow_ne_zero 2 n2) p2, Real.logb_mul (pow_ne_zero 2 n1) p1, lz, lz, lp, lp,
    Real.logb_mul (by norm_num) hf.ne', Real.logb_self_eq_one (by norm_num)]
  unfold levelOf
  ring

/-- the relative frequency, that is large in the stop band -/
theorem tendsto_relative {cutoff : ℝ} (hc : 0 < cutoff) (highpass : Bool) :
    Filter.Tendsto (fun f => if highpass then cutoff / f else f / cutoff) (stopEnd highpass) Filter.atTop := by
  cases highpass
  · exact Filter.tendsto_id.atTop_div_const hc
  · show Filter.Tendsto (fun f => cutoff / f) (𝓝[>] 0) Filter.atTop
    exact (tendsto_inv_nhdsGT_zero.const_mul_atTop hc).congr fun f => (div_eq_mul_inv _ _).symm

/-- a filter, whose squared magnitude is the inverse of a polynomial of the relative frequency -/
theorem allpole_asymptote {H : ℝ → ℂ} {cutoff : ℝ} (hc : 0 < cutoff) (highpass : Bool) (n : Nat) (k : ℝ)
    (P : Polynomial ℝ) (hP : P.natDegree ≤ 2 * n) {c : ℝ} (hlead : P.coeff (2 * n) = c) (hc0 : c ≠ 0)
    (h : ∀ f, 0 < f → ‖H f‖ ^ 2 = k / P.eval (if highpass then cutoff / f else f / cutoff)) :
    Filter.Tendsto (fun f => ‖H f‖ ^ 2 * (if highpass then cutoff / f else f / cutoff) ^ (2 * n)) (stopEnd highpass)
      (𝓝 (k / c)) := by
  have hd : P.natDegree = 2 * n := Polynomial.natDegree_eq_of_le_of_coeff_ne_zero hP (by rw [hlead]; exact hc0)
  have hP0 : P ≠ 0 := by
    rintro rfl
    exact hc0 (by rw [← hlead]; simp)
  have hl : P.leadingCoeff = c := by rw [Polynomial.leadingCoeff, hd, hlead]
  have t := Polynomial.div_tendsto_atTop_leadingCoeff_div_of_degree_eq (P := X ^ (2 * n)) (Q := P)
    (by rw [Polynomial.degree_X_pow, Polynomial.degree_eq_natDegree hP0, hd])
  have t2 := ((t.comp (tendsto_relative hc highpass)).const_mul k)
  rw [(Polynomial.monic_X_pow (2 * n)).leadingCoeff, hl, mul_one_div] at t2
  refine t2.congr' ?_
  filter_upwards [(isEnd_stop highpass).pos] with f hf
  rw [h f hf]
  simp only [Function.comp, Polynomial.eval_pow, Polynomial.eval_X]
  ring

/-- the slope in the stop band -/
theorem stop_slope {H : ℝ → ℂ} {cutoff : ℝ} (hc : 0 < cutoff) (highpass : Bool) (n : Nat) {c : ℝ} (h0 : 0 < c)
    (h : Filter.Tendsto (fun f => ‖H f‖ ^ 2 * (if highpass then cutoff / f else f / cutoff) ^ (2 * n)) (stopEnd highpass)
      (𝓝 c)) : SlopeAt H (stopEnd highpass) (if highpass then 20 * n else -(20 * n)) := by
  cases highpass
  · have := slope_of_asymptote (H := H) (isEnd_stop false) (n : ℤ) (c := c * cutoff ^ (2 * n)) (by positivity)
      ((h.mul_const (cutoff ^ (2 * n))).congr fun f => by
        rw [if_neg (by simp), div_pow, mul_assoc, div_mul_cancel₀ _ (by positivity)]
        norm_cast)
    simpa using this
  · have := slope_of_asymptote (H := H) (isEnd_stop true) (-(n : ℤ)) (c := c / cutoff ^ (2 * n)) (by positivity)
      ((h.div_const (cutoff ^ (2 * n))).congr fun f => by
        rw [if_pos rfl, div_pow, mul_neg, zpow_neg]
        norm_cast
        field_simp)
    simpa using this

/-! ### C123 -/

/-- C123: Far from the cutoff frequency, the magnitude of a Butterworth filter is the power of the relative frequency; the
slope of a filter with the order n is 20·n decibels per decade. -/
theorem C123_butterworth (mem : ℂ) (n : Nat) (cutoff : ℝ) (hc : 0 < cutoff) (order : Nat) (ho : 0 < order)
    (highpass : Bool) :
    ∃ a H, butterworthFilter complexEnv (n + 3) cutoff order highpass = .ok a ∧ HasTransfer mem a H ∧
      Filter.Tendsto (fun f => ‖H f‖ ^ 2 * (if highpass then cutoff / f else f / cutoff) ^ (2 * order))
        (stopEnd highpass) (𝓝 1) ∧
      SlopeAt H (stopEnd highpass) (if highpass then 20 * order else -(20 * order)) := by
  obtain ⟨a, H, h1, h2, h3⟩ := butterworth_transfer mem n cutoff hc order ho highpass
  have t := allpole_asymptote (H := H) hc highpass order 1 (C 1 + X ^ (2 * order)) (c := 1)
    (by refine (Polynomial.natDegree_add_le _ _).trans ?_; simp)
    (by
      rw [Polynomial.coeff_add, Polynomial.coeff_C, if_neg (by omega), Polynomial.coeff_X_pow, if_pos rfl, zero_add])
    one_ne_zero (fun f hf => by rw [h3 f hf]; simp)
  rw [div_one] at t
  exact ⟨a, H, h1, h2, t, stop_slope hc highpass order one_pos t⟩

/-- C123: The same for the Chebyshev filters of type 1, which are steeper than the Butterworth filters at first: their
asymptote has been lowered by the ripple and by 6 decibels for each order above one. -/
theorem C123_chebyshev1 (mem : ℂ) (n : Nat) (cutoff ripple : ℝ) (hc : 0 < cutoff) (hr : ripple ≠ 0) (order : Nat)
    (ho : 0 < order) (highpass : Bool) :
    ∃ a H, chebyshev1Filter complexEnv (n + 3) cutoff ripple order highpass = .ok a ∧ HasTransfer mem a H ∧
      Filter.Tendsto (fun f => ‖H f‖ ^ 2 * (if highpass then cutoff / f else f / cutoff) ^ (2 * order))
        (stopEnd highpass) (𝓝 (peak ripple order / ((10 ^ (|ripple| / 10) - 1) * 4 ^ (order - 1)))) ∧
      SlopeAt H (stopEnd highpass) (if highpass then 20 * order else -(20 * order)) := by
  obtain ⟨a, H, h1, h2, h3⟩ := chebyshev1_transfer mem n cutoff ripple hc hr order ho highpass
  have he := ripple_pos hr
  have hd : (T ℝ order).natDegree = order := by simp
  have hk : 0 < peak ripple order := by
    unfold peak
    split
    · positivity
    · exact one_pos
  have t := allpole_asymptote (H := H) hc highpass order (peak ripple order)
    (C 1 + C (10 ^ (|ripple| / 10) - 1) * T ℝ order ^ 2) (c := (10 ^ (|ripple| / 10) - 1) * 4 ^ (order - 1))
    (by
      refine (Polynomial.natDegree_add_le _ _).trans (max_le (by simp) ?_)
      refine (Polynomial.natDegree_C_mul_le _ _).trans ?_
      refine Polynomial.natDegree_pow_le.trans ?_
      rw [hd])
    (by
      rw [Polynomial.coeff_add, Polynomial.coeff_C, if_neg (by omega), zero_add, Polynomial.coeff_C_mul]
      congr 1
      have e := Polynomial.coeff_pow_mul_natDegree (T ℝ order) 2
      rw [hd] at e
      rw [e, Polynomial.Chebyshev.leadingCoeff_T, ← pow_mul, mul_comm, pow_mul]
      norm_num)
    (by positivity) (fun f hf => by rw [h3 f hf]; simp)
  exact ⟨a, H, h1, h2, t, stop_slope hc highpass order (by positivity) t⟩

/-- C123: The same for the Bessel filters. -/
theorem C123_bessel (cutoff : ℝ) (hc : 0 < cutoff) (order : Nat) (highpass : Bool) :
    ∃ a H, besselFilter cutoff order highpass = .ok a ∧ IsResponse a H ∧
      Filter.Tendsto (fun f => ‖H f‖ ^ 2 * (if highpass then cutoff / f else f / cutoff) ^ (2 * order))
        (stopEnd highpass) (𝓝 (((2 * order - 1).doubleFactorial : ℝ) ^ 2)) ∧
      SlopeAt H (stopEnd highpass) (if highpass then 20 * order else -(20 * order)) := by
  obtain ⟨a, H, ha, hr, hn, -, -⟩ := bessel_response cutoff hc order highpass
  have t := allpole_asymptote (H := H) hc highpass order (squareCoefficient order 0)
    (∑ k ∈ Finset.range (order + 1), C (squareCoefficient order k) * X ^ (2 * k)) (c := 1)
    (by
      refine Polynomial.natDegree_sum_le_of_forall_le _ _ fun k hk => ?_
      refine (Polynomial.natDegree_C_mul_X_pow_le _ _).trans ?_
      have := Finset.mem_range.1 hk
      omega)
    (by
      rw [Polynomial.finsetSum_coeff, Finset.sum_eq_single order]
      · rw [Polynomial.coeff_C_mul, Polynomial.coeff_X_pow, if_pos rfl, mul_one, (squareCoefficient_spec order).2.1]
      · intro k _ hk
        rw [Polynomial.coeff_C_mul, Polynomial.coeff_X_pow, if_neg (by omega), mul_zero]
      · intro h
        simp at h)
    one_ne_zero (fun f hf => by
      rw [hn f hf]
      congr 1
      unfold square
      rw [Polynomial.eval_finsetSum]
      refine Finset.sum_congr rfl fun k _ => ?_
      have e : relative cutoff highpass f ^ 2 = (if highpass then cutoff / f else f / cutoff) ^ 2 := by
        unfold relative
        cases highpass <;> simp
      rw [e]
      simp [pow_mul])
  rw [div_one] at t
  refine ⟨a, H, ha, hr, by rw [← squareCoefficient_factorial]; exact t,
    stop_slope hc highpass order (squareCoefficient_spec order).1 t⟩

example (mem : ℂ) : ∃ a H, butterworthFilter complexEnv 3 1000 4 false = .ok a ∧ HasTransfer mem a H ∧
    SlopeAt H Filter.atTop (-80) := by
  obtain ⟨a, H, h1, h2, -, h3⟩ := C123_butterworth mem 0 1000 (by norm_num) 4 (by norm_num) false
  refine ⟨a, H, h1, h2, ?_⟩
  norm_num [stopEnd] at h3
  exact h3

/-- the inverse of the relative frequency becomes zero -/
theorem tendsto_inverse {cutoff : ℝ} (hc : 0 < cutoff) (highpass : Bool) :
    Filter.Tendsto (fun f => if highpass then f / cutoff else cutoff / f) (stopEnd highpass) (𝓝[≠] 0) := by
  have h := (tendsto_inv_atTop_nhdsGT_zero (𝕜 := ℝ)).comp (tendsto_relative hc highpass)
  refine (h.mono_right (nhdsWithin_mono _ fun x hx => ne_of_gt hx)).congr fun f => ?_
  cases highpass <;> simp

theorem slope_odd {n : Nat} (hn : n % 2 = 1) :
    Filter.Tendsto (fun x : ℝ => ((T ℝ n).eval x / x) ^ 2) (𝓝[≠] 0) (𝓝 ((n : ℝ) ^ 2)) := by
  have hodd : Odd (n : ℤ) := by exact_mod_cast Nat.odd_iff.2 hn
  have d := hasDerivAt_iff_tendsto_slope_zero.1 ((T ℝ n).hasDerivAt 0)
  rw [Polynomial.Chebyshev.T_derivative_eq_U, Polynomial.Chebyshev.T_eval_zero_of_odd ℝ hodd] at d
  have hu : ((U ℝ ((n : ℤ) - 1)).eval 0) ^ 2 = 1 := by
    rw [Polynomial.Chebyshev.U_eval_zero_of_even ℝ (by obtain ⟨k, hk⟩ := hodd; exact ⟨k, by omega⟩)]
    rcases Int.even_or_odd (((n : ℤ) - 1) / 2) with h | h
    · rw [Int.negOnePow_even _ h]; norm_num
    · rw [Int.negOnePow_odd _ h]; norm_num
  have := d.pow 2
  rw [Polynomial.eval_mul, mul_pow, hu, mul_one] at this
  simp only [Int.cast_natCast, Polynomial.eval_natCast] at this
  refine this.congr fun x => ?_
  simp [div_eq_inv_mul]

/-- C123: The slopes of the Chebyshev filters of type 2 do not depend on the order: the level of filters with an odd order
falls by 20 decibels per decade, the level of filters with an even order does not fall any further than specified by the
ripple. -/
theorem C123_chebyshev2 (mem : ℂ) (n : Nat) (cutoff ripple : ℝ) (hc : 0 < cutoff) (hr : ripple ≠ 0) (order : Nat)
    (ho : 0 < order) (highpass : Bool) :
    ∃ a H, chebyshev2Filter complexEnv (n + 4) cutoff ripple order highpass = .ok a ∧ HasTransfer mem a H ∧
      (order % 2 = 1 →
        Filter.Tendsto (fun f => ‖H f‖ ^ 2 * (if highpass then cutoff / f else f / cutoff) ^ 2) (stopEnd highpass)
          (𝓝 ((order : ℝ) ^ 2 / (10 ^ (|ripple| / 10) - 1))) ∧
        SlopeAt H (stopEnd highpass) (if highpass then 20 else -20)) ∧
      (order % 2 = 0 →
        Filter.Tendsto (fun f => ‖H f‖ ^ 2) (stopEnd highpass) (𝓝 (1 / 10 ^ (|ripple| / 10))) ∧
        SlopeAt H (stopEnd highpass) 0) := by
  obtain ⟨a, h1, -, h2, -⟩ := C63_magnitude_partial mem n cutoff ripple hc hr order ho highpass
  have h2 : ∀ f, ∃ x, 0 < f → a.call complexEnv mem f = [some x] ∧
      ‖x‖ ^ 2 = chebyshev2Spec cutoff ripple order highpass f := by
    intro f
    by_cases hf : 0 < f
    · obtain ⟨x, hx⟩ := h2 f hf
      exact ⟨x, fun _ => hx⟩
    · exact ⟨0, fun h => absurd h hf⟩
  choose H hH using h2
  have he := ripple_pos hr
  set e := (10 : ℝ) ^ (|ripple| / 10) - 1 with hedef
  have hx := tendsto_inverse hc highpass
  have hc0 : Filter.Tendsto (fun x : ℝ => (T ℝ order).eval x ^ 2) (𝓝[≠] 0) (𝓝 ((T ℝ order).eval 0 ^ 2)) :=
    (((T ℝ order).continuous.tendsto 0).pow 2).mono_left nhdsWithin_le_nhds
  refine ⟨a, H, h1, fun f hf => (hH f hf).1, fun hodd => ?_, fun heven => ?_⟩
  · have hT : (T ℝ order).eval 0 = 0 :=
      Polynomial.Chebyshev.T_eval_zero_of_odd ℝ (by exact_mod_cast Nat.odd_iff.2 hodd)
    rw [hT] at hc0
    have t : Filter.Tendsto (fun f => ‖H f‖ ^ 2 * (if highpass then cutoff / f else f / cutoff) ^ (2 * 1))
        (stopEnd highpass) (𝓝 ((order : ℝ) ^ 2 / e)) := by
      have q := ((slope_odd hodd).div (hc0.add_const e) (by rw [zero_pow two_ne_zero, zero_add]; exact he.ne')).comp hx
      rw [zero_pow two_ne_zero, zero_add] at q
      refine q.congr' ?_
      filter_upwards [(isEnd_stop highpass).pos] with f hf
      rw [(hH f hf).2]
      simp only [Function.comp, chebyshev2Spec, Pi.div_apply, ← hedef]
      have p : (T ℝ order).eval (if highpass then f / cutoff else cutoff / f) ^ 2 + e ≠ 0 := by positivity
      generalize (T ℝ order).eval (if highpass then f / cutoff else cutoff / f) = y at p
      cases highpass
      · simp only [Bool.false_eq_true, if_false, mul_one]
        field_simp
      · simp only [if_true, mul_one]
        field_simp
    refine ⟨t, ?_⟩
    have := stop_slope hc highpass 1 (c := (order : ℝ) ^ 2 / e) (by positivity) t
    simpa using this
  · have hT : (T ℝ order).eval 0 ^ 2 = 1 := by
      rw [Polynomial.Chebyshev.T_eval_zero_of_even ℝ (by exact_mod_cast Nat.even_iff.2 heven)]
      rcases Int.even_or_odd ((order : ℤ) / 2) with h | h
      · rw [Int.negOnePow_even _ h]; norm_num
      · rw [Int.negOnePow_odd _ h]; norm_num
    rw [hT] at hc0
    have t : Filter.Tendsto (fun f => ‖H f‖ ^ 2 * (if highpass then cutoff / f else f / cutoff) ^ (2 * 0))
        (stopEnd highpass) (𝓝 (1 / 10 ^ (|ripple| / 10))) := by
      have q := (hc0.div (hc0.add_const e) (by positivity)).comp hx
      rw [show (1 : ℝ) + e = 10 ^ (|ripple| / 10) by rw [hedef]; ring] at q
      refine q.congr' ?_
      filter_upwards [(isEnd_stop highpass).pos] with f hf
      rw [(hH f hf).2]
      simp only [Function.comp, chebyshev2Spec, mul_zero, pow_zero, mul_one]
      rfl
    refine ⟨by simpa using t, ?_⟩
    have := stop_slope hc highpass 0 (c := 1 / 10 ^ (|ripple| / 10)) (by positivity) t
    simpa using this

/-! ### Weighting filters -/

/-- the slopes of the weighting filters for low and for high frequencies in decibels per decade -/
def weightingSlopes : Weighting → ℤ × ℤ
  | .a => (80, -40)
  | .b => (60, -40)
  | .c => (40, -40)
  | .d => (20, -20)
  | .u => (0, -120)

/-- the exponents of the asymptotes -/
theorem low_asymptote {S g : ℝ → ℝ} (m : ℤ) (hg : ContinuousAt g 0) (h : ∀ f, 0 < f → S f * f ^ (2 * m) = g f) :
    Filter.Tendsto (fun f => S f * f ^ (2 * m)) (𝓝[>] 0) (𝓝 (g 0)) := by
  refine (hg.tendsto.mono_left nhdsWithin_le_nhds).congr' ?_
  filter_upwards [self_mem_nhdsWithin] with f hf
  exact (h f hf).symm

theorem high_asymptote {S g : ℝ → ℝ} (m : ℤ) (hg : ContinuousAt g 0)
    (h : ∀ x, 0 < x → S (1 / x) * (1 / x) ^ (2 * m) = g x) :
    Filter.Tendsto (fun f => S f * f ^ (2 * m)) Filter.atTop (𝓝 (g 0)) := by
  have t := (hg.tendsto.mono_left nhdsWithin_le_nhds).comp (tendsto_inv_atTop_nhdsGT_zero (𝕜 := ℝ))
  refine t.congr' ?_
  filter_upwards [Filter.eventually_gt_atTop 0] with f hf
  have := h f⁻¹ (inv_pos.2 hf)
  rw [one_div, inv_inv] at this
  exact this.symm

theorem weighting_low (w : Weighting) : ∃ (m : ℤ) (c : ℝ), 0 < c ∧ ((weightingSlopes w).1 : ℝ) = -(20 * m) ∧
    Filter.Tendsto (fun f => weightingSpec w f * f ^ (2 * m)) (𝓝[>] 0) (𝓝 c) := by
  obtain ⟨b1, b2, b3⟩ := iec_bounds
  have i2 : 0 < iecF2 := by
    unfold iecF2
    have : Real.sqrt 5 < 3 := (Real.sqrt_lt' (by norm_num)).2 (by norm_num)
    have : 0 < (3 - Real.sqrt 5) / 2 := by linarith
    positivity
  have i3 : 0 < iecF3 := by
    unfold iecF3
    positivity
  have pos : ∀ f, 0 ≤ f → 0 < f ^ 4 - iecB * f ^ 2 + iecC := by
    intro f hf
    have h1 : 0 ≤ -iecB * f ^ 2 := mul_nonneg (neg_pos.2 b1).le (pow_nonneg hf 2)
    have h2 : 0 ≤ f ^ 4 := pow_nonneg hf 4
    linarith
  have cont : ContinuousAt (fun f : ℝ => (1 / (f ^ 4 - iecB * f ^ 2 + iecC)) ^ 2) 0 :=
    ContinuousAt.pow (ContinuousAt.div (by fun_prop) (by fun_prop) (by exact (pos 0 le_rfl).ne')) 2
  cases w with
  | a =>
    refine ⟨-4, _, ?_, by norm_num [weightingSlopes], low_asymptote (g := fun f => 1 / ((f ^ 2 + iecF2 ^ 2) *
      (f ^ 2 + iecF3 ^ 2)) * (1 / (f ^ 4 - iecB * f ^ 2 + iecC)) ^ 2) _ ?_ fun f hf => ?_⟩
    · norm_num
      positivity
    · exact ContinuousAt.mul (ContinuousAt.div (by fun_prop) (by fun_prop) (by positivity)) cont
    · have := pos f hf.le
      simp only [weightingSpec]
      norm_num [zpow_neg]
      field_simp
  | b =>
    refine ⟨-3, _, ?_, by norm_num [weightingSlopes], low_asymptote (g := fun f => 1 / (f ^ 2 + 158.5 ^ 2) *
      (1 / (f ^ 4 - iecB * f ^ 2 + iecC)) ^ 2) _ ?_ fun f hf => ?_⟩
    · norm_num
      positivity
    · exact ContinuousAt.mul (ContinuousAt.div (by fun_prop) (by fun_prop) (by positivity)) cont
    · have := pos f hf.le
      simp only [weightingSpec]
      norm_num [zpow_neg]
      field_simp
  | c =>
    refine ⟨-2, _, ?_, by norm_num [weightingSlopes], low_asymptote (g := fun f =>
      (1 / (f ^ 4 - iecB * f ^ 2 + iecC)) ^ 2) _ cont fun f hf => ?_⟩
    · norm_num
      positivity
    · have := pos f hf.le
      simp only [weightingSpec]
      norm_num [zpow_neg]
      field_simp
  | d =>
    refine ⟨-1, _, ?_, by norm_num [weightingSlopes], low_asymptote (g := fun f =>
      1 / ((f ^ 2 + 79919.29) * (f ^ 2 + 1345600)) *
      (((1037918.48 - f ^ 2) ^ 2 + 1080768.16 * f ^ 2) / ((9837328 - f ^ 2) ^ 2 + 11723776 * f ^ 2))) _ ?_
      fun f hf => ?_⟩
    · norm_num
    · exact ContinuousAt.mul (ContinuousAt.div (by fun_prop) (by fun_prop) (by norm_num))
        (ContinuousAt.div (by fun_prop) (by fun_prop) (by norm_num))
    · have : 0 < (9837328 - f ^ 2) ^ 2 + 11723776 * f ^ 2 := by positivity
      simp only [weightingSpec]
      rw [show (2 * -1 : ℤ) = -((2 : ℕ) : ℤ) by norm_num, zpow_neg, zpow_natCast]
      field_simp
  | u =>
    refine ⟨0, _, ?_, by norm_num [weightingSlopes], low_asymptote (g := weightingSpec .u) _ ?_
      fun f hf => by rw [mul_zero, zpow_zero, mul_one]⟩
    · norm_num [weightingSpec]
    · exact ContinuousAt.div (by fun_prop) (by fun_prop) (by norm_num)

theorem weighting_high (w : Weighting) : ∃ (m : ℤ) (c : ℝ), 0 < c ∧ ((weightingSlopes w).2 : ℝ) = -(20 * m) ∧
    Filter.Tendsto (fun f => weightingSpec w f * f ^ (2 * m)) Filter.atTop (𝓝 c) := by
  obtain ⟨b1, b2, b3⟩ := iec_bounds
  have pos : ∀ x, 0 ≤ x → 0 < 1 - iecB * x ^ 2 + iecC * x ^ 4 := by
    intro f hf
    have h1 : 0 ≤ -iecB * f ^ 2 := mul_nonneg (neg_pos.2 b1).le (pow_nonneg hf 2)
    have h2 : 0 ≤ iecC * f ^ 4 := mul_nonneg b3.le (pow_nonneg hf 4)
    linarith
  have cont : ContinuousAt (fun x : ℝ => (1 / (1 - iecB * x ^ 2 + iecC * x ^ 4)) ^ 2) 0 :=
    ContinuousAt.pow (ContinuousAt.div (by fun_prop) (by fun_prop) (by exact (pos 0 le_rfl).ne')) 2
  have base : ∀ x, 0 < x → (1 / x) ^ 2 / ((1 / x) ^ 4 - iecB * (1 / x) ^ 2 + iecC) =
      x ^ 2 * (1 / (1 - iecB * x ^ 2 + iecC * x ^ 4)) := by
    intro x hx
    have h1 := (pos x hx.le).ne'
    have e : (1 / x) ^ 4 - iecB * (1 / x) ^ 2 + iecC = (1 - iecB * x ^ 2 + iecC * x ^ 4) / x ^ 4 := by
      field_simp
    rw [e]
    field_simp
  cases w with
  | a =>
    refine ⟨2, _, ?_, by norm_num [weightingSlopes], high_asymptote (g := fun x => 1 / ((1 + iecF2 ^ 2 * x ^ 2) *
      (1 + iecF3 ^ 2 * x ^ 2)) * (1 / (1 - iecB * x ^ 2 + iecC * x ^ 4)) ^ 2) _ ?_ fun x hx => ?_⟩
    · norm_num
    · exact ContinuousAt.mul (ContinuousAt.div (by fun_prop) (by fun_prop) (by norm_num)) cont
    · have := pos x hx.le
      simp only [weightingSpec]
      rw [base x hx, show (2 * 2 : ℤ) = ((4 : ℕ) : ℤ) by norm_num, zpow_natCast]
      have e : ∀ c : ℝ, (1 / x) ^ 2 + c = (1 + c * x ^ 2) / x ^ 2 := fun c => by field_simp
      rw [e, e]
      field_simp
  | b =>
    refine ⟨2, _, ?_, by norm_num [weightingSlopes], high_asymptote (g := fun x => 1 / (1 + 158.5 ^ 2 * x ^ 2) *
      (1 / (1 - iecB * x ^ 2 + iecC * x ^ 4)) ^ 2) _ ?_ fun x hx => ?_⟩
    · norm_num
    · exact ContinuousAt.mul (ContinuousAt.div (by fun_prop) (by fun_prop) (by norm_num)) cont
    · have := pos x hx.le
      simp only [weightingSpec]
      rw [base x hx, show (2 * 2 : ℤ) = ((4 : ℕ) : ℤ) by norm_num, zpow_natCast]
      have e : ∀ c : ℝ, (1 / x) ^ 2 + c = (1 + c * x ^ 2) / x ^ 2 := fun c => by field_simp
      rw [e]
      field_simp
  | c =>
    refine ⟨2, _, ?_, by norm_num [weightingSlopes], high_asymptote (g := fun x =>
      (1 / (1 - iecB * x ^ 2 + iecC * x ^ 4)) ^ 2) _ cont fun x hx => ?_⟩
    · norm_num
    · have := pos x hx.le
      simp only [weightingSpec]
      rw [base x hx, show (2 * 2 : ℤ) = ((4 : ℕ) : ℤ) by norm_num, zpow_natCast]
      field_simp
  | d =>
    refine ⟨1, _, ?_, by norm_num [weightingSlopes], high_asymptote (g := fun x =>
      1 / ((1 + 79919.29 * x ^ 2) * (1 + 1345600 * x ^ 2)) *
      (((1037918.48 * x ^ 2 - 1) ^ 2 + 1080768.16 * x ^ 2) / ((9837328 * x ^ 2 - 1) ^ 2 + 11723776 * x ^ 2))) _ ?_
      fun x hx => ?_⟩
    · norm_num
    · exact ContinuousAt.mul (ContinuousAt.div (by fun_prop) (by fun_prop) (by norm_num))
        (ContinuousAt.div (by fun_prop) (by fun_prop) (by norm_num))
    · have : 0 < (9837328 * x ^ 2 - 1) ^ 2 + 11723776 * x ^ 2 := by positivity
      simp only [weightingSpec]
      have e : ∀ c : ℝ, (1 / x) ^ 2 + c = (1 + c * x ^ 2) / x ^ 2 := fun c => by field_simp
      have e2 : ∀ b c : ℝ, (b - (1 / x) ^ 2) ^ 2 + c * (1 / x) ^ 2 = ((b * x ^ 2 - 1) ^ 2 + c * x ^ 2) / x ^ 4 :=
        fun b c => by field_simp
      rw [e, e, e2, e2, mul_one, show (2 : ℤ) = ((2 : ℕ) : ℤ) by norm_num, zpow_natCast]
      field_simp
  | u =>
    have q : ∀ a b x : ℝ, 0 < b → 0 < (1 - a * x) ^ 2 + b ^ 2 * x ^ 2 := by
      intro a b x hb
      by_cases hx : x = 0
      · rw [hx]; norm_num
      · positivity
    refine ⟨6, _, ?_, by norm_num [weightingSlopes], high_asymptote (g := fun x => 1 / ((1 + 12200 ^ 2 * x ^ 2) ^ 2 *
      (((1 - 8800 * x) ^ 2 + 7850 ^ 2 * x ^ 2) * ((1 + 8800 * x) ^ 2 + 7850 ^ 2 * x ^ 2)) *
      (((1 - 12150 * x) ^ 2 + 2900 ^ 2 * x ^ 2) * ((1 + 12150 * x) ^ 2 + 2900 ^ 2 * x ^ 2)))) _ ?_ fun x hx => ?_⟩
    · norm_num
    · exact ContinuousAt.div (by fun_prop) (by fun_prop) (by norm_num)
    · have q1 := (q 8800 7850 x (by norm_num)).ne'
      have q2 := (q 12150 2900 x (by norm_num)).ne'
      have q3 : (1 + 8800 * x) ^ 2 + 7850 ^ 2 * x ^ 2 ≠ 0 := by positivity
      have q4 : (1 + 12150 * x) ^ 2 + 2900 ^ 2 * x ^ 2 ≠ 0 := by positivity
      have e : ∀ c : ℝ, (1 / x) ^ 2 + c = (1 + c * x ^ 2) / x ^ 2 := fun c => by field_simp
      have e1 : ∀ b c : ℝ, (1 / x - b) ^ 2 + c = ((1 - b * x) ^ 2 + c * x ^ 2) / x ^ 2 := fun b c => by field_simp
      have e2 : ∀ b c : ℝ, (1 / x + b) ^ 2 + c = ((1 + b * x) ^ 2 + c * x ^ 2) / x ^ 2 := fun b c => by field_simp
      simp only [weightingSpec]
      rw [e, e1, e1, e2, e2, show (2 * 6 : ℤ) = ((12 : ℕ) : ℤ) by norm_num, zpow_natCast]
      generalize (1 - 8800 * x) ^ 2 + 7850 ^ 2 * x ^ 2 = A at *
      generalize (1 - 12150 * x) ^ 2 + 2900 ^ 2 * x ^ 2 = B at *
      generalize (1 + 8800 * x) ^ 2 + 7850 ^ 2 * x ^ 2 = D at *
      generalize (1 + 12150 * x) ^ 2 + 2900 ^ 2 * x ^ 2 = E at *
      field_simp

/-- C123: The slopes of the weighting filters for low and for high frequencies: the A-weighting rises by 80 decibels per
decade and falls by 40, the B-weighting rises by 60 and falls by 40, the C-weighting rises and falls by 40, the D-weighting
rises and falls by 20 and the U-weighting is constant for low frequencies and falls by 120 decibels per decade. -/
theorem C123_weighting (w : Weighting) (mem : ℂ) :
    ∃ a H, w.filter complexEnv = .ok a ∧ HasTransfer mem a H ∧ SlopeAt H (𝓝[>] 0) (weightingSlopes w).1 ∧
      SlopeAt H Filter.atTop (weightingSlopes w).2 := by
  obtain ⟨a, h1, -, h4, h2⟩ := C40_weighting w mem
  have h2 : ∀ f, ∃ x, 0 < f → a.call complexEnv mem f = [some x] ∧
      ‖x‖ ^ 2 = weightingSpec w f / weightingSpec w 1000 := by
    intro f
    by_cases hf : 0 < f
    · obtain ⟨x, hx⟩ := h2 f hf.le
      exact ⟨x, fun _ => hx⟩
    · exact ⟨0, fun h => absurd h hf⟩
  choose H hH using h2
  have hk : weightingSpec w 1000 ≠ 0 := by
    intro h
    obtain ⟨e1, e2⟩ := hH 1000 (by norm_num)
    rw [h4] at e1
    simp only [List.cons.injEq, Option.some.injEq, and_true] at e1
    rw [h, ← e1] at e2
    norm_num at e2
  have hk0 : 0 < weightingSpec w 1000 := by
    refine lt_of_le_of_ne ?_ (Ne.symm hk)
    cases w <;> simp only [weightingSpec] <;> positivity
  have tr : ∀ {l : _root_.Filter ℝ} (m : ℤ) (c : ℝ), IsEnd l →
      Filter.Tendsto (fun f => weightingSpec w f * f ^ (2 * m)) l (𝓝 c) →
      Filter.Tendsto (fun f => ‖H f‖ ^ 2 * f ^ (2 * m)) l (𝓝 (c / weightingSpec w 1000)) := by
    intro l m c hl h
    refine (h.div_const (weightingSpec w 1000)).congr' ?_
    filter_upwards [hl.pos] with f hf
    rw [(hH f hf).2]
    ring
  obtain ⟨m, c, m1, m2, m3⟩ := weighting_low w
  obtain ⟨n, d, n1, n2, n3⟩ := weighting_high w
  refine ⟨a, H, h1, fun f hf => (hH f hf).1, ?_, ?_⟩
  · rw [m2]
    exact slope_of_asymptote isEnd_zero m (div_pos m1 hk0) (tr m c isEnd_zero m3)
  · rw [n2]
    exact slope_of_asymptote isEnd_atTop n (div_pos n1 hk0) (tr n d isEnd_atTop n3)

example : SlopeAt (fun f => (f : ℂ) ^ 2) Filter.atTop 40 := by
  have := slope_of_asymptote (H := fun f => (f : ℂ) ^ 2) isEnd_atTop (-2) one_pos (by
    refine tendsto_const_nhds.congr' ?_
    filter_upwards [Filter.eventually_gt_atTop 0] with f hf
    rw [norm_pow, Complex.norm_real, Real.norm_of_nonneg hf.le, show (2 * -2 : ℤ) = -((4 : ℕ) : ℤ) by norm_num, zpow_neg,
      zpow_natCast]
    field_simp)
  norm_num at this
  exact this

end Filter
end Verif
