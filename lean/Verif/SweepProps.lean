import Verif.Sweep
import Verif.IndexingProps
import Verif.SignalProps
import Mathlib.Analysis.Calculus.Deriv.MeanValue
import Mathlib.Analysis.SpecialFunctions.ExpDeriv
import Mathlib.Analysis.SpecialFunctions.Exp
import Mathlib.Analysis.Calculus.Deriv.Pow
import Mathlib.Analysis.Calculus.Deriv.Mul

/-
Properties of the sweeps and their inverses (C44) and of the frequencies, that are excited by them (C70).
-/

namespace Verif
namespace Sweep

open Indexing

theorem div_ok {x y : ℝ} (h : y ≠ 0) : div x y = .ok (x / y) := if_neg h

theorem general_ok (interval : Idx × Idx) (rate : ℝ) (length : Nat) (start stop : Int) (hr : rate ≠ 0)
    (h1 : index length interval.1 = some start) (h2 : index length interval.2 = some stop) :
    ∃ g, general interval rate length = some (.ok g) ∧ g.start = start ∧ g.stop = stop ∧
      (∀ i : Nat, i < length → g.t i = i / rate - start / rate) ∧ g.duration = ((stop - start : Int) : ℝ) / rate ∧
      g.offset = start / rate := by
  refine ⟨⟨start, stop, linspace (-((start : ℝ) / rate)) (((length : ℝ) - 1) / rate - (start : ℝ) / rate) length,
    ((stop - start : Int) : ℝ) / rate, (start : ℝ) / rate⟩, ?_, rfl, rfl, ?_, rfl, rfl⟩
  · unfold general
    rw [h1, h2]
    show some (div _ rate >>= _) = _
    rw [div_ok hr]
    show some (div _ rate >>= _) = _
    rw [div_ok hr]
    show some (div _ rate >>= _) = _
    rw [div_ok hr]
    rfl
  · intro i hi
    show linspace _ _ _ _ = _
    unfold linspace
    split
    · have : i = 0 := by omega
      subst this
      simp
    · have hn : (length : ℝ) - 1 ≠ 0 := by
        have : (2 : ℝ) ≤ length := by
          have h : 2 ≤ length := by omega
          exact_mod_cast h
        linarith
      field_simp
      ring

theorem linearParameters_ok (f0 f1 : ℝ) (interval : Idx × Idx) (rate : ℝ) (length : Nat) (start stop : Int) (hr : rate ≠ 0)
    (h1 : index length interval.1 = some start) (h2 : index length interval.2 = some stop) (hne : start ≠ stop) :
    ∃ p, linearParameters f0 f1 interval rate length = some (.ok p) ∧ p.start = start ∧ p.stop = stop ∧
      (∀ i : Nat, i < length → p.t i = i / rate - start / rate) ∧ p.duration = ((stop - start : Int) : ℝ) / rate ∧
      p.offset = start / rate ∧ p.a = 2 * Real.pi * f0 ∧ p.b = Real.pi * p.k ∧
      p.k = (f1 - f0) / (((stop - start : Int) : ℝ) / rate) ∧ ((stop - start : Int) : ℝ) / rate ≠ 0 := by
  obtain ⟨g, g1, g2, g3, g4, g5, g6⟩ := general_ok interval rate length start stop hr h1 h2
  have hd : ((stop - start : Int) : ℝ) / rate ≠ 0 := by
    refine div_ne_zero ?_ hr
    have : stop - start ≠ 0 := by omega
    exact_mod_cast this
  refine ⟨⟨g, 2 * Real.pi * f0, Real.pi * ((f1 - f0) / (((stop - start : Int) : ℝ) / rate)),
    (f1 - f0) / (((stop - start : Int) : ℝ) / rate)⟩, ?_, g2, g3, g4, g5, g6, rfl, rfl, rfl, hd⟩
  unfold linearParameters
  rw [g1]
  show some (div _ g.duration >>= _) = _
  rw [g5, div_ok hd]
  rfl

theorem exponentialParameters_ok (f0 f1 : ℝ) (interval : Idx × Idx) (rate : ℝ) (length : Nat) (start stop : Int)
    (hr : rate ≠ 0) (h1 : index length interval.1 = some start) (h2 : index length interval.2 = some stop)
    (hne : start ≠ stop) (hf : 0 < f0) (hf1 : 0 < f1) (hff : f0 ≠ f1) :
    ∃ p, exponentialParameters f0 f1 interval rate length = some (.ok p) ∧ p.start = start ∧ p.stop = stop ∧
      (∀ i : Nat, i < length → p.t i = i / rate - start / rate) ∧ p.duration = ((stop - start : Int) : ℝ) / rate ∧
      p.offset = start / rate ∧ p.a = 2 * Real.pi * f0 * p.l ∧ p.l ≠ 0 ∧
      p.l = ((stop - start : Int) : ℝ) / rate / Real.log (f1 / f0) ∧
      f0 * Real.exp (((stop - start : Int) : ℝ) / rate / p.l) = f1 := by
  obtain ⟨g, g1, g2, g3, g4, g5, g6⟩ := general_ok interval rate length start stop hr h1 h2
  have hd : ((stop - start : Int) : ℝ) / rate ≠ 0 := by
    refine div_ne_zero ?_ hr
    have : stop - start ≠ 0 := by omega
    exact_mod_cast this
  have hq : 0 < f1 / f0 := div_pos hf1 hf
  have hlog : Real.log (f1 / f0) ≠ 0 := by
    refine Real.log_ne_zero_of_pos_of_ne_one hq ?_
    intro h
    rw [div_eq_one_iff_eq hf.ne'] at h
    exact hff h.symm
  refine ⟨⟨g, ((stop - start : Int) : ℝ) / rate / Real.log (f1 / f0),
    2 * Real.pi * f0 * (((stop - start : Int) : ℝ) / rate / Real.log (f1 / f0))⟩, ?_, g2, g3, g4, g5, g6, rfl,
    div_ne_zero hd hlog, rfl, ?_⟩
  · unfold exponentialParameters
    rw [g1]
    show some (div f1 f0 >>= _) = _
    rw [div_ok hf.ne']
    show some (log (f1 / f0) >>= _) = _
    rw [show log (f1 / f0) = .ok (Real.log (f1 / f0)) from if_neg (by linarith)]
    show some (div g.duration _ >>= _) = _
    rw [g5, div_ok hlog]
    rfl
  · show f0 * Real.exp (_ / (_ / _)) = _
    rw [div_div_cancel₀ hd, Real.exp_log hq]
    field_simp

theorem new_ok (channels : Mat ℝ) (rate : ℝ) (offset : Int) (function : ℝ → Py ℝ) (f : ℝ → ℝ) (l : ℝ)
    (hf : ∀ t, function t = .ok (f t)) (hr : rate ≠ 0) (hc : channels.rows = 1) :
    ∃ s, Instance.new channels rate offset function l = .ok s ∧ s.signal.channels = channels ∧ s.signal.rate = rate ∧
      s.signal.offset = offset ∧ s.signal.labels = [if f 0 ≤ f (channels.cols / rate) then "Sweep" else "Inverse sweep"] ∧
      s.minimum = min (f 0) (f (channels.cols / rate)) ∧ s.maximum = max (f 0) (f (channels.cols / rate)) ∧
      s.function = function ∧ s.l = l := by
  refine ⟨⟨Signal.new channels rate offset (some [if f 0 ≤ f (channels.cols / rate) then "Sweep" else "Inverse sweep"]),
    if f 0 ≤ f (channels.cols / rate) then f 0 else f (channels.cols / rate),
    if f 0 ≤ f (channels.cols / rate) then f (channels.cols / rate) else f 0, function, l⟩, ?_, rfl, rfl, rfl, ?_, ?_, ?_, rfl,
    rfl⟩
  · unfold Instance.new
    rw [hf 0]
    show (div _ rate >>= _) = _
    rw [div_ok hr]
    show (function _ >>= _) = _
    rw [hf]
    rfl
  · show sanitizeLabels (some _) channels.rows = _
    exact Signal.sanitize_self (by rw [hc]; rfl)
  · exact (min_def _ _).symm
  · exact (max_def _ _).symm

/-! ### Linear sweeps -/

/-- C44: The linear sweep is the sine of a phase, whose derivative is the instantaneous frequency, which changes linearly
from the start frequency at the beginning of the interval to the stop frequency at its end. -/
theorem C44_linear (f0 f1 phase : ℝ) (interval : Idx × Idx) (rate : ℝ) (length : Nat) (numexpr : Bool) (start stop : Int)
    (hr : rate ≠ 0) (h1 : index length interval.1 = some start) (h2 : index length interval.2 = some stop)
    (hne : start ≠ stop) :
    ∃ s, linearSweep f0 f1 phase interval rate length numexpr = some (.ok s) ∧ s.signal.channels.rows = 1 ∧
      s.signal.channels.cols = length ∧ s.signal.rate = rate ∧ s.signal.offset = 0 ∧
      ∃ Φ f : ℝ → ℝ, (∀ i : Nat, i < length → s.signal.channels.get 0 i = Real.sin (Φ (i / rate))) ∧
        (∀ t, s.instantaneousFrequency t = .ok (f t)) ∧ (∀ t, HasDerivAt Φ (2 * Real.pi * f t) t) ∧
        Φ (start / rate) = phase ∧ f (start / rate) = f0 ∧ f (stop / rate) = f1 ∧ (∃ k, ∀ t, HasDerivAt f k t) ∧
        s.minimum = min (f 0) (f (length / rate)) ∧ s.maximum = max (f 0) (f (length / rate)) ∧
        s.signal.labels = [if f 0 ≤ f (length / rate) then "Sweep" else "Inverse sweep"] := by
  obtain ⟨p, p1, p2, p3, p4, p5, p6, p7, p8, p9, hd⟩ := linearParameters_ok f0 f1 interval rate length start stop hr h1 h2 hne
  obtain ⟨s, s1, s2, s3, s4, s5, s6, s7, s8, _⟩ := new_ok ⟨1, length, fun _ i =>
      if length ≤ 8192 ∨ !numexpr then Real.sin (p.t i * p.t i * p.b + p.a * p.t i + phase)
      else Real.sin (phase + p.a * p.t i + p.b * p.t i ^ 2)⟩ rate 0
      (fun tau => .ok (f0 + p.k * (tau - p.offset))) (fun tau => f0 + p.k * (tau - p.offset)) 0 (fun _ => rfl) hr rfl
  refine ⟨s, ?_, by rw [s2], by rw [s2], s3, s4, fun t => phase + p.a * (t - start / rate) + p.b * (t - start / rate) ^ 2,
    fun tau => f0 + p.k * (tau - p.offset), ?_, ?_, ?_, by simp, ?_, ?_, ⟨p.k, ?_⟩, s6, s7, s5⟩
  · unfold linearSweep
    rw [p1]
    exact congrArg some s1
  · intro i hi
    rw [s2]
    dsimp only
    rw [p4 i hi]
    split
    · congr 1
      ring
    · rfl
  · intro t
    show s.function t = _
    rw [s8]
  · intro t
    have h := (((hasDerivAt_id t).sub_const ((start : ℝ) / rate)).const_mul p.a |>.const_add phase).add
      ((((hasDerivAt_id t).sub_const ((start : ℝ) / rate)).pow 2).const_mul p.b)
    refine h.congr_deriv ?_
    show _ = 2 * Real.pi * (f0 + p.k * (t - p.offset))
    rw [p7, p8, p6]
    simp only [id]
    push_cast
    ring
  · dsimp only
    rw [p6]
    ring
  · dsimp only
    rw [p6, p9]
    have : (stop : ℝ) / rate - start / rate = ((stop - start : Int) : ℝ) / rate := by
      push_cast
      ring
    rw [this, div_mul_cancel₀ _ hd]
    ring
  · intro t
    have h := (((hasDerivAt_id t).sub_const p.offset).const_mul p.k).const_add f0
    simpa using h

/-- C44: The inverse linear sweep with the same parameters is the sweep, that is reversed in time and scaled with a constant;
its instantaneous frequency decreases from the stop frequency to the start frequency. -/
theorem C44_inverse_linear (f0 f1 phase : ℝ) (interval : Idx × Idx) (rate : ℝ) (length : Nat) (numexpr numexpr' : Bool)
    (start stop : Int) (hr : rate ≠ 0) (h1 : index length interval.1 = some start) (h2 : index length interval.2 = some stop)
    (hne : start ≠ stop) :
    ∃ s v, linearSweep f0 f1 phase interval rate length numexpr = some (.ok s) ∧
      inverseLinearSweep f0 f1 phase interval rate length numexpr' = some (.ok v) ∧ v.signal.channels.rows = 1 ∧
      v.signal.channels.cols = length ∧ v.signal.rate = rate ∧ v.signal.offset = -start - stop ∧
      (∀ i j : Nat, i < length → j < length → (i : Int) + v.signal.offset = -((j : Int) + s.signal.offset) →
        v.signal.channels.get 0 i = 2 / ((stop : ℝ) - start) * s.signal.channels.get 0 j) ∧
      ∃ Φ f : ℝ → ℝ,
        (∀ i : Nat, i < length → v.signal.channels.get 0 i = 2 / ((stop : ℝ) - start) * Real.sin (Φ (i / rate))) ∧
        (∀ t, v.instantaneousFrequency t = .ok (f t)) ∧ (∀ t, HasDerivAt Φ (-(2 * Real.pi * f t)) t) ∧
        Φ (stop / rate) = phase ∧ f (start / rate) = f1 ∧ f (stop / rate) = f0 ∧ (∃ k, ∀ t, HasDerivAt f k t) ∧
        v.minimum = min (f 0) (f (length / rate)) ∧ v.maximum = max (f 0) (f (length / rate)) ∧
        v.signal.labels = [if f 0 ≤ f (length / rate) then "Sweep" else "Inverse sweep"] := by
  obtain ⟨p, p1, p2, p3, p4, p5, p6, p7, p8, p9, hd⟩ := linearParameters_ok f0 f1 interval rate length start stop hr h1 h2 hne
  have hsub : (stop : ℝ) - start ≠ 0 := by
    have : stop - start ≠ 0 := by omega
    exact_mod_cast this
  obtain ⟨s, s1, s2, s3, s4, _⟩ := new_ok ⟨1, length, fun _ i =>
      if length ≤ 8192 ∨ !numexpr then Real.sin (p.t i * p.t i * p.b + p.a * p.t i + phase)
      else Real.sin (phase + p.a * p.t i + p.b * p.t i ^ 2)⟩ rate 0
      (fun tau => .ok (f0 + p.k * (tau - p.offset))) (fun tau => f0 + p.k * (tau - p.offset)) 0 (fun _ => rfl) hr rfl
  obtain ⟨v, v1, v2, v3, v4, v5, v6, v7, v8, _⟩ := new_ok ⟨1, length, fun _ i =>
      if length ≤ 8192 ∨ !numexpr' then Real.sin ((p.t i * (-1) + p.duration) * (p.t i * (-1) + p.duration) * p.b +
        p.a * (p.t i * (-1) + p.duration) + (phase + 0)) * (2 / ((p.stop - p.start : Int) : ℝ))
      else (2 / ((p.stop - p.start : Int) : ℝ)) * Real.sin (phase + p.a * (p.t i * (-1) + p.duration) +
        p.b * (p.t i * (-1) + p.duration) ^ 2)⟩ rate (-p.stop - p.start)
      (fun tau => .ok (f1 - p.k * (tau - p.offset))) (fun tau => f1 - p.k * (tau - p.offset)) 0 (fun _ => rfl) hr rfl
  have hs : ∀ j : Nat, j < length → s.signal.channels.get 0 j =
      Real.sin (phase + p.a * (j / rate - start / rate) + p.b * (j / rate - start / rate) ^ 2) := by
    intro j hj
    rw [s2]
    dsimp only
    rw [p4 j hj]
    split
    · congr 1
      ring
    · rfl
  have hv : ∀ i : Nat, i < length → v.signal.channels.get 0 i = 2 / ((stop : ℝ) - start) *
      Real.sin (phase + p.a * (stop / rate - i / rate) + p.b * (stop / rate - i / rate) ^ 2) := by
    intro i hi
    rw [v2]
    dsimp only
    rw [p4 i hi, p5, p2, p3]
    have e : ((i : ℝ) / rate - start / rate) * -1 + ((stop - start : Int) : ℝ) / rate = stop / rate - i / rate := by
      push_cast
      ring
    rw [e]
    push_cast
    split
    · rw [mul_comm]
      congr 2
      ring
    · rfl
  have hk : ∀ t : ℝ, f1 - p.k * (t - p.offset) = f0 + p.k * (stop / rate - t) := by
    intro t
    have e : (stop : ℝ) / rate = ((stop - start : Int) : ℝ) / rate + start / rate := by
      push_cast
      ring
    have e2 : p.k * (((stop - start : Int) : ℝ) / rate) = f1 - f0 := by
      rw [p9, div_mul_cancel₀ _ hd]
    rw [e, p6]
    linear_combination -e2
  refine ⟨s, v, ?_, ?_, by rw [v2], by rw [v2], v3, by rw [v4, p2, p3]; ring, ?_,
    fun t => phase + p.a * (stop / rate - t) + p.b * (stop / rate - t) ^ 2,
    fun tau => f1 - p.k * (tau - p.offset), hv, ?_, ?_, by simp, ?_, ?_, ⟨-p.k, ?_⟩, v6, v7, v5⟩
  · unfold linearSweep
    rw [p1]
    exact congrArg some s1
  · unfold inverseLinearSweep
    rw [p1]
    show some (div 2 _ >>= _) = _
    rw [div_ok (by rw [p2, p3]; push_cast; exact hsub)]
    exact congrArg some v1
  · intro i j hi hj hij
    rw [hv i hi, hs j hj]
    rw [v4, s4, p2, p3] at hij
    have e : (stop : ℝ) / rate - i / rate = j / rate - start / rate := by
      have : (i : ℝ) + (-stop - start) = -(j + 0) := by exact_mod_cast hij
      field_simp
      linarith
    rw [e]
  · intro t
    show v.function t = _
    rw [v8]
  · intro t
    have h := (((hasDerivAt_id t).const_sub ((stop : ℝ) / rate)).const_mul p.a |>.const_add phase).add
      ((((hasDerivAt_id t).const_sub ((stop : ℝ) / rate)).pow 2).const_mul p.b)
    refine h.congr_deriv ?_
    show _ = -(2 * Real.pi * (f1 - p.k * (t - p.offset)))
    rw [p7, p8, hk]
    simp only [id]
    push_cast
    ring
  · dsimp only
    rw [p6]
    ring
  · dsimp only
    rw [hk]
    ring
  · intro t
    have h := (((hasDerivAt_id t).sub_const p.offset).const_mul p.k).const_sub f1
    simpa using h

/-- a function with a derivative, that does not change its sign, has its extreme values at the ends of an interval -/
theorem bounds (f g : ℝ → ℝ) (T : ℝ) (hf : ∀ t, HasDerivAt f (g t) t) (hg : (∀ t, 0 ≤ g t) ∨ ∀ t, g t ≤ 0) {t : ℝ}
    (h0 : 0 ≤ t) (hT : t ≤ T) : min (f 0) (f T) ≤ f t ∧ f t ≤ max (f 0) (f T) := by
  have hd : Differentiable ℝ f := fun t => (hf t).differentiableAt
  rcases hg with hg | hg
  · have hm : Monotone f := monotone_of_deriv_nonneg hd fun t => by rw [(hf t).deriv]; exact hg t
    exact ⟨le_trans (min_le_left _ _) (hm h0), le_trans (hm hT) (le_max_right _ _)⟩
  · have hm : Antitone f := antitone_of_deriv_nonpos hd fun t => by rw [(hf t).deriv]; exact hg t
    exact ⟨le_trans (min_le_right _ _) (hm hT), le_trans (hm h0) (le_max_left _ _)⟩

/-- C70: All frequencies, that a linear sweep or its inverse excites, are between the minimum and the maximum frequency,
which are those at the beginning and at the end of the signal. -/
theorem C70_linear (f0 f1 phase : ℝ) (interval : Idx × Idx) (rate : ℝ) (length : Nat) (numexpr : Bool) (start stop : Int)
    (hr : rate ≠ 0) (h1 : index length interval.1 = some start) (h2 : index length interval.2 = some stop)
    (hne : start ≠ stop) :
    ∃ s v, linearSweep f0 f1 phase interval rate length numexpr = some (.ok s) ∧
      inverseLinearSweep f0 f1 phase interval rate length numexpr = some (.ok v) ∧
      ∀ t, 0 ≤ t → t ≤ length / rate →
        (∃ f, s.instantaneousFrequency t = .ok f ∧ s.minimum ≤ f ∧ f ≤ s.maximum) ∧
        ∃ f, v.instantaneousFrequency t = .ok f ∧ v.minimum ≤ f ∧ f ≤ v.maximum := by
  obtain ⟨s, s1, _, _, _, _, _, f, _, s2, _, _, _, _, ⟨k, s3⟩, s4, s5, _⟩ := C44_linear f0 f1 phase interval rate length
    numexpr start stop hr h1 h2 hne
  obtain ⟨_, v, _, v1, _, _, _, _, _, _, g, _, v2, _, _, _, _, ⟨k', v3⟩, v4, v5, _⟩ := C44_inverse_linear f0 f1 phase interval
    rate length numexpr numexpr start stop hr h1 h2 hne
  refine ⟨s, v, s1, v1, fun t h0 hT => ⟨⟨f t, s2 t, ?_⟩, ⟨g t, v2 t, ?_⟩⟩⟩
  · rw [s4, s5]
    exact bounds f (fun _ => k) _ s3 ((le_total 0 k).imp (fun h _ => h) (fun h _ => h)) h0 hT
  · rw [v4, v5]
    exact bounds g (fun _ => k') _ v3 ((le_total 0 k').imp (fun h _ => h) (fun h _ => h)) h0 hT

/-! ### Exponential sweeps -/

/-- C44: The exponential sweep is the sine of a phase, whose derivative is the instantaneous frequency, which grows
exponentially from the start frequency at the beginning of the interval to the stop frequency at its end. -/
theorem C44_exponential (f0 f1 phase : ℝ) (interval : Idx × Idx) (rate : ℝ) (length : Nat) (numexpr : Bool)
    (start stop : Int) (hr : rate ≠ 0) (h1 : index length interval.1 = some start)
    (h2 : index length interval.2 = some stop) (hne : start ≠ stop) (hf : 0 < f0) (hf1 : 0 < f1) (hff : f0 ≠ f1) :
    ∃ s, exponentialSweep f0 f1 phase interval rate length numexpr = some (.ok s) ∧ s.signal.channels.rows = 1 ∧
      s.signal.channels.cols = length ∧ s.signal.rate = rate ∧ s.signal.offset = 0 ∧
      s.l * Real.log (f1 / f0) = ((stop : ℝ) - start) / rate ∧
      ∃ Φ f : ℝ → ℝ, (∀ i : Nat, i < length → s.signal.channels.get 0 i = Real.sin (Φ (i / rate))) ∧
        (∀ t, s.instantaneousFrequency t = .ok (f t)) ∧ (∀ t, HasDerivAt Φ (2 * Real.pi * f t) t) ∧
        Φ (start / rate) = phase ∧ f (start / rate) = f0 ∧ f (stop / rate) = f1 ∧ (∀ t, 0 < f t) ∧
        (∀ t, HasDerivAt f (f t / s.l) t) ∧
        s.minimum = min (f 0) (f (length / rate)) ∧ s.maximum = max (f 0) (f (length / rate)) ∧
        s.signal.labels = [if f 0 ≤ f (length / rate) then "Sweep" else "Inverse sweep"] := by
  obtain ⟨p, p1, p2, p3, p4, p5, p6, p7, hl, p9, p10⟩ := exponentialParameters_ok f0 f1 interval rate length start stop hr h1
    h2 hne hf hf1 hff
  obtain ⟨s, s1, s2, s3, s4, s5, s6, s7, s8, s9⟩ := new_ok ⟨1, length, fun _ i =>
      if length ≤ 8192 ∨ !numexpr then Real.sin (expm1 (p.t i / p.l) * p.a + phase)
      else Real.sin (p.a * expm1 (p.t i / p.l) + phase)⟩ rate 0
      (fun tau => do
        let exponent ← div (tau - p.offset) p.l
        .ok (f0 * Real.exp exponent)) (fun tau => f0 * Real.exp ((tau - p.offset) / p.l)) p.l
      (fun t => by rw [div_ok hl]; rfl) hr rfl
  have hlog : Real.log (f1 / f0) ≠ 0 := by
    intro h
    rw [p9, h, div_zero] at hl
    exact hl rfl
  refine ⟨s, ?_, by rw [s2], by rw [s2], s3, s4, ?_, fun t => p.a * (Real.exp ((t - start / rate) / p.l) - 1) + phase,
    fun tau => f0 * Real.exp ((tau - p.offset) / p.l), ?_, ?_, ?_, by simp, ?_, ?_, fun t => mul_pos hf (Real.exp_pos _), ?_,
    s6, s7, s5⟩
  · unfold exponentialSweep
    rw [p1]
    exact congrArg some s1
  · rw [s9, p9, div_mul_cancel₀ _ hlog]
    push_cast
    rfl
  · intro i hi
    rw [s2]
    dsimp only
    rw [p4 i hi]
    unfold expm1
    split
    · rw [mul_comm]
    · rfl
  · intro t
    show s.function t = _
    rw [s8]
    dsimp only
    rw [div_ok hl]
    rfl
  · intro t
    have h := ((((((hasDerivAt_id t).sub_const ((start : ℝ) / rate)).div_const p.l).exp).sub_const 1).const_mul
      p.a).add_const phase
    refine h.congr_deriv ?_
    show _ = 2 * Real.pi * (f0 * Real.exp ((t - p.offset) / p.l))
    rw [p7, p6]
    simp only [id]
    field_simp
  · dsimp only
    rw [p6]
    simp
  · dsimp only
    rw [p6]
    have : (stop : ℝ) / rate - start / rate = ((stop - start : Int) : ℝ) / rate := by
      push_cast
      ring
    rw [this]
    exact p10
  · intro t
    rw [s9]
    have h := ((((hasDerivAt_id t).sub_const p.offset).div_const p.l).exp).const_mul f0
    refine h.congr_deriv ?_
    simp only [id]
    ring

/-- C44: The inverse exponential sweep with the same parameters is the sweep, that is reversed in time and scaled with an
envelope, which is proportional to the instantaneous frequency. -/
theorem C44_inverse_exponential (f0 f1 phase : ℝ) (interval : Idx × Idx) (rate : ℝ) (length : Nat) (numexpr numexpr' : Bool)
    (start stop : Int) (hr : rate ≠ 0) (h1 : index length interval.1 = some start)
    (h2 : index length interval.2 = some stop) (hne : start ≠ stop) (hf : 0 < f0) (hf1 : 0 < f1) (hff : f0 ≠ f1) :
    ∃ s v, exponentialSweep f0 f1 phase interval rate length numexpr = some (.ok s) ∧
      inverseExponentialSweep f0 f1 phase interval rate length numexpr' = some (.ok v) ∧ v.signal.channels.rows = 1 ∧
      v.signal.channels.cols = length ∧ v.signal.rate = rate ∧ v.signal.offset = -start - stop ∧ v.l = s.l ∧
      ∃ Φ f : ℝ → ℝ,
        (∀ i j : Nat, i < length → j < length → (i : Int) + v.signal.offset = -((j : Int) + s.signal.offset) →
          v.signal.channels.get 0 i = 2 * f (i / rate) / (v.l * (f1 - f0) * rate) * s.signal.channels.get 0 j) ∧
        (∀ i : Nat, i < length →
          v.signal.channels.get 0 i = 2 * f (i / rate) / (v.l * (f1 - f0) * rate) * Real.sin (Φ (i / rate))) ∧
        (∀ t, v.instantaneousFrequency t = .ok (f t)) ∧ (∀ t, HasDerivAt Φ (-(2 * Real.pi * f t)) t) ∧
        Φ (stop / rate) = phase ∧ f (start / rate) = f1 ∧ f (stop / rate) = f0 ∧ (∀ t, 0 < f t) ∧
        (∀ t, HasDerivAt f (-(f t / v.l)) t) ∧
        v.minimum = min (f 0) (f (length / rate)) ∧ v.maximum = max (f 0) (f (length / rate)) ∧
        v.signal.labels = [if f 0 ≤ f (length / rate) then "Sweep" else "Inverse sweep"] := by
  obtain ⟨p, p1, p2, p3, p4, p5, p6, p7, hl, p9, p10⟩ := exponentialParameters_ok f0 f1 interval rate length start stop hr h1
    h2 hne hf hf1 hff
  have hsub : f1 - f0 ≠ 0 := sub_ne_zero.mpr hff.symm
  obtain ⟨s, s1, s2, s3, s4, s5, s6, s7, s8, s9⟩ := new_ok ⟨1, length, fun _ i =>
      if length ≤ 8192 ∨ !numexpr then Real.sin (expm1 (p.t i / p.l) * p.a + phase)
      else Real.sin (p.a * expm1 (p.t i / p.l) + phase)⟩ rate 0
      (fun tau => do
        let exponent ← div (tau - p.offset) p.l
        .ok (f0 * Real.exp exponent)) (fun tau => f0 * Real.exp ((tau - p.offset) / p.l)) p.l
      (fun t => by rw [div_ok hl]; rfl) hr rfl
  obtain ⟨v, v1, v2, v3, v4, v5, v6, v7, v8, v9⟩ := new_ok ⟨1, length, fun _ i =>
      if length ≤ 8192 ∨ !numexpr' then
        Real.exp ((p.duration - p.t i) / p.l) * (2 * f0 / p.l / (f1 - f0) / rate) *
          Real.sin (expm1 ((p.duration - p.t i) / p.l) * p.a + phase)
      else 2 * f0 / p.l / (f1 - f0) / rate * Real.exp ((p.duration - p.t i) / p.l) *
        Real.sin (p.a * expm1 ((p.duration - p.t i) / p.l) + phase)⟩ rate (-p.stop - p.start)
      (fun tau => do
        let exponent ← div (-tau + p.offset) p.l
        .ok (f1 * Real.exp exponent)) (fun tau => f1 * Real.exp ((-tau + p.offset) / p.l)) p.l
      (fun t => by rw [div_ok hl]; rfl) hr rfl
  have hk : ∀ t : ℝ, f1 * Real.exp ((-t + p.offset) / p.l) = f0 * Real.exp ((stop / rate - t) / p.l) := by
    intro t
    rw [← p10, mul_assoc, ← Real.exp_add, p6]
    congr 2
    push_cast
    ring
  have hs : ∀ j : Nat, j < length → s.signal.channels.get 0 j =
      Real.sin (p.a * (Real.exp ((j / rate - start / rate) / p.l) - 1) + phase) := by
    intro j hj
    rw [s2]
    dsimp only
    rw [p4 j hj]
    unfold expm1
    split
    · rw [mul_comm]
    · rfl
  have hv : ∀ i : Nat, i < length → v.signal.channels.get 0 i =
      2 * (f1 * Real.exp ((-((i : ℝ) / rate) + p.offset) / p.l)) / (v.l * (f1 - f0) * rate) *
        Real.sin (p.a * (Real.exp ((stop / rate - i / rate) / p.l) - 1) + phase) := by
    intro i hi
    rw [v2, v9, hk]
    dsimp only
    rw [p4 i hi, p5]
    have e : ((stop - start : Int) : ℝ) / rate - ((i : ℝ) / rate - start / rate) = stop / rate - i / rate := by
      push_cast
      ring
    rw [e]
    unfold expm1
    split
    · rw [mul_comm (Real.exp ((stop / rate - i / rate) / p.l) - 1) p.a]
      congr 1
      field_simp
    · congr 1
      field_simp
  refine ⟨s, v, ?_, ?_, by rw [v2], by rw [v2], v3, by rw [v4, p2, p3]; ring, by rw [v9, s9],
    fun t => p.a * (Real.exp ((stop / rate - t) / p.l) - 1) + phase,
    fun tau => f1 * Real.exp ((-tau + p.offset) / p.l), ?_, hv, ?_, ?_, by simp, ?_, ?_,
    fun t => mul_pos hf1 (Real.exp_pos _), ?_, v6, v7, v5⟩
  · unfold exponentialSweep
    rw [p1]
    exact congrArg some s1
  · unfold inverseExponentialSweep
    rw [p1]
    show some (div _ p.l >>= _) = _
    rw [div_ok hl]
    show some (div _ (f1 - f0) >>= _) = _
    rw [div_ok hsub]
    show some (div _ rate >>= _) = _
    rw [div_ok hr]
    exact congrArg some v1
  · intro i j hi hj hij
    dsimp only
    rw [hv i hi, hs j hj]
    rw [v4, s4, p2, p3] at hij
    have e : (stop : ℝ) / rate - i / rate = j / rate - start / rate := by
      have : (i : ℝ) + (-stop - start) = -(j + 0) := by exact_mod_cast hij
      field_simp
      linarith
    rw [e]
  · intro t
    show v.function t = _
    rw [v8]
    dsimp only
    rw [div_ok hl]
    rfl
  · intro t
    have h := ((((((hasDerivAt_id t).const_sub ((stop : ℝ) / rate)).div_const p.l).exp).sub_const 1).const_mul
      p.a).add_const phase
    refine h.congr_deriv ?_
    show _ = -(2 * Real.pi * (f1 * Real.exp ((-t + p.offset) / p.l)))
    rw [hk, p7]
    simp only [id]
    field_simp
  · dsimp only
    rw [p6]
    simp
  · dsimp only
    rw [hk]
    simp
  · intro t
    rw [v9]
    have h := ((((hasDerivAt_id t).neg.add_const p.offset).div_const p.l).exp).const_mul f1
    refine h.congr_deriv ?_
    show f1 * (Real.exp ((-t + p.offset) / p.l) * (-1 / p.l)) = -(f1 * Real.exp ((-t + p.offset) / p.l) / p.l)
    ring

/-- C70: All frequencies, that an exponential sweep or its inverse excites, are between the minimum and the maximum
frequency. -/
theorem C70_exponential (f0 f1 phase : ℝ) (interval : Idx × Idx) (rate : ℝ) (length : Nat) (numexpr : Bool)
    (start stop : Int) (hr : rate ≠ 0) (h1 : index length interval.1 = some start)
    (h2 : index length interval.2 = some stop) (hne : start ≠ stop) (hf : 0 < f0) (hf1 : 0 < f1) (hff : f0 ≠ f1) :
    ∃ s v, exponentialSweep f0 f1 phase interval rate length numexpr = some (.ok s) ∧
      inverseExponentialSweep f0 f1 phase interval rate length numexpr = some (.ok v) ∧
      ∀ t, 0 ≤ t → t ≤ length / rate →
        (∃ f, s.instantaneousFrequency t = .ok f ∧ s.minimum ≤ f ∧ f ≤ s.maximum) ∧
        ∃ f, v.instantaneousFrequency t = .ok f ∧ v.minimum ≤ f ∧ f ≤ v.maximum := by
  obtain ⟨s, s1, _, _, _, _, _, _, f, _, s2, _, _, _, _, hpos, s3, s4, s5, _⟩ := C44_exponential f0 f1 phase interval rate
    length numexpr start stop hr h1 h2 hne hf hf1 hff
  obtain ⟨_, v, _, v1, _, _, _, _, _, _, g, _, _, v2, _, _, _, _, hpos', v3, v4, v5, _⟩ := C44_inverse_exponential f0 f1 phase
    interval rate length numexpr numexpr start stop hr h1 h2 hne hf hf1 hff
  refine ⟨s, v, s1, v1, fun t h0 hT => ⟨⟨f t, s2 t, ?_⟩, ⟨g t, v2 t, ?_⟩⟩⟩
  · rw [s4, s5]
    refine bounds f _ _ s3 ?_ h0 hT
    rcases le_total 0 s.l with h | h
    · exact Or.inl fun t => div_nonneg (hpos t).le h
    · exact Or.inr fun t => div_nonpos_of_nonneg_of_nonpos (hpos t).le h
  · rw [v4, v5]
    refine bounds g _ _ v3 ?_ h0 hT
    rcases le_total 0 v.l with h | h
    · exact Or.inr fun t => neg_nonpos.mpr (div_nonneg (hpos' t).le h)
    · exact Or.inl fun t => neg_nonneg.mpr (div_nonpos_of_nonneg_of_nonpos (hpos' t).le h)

/-- a sweep with an interval, that does not include the first and the last samples -/
example : ∃ (f0 f1 : ℝ) (interval : Idx × Idx) (rate : ℝ) (length : Nat) (start stop : Int), rate ≠ 0 ∧
    index length interval.1 = some start ∧ index length interval.2 = some stop ∧ start ≠ stop ∧ 0 < f0 ∧ 0 < f1 ∧ f0 ≠ f1 ∧
    0 < start ∧ stop < length :=
  ⟨20, 20000, (.int 16, .int (-16)), 48000, 4096, 16, 4080, by norm_num, by decide, by decide, by decide, by norm_num,
    by norm_num, by norm_num, by decide, by decide⟩

end Sweep
end Verif
