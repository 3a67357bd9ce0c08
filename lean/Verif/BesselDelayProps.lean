import Verif.BesselProps
import Mathlib.Analysis.Calculus.MeanValue
import Mathlib.Analysis.SpecialFunctions.ExpDeriv
import Mathlib.Analysis.SpecialFunctions.Log.Deriv
import Mathlib.MeasureTheory.Integral.IntervalIntegral.FundThmCalculus

/-
C116: the group delay and the monotonicity of Bessel filters.
-/

namespace Verif
namespace Filter

open Complex (I)
open Finset (range)

/-! ### the squared magnitude of the reverse Bessel polynomials on the imaginary axis -/

/-- the coefficients of the squared magnitude -/
noncomputable def squareCoefficient : Nat → Nat → ℝ
  | 0, 0 => 1
  | 0, _ + 1 => 0
  | n + 1, 0 => (2 * n + 1) ^ 2 * squareCoefficient n 0
  | n + 1, k + 1 => (2 * n + 1 - k) * squareCoefficient n k / (k + 1)

/-- the squared magnitude as a function of the squared frequency -/
noncomputable def square (n : Nat) (x : ℝ) : ℝ := ∑ k ∈ range (n + 1), squareCoefficient n k * x ^ k

/-- its derivative -/
noncomputable def squareDeriv (n : Nat) (x : ℝ) : ℝ := ∑ k ∈ range n, (k + 1) * squareCoefficient n (k + 1) * x ^ k

theorem squareCoefficient_spec (n : Nat) :
    0 < squareCoefficient n 0 ∧ squareCoefficient n n = 1 ∧ ∀ k, (k ≤ n → 0 < squareCoefficient n k) ∧
      (n < k → squareCoefficient n k = 0) := by
  induction n with
  | zero =>
    refine ⟨by simp [squareCoefficient], by simp [squareCoefficient], fun k => ⟨?_, ?_⟩⟩
    · intro h
      rw [Nat.le_zero.mp h]
      simp [squareCoefficient]
    · intro h
      obtain ⟨k, rfl⟩ : ∃ j, k = j + 1 := ⟨k - 1, by omega⟩
      rfl
  | succ n ih =>
    have h0 : 0 < squareCoefficient (n + 1) 0 := by
      have := ih.1
      simp only [squareCoefficient]
      positivity
    refine ⟨h0, ?_, fun k => ?_⟩
    · simp only [squareCoefficient, ih.2.1]
      have : (n : ℝ) + 1 ≠ 0 := by positivity
      field_simp
      ring
    · cases k with
      | zero => exact ⟨fun _ => h0, fun h => absurd h (by omega)⟩
      | succ k =>
        refine ⟨fun h => ?_, fun h => ?_⟩
        · have h1 := (ih.2.2 k).1 (by omega)
          have h2 : (k : ℝ) ≤ n := by exact_mod_cast (by omega : k ≤ n)
          have h3 : (0 : ℝ) < 2 * n + 1 - k := by
            have : (0 : ℝ) ≤ n := by positivity
            linarith
          simp only [squareCoefficient]
          positivity
        · simp only [squareCoefficient]
          rw [(ih.2.2 k).2 (by omega)]
          simp

theorem square_hasDerivAt (n : Nat) (x : ℝ) : HasDerivAt (square n) (squareDeriv n x) x := by
  have e : square n = fun x => ∑ k ∈ range n, squareCoefficient n (k + 1) * x ^ (k + 1) + squareCoefficient n 0 := by
    funext x
    unfold square
    rw [Finset.sum_range_succ']
    simp
  rw [e]
  unfold squareDeriv
  refine (HasDerivAt.fun_sum fun k _ => ?_).add_const _
  exact ((hasDerivAt_pow (k + 1) x).const_mul _).congr_deriv (by push_cast; ring)

theorem squareDeriv_succ (n : Nat) (x : ℝ) :
    squareDeriv (n + 1) x = (2 * n + 1) * square n x - x * squareDeriv n x := by
  have e : ∑ k ∈ range (n + 1), (k : ℝ) * squareCoefficient n k * x ^ k = x * squareDeriv n x := by
    rw [Finset.sum_range_succ']
    unfold squareDeriv
    rw [Finset.mul_sum]
    simp only [Nat.cast_zero, zero_mul, add_zero]
    refine Finset.sum_congr rfl fun k _ => ?_
    push_cast
    ring
  rw [← e]
  unfold squareDeriv square
  rw [Finset.mul_sum, ← Finset.sum_sub_distrib]
  refine Finset.sum_congr rfl fun k _ => ?_
  simp only [squareCoefficient]
  have : (k : ℝ) + 1 ≠ 0 := by positivity
  field_simp

theorem square_zero (n : Nat) : square n 0 = squareCoefficient n 0 := by
  unfold square
  rw [Finset.sum_range_succ']
  simp

theorem square_pos (n : Nat) {x : ℝ} (hx : 0 ≤ x) : 0 < square n x := by
  unfold square
  rw [Finset.sum_range_succ']
  have h0 := (squareCoefficient_spec n).1
  have : 0 ≤ ∑ k ∈ range n, squareCoefficient n (k + 1) * x ^ (k + 1) := by
    refine Finset.sum_nonneg fun k hk => ?_
    have := ((squareCoefficient_spec n).2.2 (k + 1)).1 (by have := Finset.mem_range.mp hk; omega)
    positivity
  simp only [pow_zero, mul_one]
  linarith

theorem squareDeriv_nonneg (n : Nat) {x : ℝ} (hx : 0 ≤ x) : 0 ≤ squareDeriv n x := by
  unfold squareDeriv
  refine Finset.sum_nonneg fun k hk => ?_
  have := ((squareCoefficient_spec n).2.2 (k + 1)).1 (by have := Finset.mem_range.mp hk; omega)
  positivity

/-- the squared magnitude is strictly increasing -/
theorem square_strictMono (n : Nat) {x y : ℝ} (hx : 0 ≤ x) (hxy : x < y) : square (n + 1) x < square (n + 1) y := by
  unfold square
  refine Finset.sum_lt_sum (fun k hk => ?_) ⟨1, Finset.mem_range.mpr (by omega), ?_⟩
  · have := ((squareCoefficient_spec (n + 1)).2.2 k).1 (by have := Finset.mem_range.mp hk; omega)
    have : x ^ k ≤ y ^ k := pow_le_pow_left₀ hx hxy.le k
    nlinarith
  · have := ((squareCoefficient_spec (n + 1)).2.2 1).1 (by omega)
    rw [pow_one, pow_one]
    nlinarith

/-- the leading term and the constant term -/
theorem square_ge (n : Nat) {x : ℝ} (hx : 0 ≤ x) :
    squareCoefficient (n + 1) 0 + x ^ (n + 1) ≤ square (n + 1) x := by
  unfold square
  rw [Finset.sum_range_succ', Finset.sum_range_succ, (squareCoefficient_spec (n + 1)).2.1]
  have : 0 ≤ ∑ k ∈ range n, squareCoefficient (n + 1) (k + 1) * x ^ (k + 1) := by
    refine Finset.sum_nonneg fun k hk => ?_
    have := ((squareCoefficient_spec (n + 1)).2.2 (k + 1)).1 (by have := Finset.mem_range.mp hk; omega)
    positivity
  simp only [pow_zero, mul_one, one_mul]
  linarith

/-! ### the reverse Bessel polynomials on the imaginary axis -/

theorem reverseBessel_hasDerivAt (n : Nat) (s : ℂ) :
    HasDerivAt (reverseBessel (n + 1)) (reverseBessel (n + 1) s - s * reverseBessel n s) s := by
  induction n using Nat.strong_induction_on with
  | _ n ih =>
    match n, ih with
    | 0, _ =>
      have e : reverseBessel (0 + 1) = fun s => s + 1 := by
        funext s
        simp [reverseBessel]
      rw [e]
      exact ((hasDerivAt_id s).add_const 1).congr_deriv (by simp [reverseBessel])
    | 1, ih =>
      have e : reverseBessel (1 + 1) = fun s => (2 * ((0 : Nat) : ℂ) + 3) * reverseBessel 1 s + s ^ 2 * reverseBessel 0 s :=
        rfl
      have h0 : HasDerivAt (reverseBessel 0) 0 s := by
        have : reverseBessel 0 = fun _ => 1 := by
          funext s
          simp [reverseBessel]
        rw [this]
        exact hasDerivAt_const s 1
      rw [e]
      refine (((ih 0 (by omega)).const_mul _).add ((hasDerivAt_pow 2 s).mul h0)).congr_deriv ?_
      simp [reverseBessel]
      ring
    | n + 2, ih =>
      have e : reverseBessel (n + 2 + 1) = fun s => (2 * ((n + 1 : Nat) : ℂ) + 3) * reverseBessel (n + 2) s +
          s ^ 2 * reverseBessel (n + 1) s := rfl
      rw [e]
      refine (((ih (n + 1) (by omega)).const_mul _).add ((hasDerivAt_pow 2 s).mul (ih n (by omega)))).congr_deriv ?_
      rw [show n + 1 + 1 = n + 2 from rfl]
      simp only [reverseBessel]
      push_cast
      ring

theorem reverseBessel_recursion (n : Nat) (u : ℝ) : reverseBessel (n + 2) (I * u) =
    ((2 * n + 3 : ℝ) : ℂ) * reverseBessel (n + 1) (I * u) - ((u ^ 2 : ℝ) : ℂ) * reverseBessel n (I * u) := by
  rw [reverseBessel, mul_pow, Complex.I_sq]
  push_cast
  ring

/-- the imaginary part of the product of consecutive polynomials -/
theorem reverseBessel_im (n : Nat) (u : ℝ) :
    (reverseBessel n (I * u) * starRingEnd ℂ (reverseBessel (n + 1) (I * u))).im = -u ^ (2 * n + 1) := by
  induction n with
  | zero => simp [reverseBessel]
  | succ n ih =>
    rw [reverseBessel_recursion]
    rw [Complex.mul_im, Complex.conj_re, Complex.conj_im] at ih ⊢
    rw [Complex.sub_im, Complex.sub_re, Complex.re_ofReal_mul, Complex.re_ofReal_mul, Complex.im_ofReal_mul,
      Complex.im_ofReal_mul]
    rw [show 2 * (n + 1) + 1 = 2 + (2 * n + 1) by ring, pow_add]
    linear_combination u ^ 2 * ih

/-- the derivative along the imaginary axis -/
theorem axis_hasDerivAt (n : Nat) (u : ℝ) : HasDerivAt (fun u : ℝ => reverseBessel (n + 1) (I * u))
    (I * (reverseBessel (n + 1) (I * u) - I * u * reverseBessel n (I * u))) u := by
  have h1 : HasDerivAt (fun u : ℝ => I * (u : ℂ)) (I * 1) u := (Complex.ofRealCLM.hasDerivAt).const_mul I
  exact ((reverseBessel_hasDerivAt n (I * u)).comp u h1).congr_deriv (by ring)

theorem normSq_hasDerivAt {g : ℝ → ℂ} {g' : ℂ} {u : ℝ} (h : HasDerivAt g g' u) :
    HasDerivAt (fun u => Complex.normSq (g u)) (2 * (g' * starRingEnd ℂ (g u)).re) u := by
  have hr : HasDerivAt (fun u => (g u).re) g'.re u := (Complex.reCLM.hasFDerivAt.comp_hasDerivAt u h)
  have hi : HasDerivAt (fun u => (g u).im) g'.im u := (Complex.imCLM.hasFDerivAt.comp_hasDerivAt u h)
  have e : (fun u => Complex.normSq (g u)) = fun u => (g u).re * (g u).re + (g u).im * (g u).im := by
    funext u
    exact Complex.normSq_apply _
  rw [e]
  refine ((hr.mul hr).add (hi.mul hi)).congr_deriv ?_
  rw [Complex.mul_re, Complex.conj_re, Complex.conj_im]
  ring

theorem reverseBessel_zero_succ (n : Nat) : reverseBessel (n + 1) 0 = (2 * n + 1) * reverseBessel n 0 := by
  cases n with
  | zero => simp [reverseBessel]
  | succ n =>
    simp only [reverseBessel]
    push_cast
    ring

theorem squareCoefficient_zero (n : Nat) : squareCoefficient n 0 = Complex.normSq (reverseBessel n 0) := by
  induction n with
  | zero => simp [squareCoefficient, reverseBessel]
  | succ n ih =>
    rw [reverseBessel_zero_succ, Complex.normSq_mul, ← ih, squareCoefficient]
    have : Complex.normSq (2 * n + 1 : ℂ) = (2 * n + 1) ^ 2 := by
      have e : (2 * n + 1 : ℂ) = ((2 * n + 1 : ℝ) : ℂ) := by push_cast; ring
      rw [e, Complex.normSq_ofReal]
      ring
    rw [this]

/-- the squared magnitude and the real part of the product of consecutive polynomials -/
theorem reverseBessel_square (n : Nat) : ∀ u : ℝ, Complex.normSq (reverseBessel n (I * u)) = square n (u ^ 2) ∧
    (reverseBessel n (I * u) * starRingEnd ℂ (reverseBessel (n + 1) (I * u))).re = squareDeriv (n + 1) (u ^ 2) := by
  induction n with
  | zero =>
    intro u
    constructor
    · simp [reverseBessel, square, squareCoefficient]
    · simp [reverseBessel, squareDeriv, squareCoefficient]
  | succ n ih =>
    have hN : ∀ u : ℝ, Complex.normSq (reverseBessel (n + 1) (I * u)) = square (n + 1) (u ^ 2) := by
      have hd : ∀ u : ℝ, HasDerivAt (fun u : ℝ => Complex.normSq (reverseBessel (n + 1) (I * u)) - square (n + 1) (u ^ 2))
          0 u := by
        intro u
        have h1 := normSq_hasDerivAt (axis_hasDerivAt n u)
        have h2 : HasDerivAt (fun u : ℝ => square (n + 1) (u ^ 2)) (squareDeriv (n + 1) (u ^ 2) * (2 * u)) u :=
          (HasDerivAt.comp (h := fun u : ℝ => u ^ 2) u (square_hasDerivAt (n + 1) (u ^ 2))
            (hasDerivAt_pow 2 u)).congr_deriv (by simp)
        refine (h1.sub h2).congr_deriv ?_
        rw [← (ih u).2]
        set a := reverseBessel (n + 1) (I * u)
        set b := reverseBessel n (I * u)
        have : I * (a - I * u * b) * starRingEnd ℂ a = I * (a * starRingEnd ℂ a) + (u : ℂ) * (b * starRingEnd ℂ a) := by
          linear_combination (-(u : ℂ) * b * starRingEnd ℂ a) * Complex.I_sq
        rw [this, Complex.mul_conj, Complex.add_re, Complex.re_ofReal_mul]
        simp
        ring
      have hc := is_const_of_deriv_eq_zero (fun u => (hd u).differentiableAt) fun u => (hd u).deriv
      intro u
      have h := hc u 0
      simp only [Complex.ofReal_zero, mul_zero, ne_eq, OfNat.ofNat_ne_zero, not_false_eq_true, zero_pow, square_zero,
        squareCoefficient_zero, sub_self] at h
      exact sub_eq_zero.mp h
    intro u
    refine ⟨hN u, ?_⟩
    rw [squareDeriv_succ, ← hN u, ← (ih u).2, reverseBessel_recursion]
    rw [Complex.normSq_apply, Complex.mul_re, Complex.mul_re, Complex.conj_re, Complex.conj_im, Complex.conj_re,
      Complex.conj_im, Complex.sub_im, Complex.sub_re, Complex.re_ofReal_mul, Complex.re_ofReal_mul,
      Complex.im_ofReal_mul, Complex.im_ofReal_mul]
    push_cast
    ring

/-- the derivative of the polynomials along the imaginary axis, relative to the polynomials -/
theorem axis_relative (n : Nat) (u : ℝ) : HasDerivAt (fun u : ℝ => reverseBessel n (I * u))
    (reverseBessel n (I * u) * (((u * squareDeriv n (u ^ 2) / square n (u ^ 2) : ℝ) : ℂ) +
      I * ((1 - u ^ (2 * n) / square n (u ^ 2) : ℝ) : ℂ))) u := by
  cases n with
  | zero =>
    have e : (fun u : ℝ => reverseBessel 0 (I * u)) = fun _ => 1 := by
      funext u
      simp [reverseBessel]
    rw [e]
    refine (hasDerivAt_const u 1).congr_deriv ?_
    simp [squareDeriv, square, squareCoefficient]
  | succ n =>
    refine (axis_hasDerivAt n u).congr_deriv ?_
    have hs := (reverseBessel_square (n + 1) u).1
    have hp := (square_pos (n + 1) (sq_nonneg u)).ne'
    have hr := (reverseBessel_square n u).2
    have hi := reverseBessel_im n u
    set a := reverseBessel (n + 1) (I * u) with ha
    set b := reverseBessel n (I * u)
    set S := square (n + 1) (u ^ 2)
    set D := squareDeriv (n + 1) (u ^ 2)
    have hb : b * starRingEnd ℂ a = (D : ℂ) - I * ((u ^ (2 * n + 1) : ℝ) : ℂ) := by
      apply Complex.ext
      · rw [hr]
        simp only [Complex.sub_re, Complex.mul_re, Complex.ofReal_re, Complex.ofReal_im, Complex.I_re, Complex.I_im]
        ring
      · rw [hi]
        simp only [Complex.sub_im, Complex.mul_im, Complex.ofReal_re, Complex.ofReal_im, Complex.I_re, Complex.I_im]
        ring
    have hS : a * starRingEnd ℂ a = (S : ℂ) := by rw [Complex.mul_conj, hs]
    have hSc : (S : ℂ) ≠ 0 := by exact_mod_cast hp
    have key : b * S = a * ((D : ℂ) - I * ((u ^ (2 * n + 1) : ℝ) : ℂ)) := by
      rw [← hb, ← hS]
      ring
    have kb : b = a * ((D : ℂ) - I * ((u ^ (2 * n + 1) : ℝ) : ℂ)) / S := by rw [← key, mul_div_cancel_right₀ _ hSc]
    rw [kb]
    push_cast
    field_simp
    rw [show 2 * (n + 1) = (2 * n + 1) + 1 by ring, pow_succ (u : ℂ) (2 * n + 1)]
    linear_combination (-a * (u : ℂ) * (D - I * (u : ℂ) ^ (2 * n + 1))) * Complex.I_sq

/-- the phase of the polynomials on the imaginary axis -/
noncomputable def besselPhase (n : Nat) (u : ℝ) : ℝ := ∫ v in (0 : ℝ)..u, (1 - v ^ (2 * n) / square n (v ^ 2))

theorem besselPhase_hasDerivAt (n : Nat) (u : ℝ) :
    HasDerivAt (besselPhase n) (1 - u ^ (2 * n) / square n (u ^ 2)) u := by
  have hc : Continuous fun v : ℝ => 1 - v ^ (2 * n) / square n (v ^ 2) := by
    refine continuous_const.sub ((continuous_pow _).div ?_ fun v => (square_pos n (sq_nonneg v)).ne')
    have : Continuous (square n) := by
      unfold square
      fun_prop
    exact this.comp (continuous_pow 2)
  exact (hc.integral_hasStrictDerivAt 0 u).hasDerivAt

/-- the magnitude and the phase of the polynomials on the imaginary axis -/
theorem reverseBessel_polar (n : Nat) (u : ℝ) :
    reverseBessel n (I * u) = (Real.sqrt (square n (u ^ 2)) : ℂ) * Complex.exp (I * besselPhase n u) := by
  have hz : ∀ u : ℝ, HasDerivAt (fun u : ℝ => reverseBessel n (I * u) *
      Complex.exp (-(((Real.log (square n (u ^ 2)) / 2 : ℝ) : ℂ) + I * besselPhase n u))) 0 u := by
    intro u
    have hp := square_pos n (sq_nonneg u)
    have h1 : HasDerivAt (fun u : ℝ => Real.log (square n (u ^ 2)) / 2)
        (u * squareDeriv n (u ^ 2) / square n (u ^ 2)) u := by
      have h2 : HasDerivAt (fun u : ℝ => square n (u ^ 2)) (squareDeriv n (u ^ 2) * (2 * u)) u :=
          (HasDerivAt.comp (h := fun u : ℝ => u ^ 2) u (square_hasDerivAt n (u ^ 2))
            (hasDerivAt_pow 2 u)).congr_deriv (by simp)
      refine ((h2.log hp.ne').div_const 2).congr_deriv ?_
      field_simp
    have h3 := (h1.ofReal_comp.add ((besselPhase_hasDerivAt n u).ofReal_comp.const_mul I)).neg.cexp
    refine ((axis_relative n u).mul h3).congr_deriv ?_
    simp only [Pi.neg_apply, Pi.add_apply]
    ring
  have hc := is_const_of_deriv_eq_zero (fun u => (hz u).differentiableAt) (fun u => (hz u).deriv) u 0
  have hp := square_pos n (sq_nonneg u)
  have hexp : ∀ u : ℝ, Complex.exp (((Real.log (square n (u ^ 2)) / 2 : ℝ) : ℂ)) = (Real.sqrt (square n (u ^ 2)) : ℂ) := by
    intro u
    rw [← Complex.ofReal_exp, Real.sqrt_eq_rpow, Real.rpow_def_of_pos (square_pos n (sq_nonneg u))]
    congr 2
    ring
  have h0 : reverseBessel n (I * (0 : ℝ)) = (Real.sqrt (square n (0 ^ 2)) : ℂ) := by
    rw [Complex.ofReal_zero, mul_zero, zero_pow two_ne_zero, square_zero, squareCoefficient_zero, reverseBessel_zero,
      Complex.normSq_natCast, Real.sqrt_mul_self (Nat.cast_nonneg _), Complex.ofReal_natCast]
  have hph : besselPhase n 0 = 0 := by simp [besselPhase]
  rw [h0, hph, Complex.exp_neg, Complex.exp_neg, Complex.exp_add, Complex.exp_add, hexp, hexp] at hc
  have hs : (Real.sqrt (square n (0 ^ 2)) : ℂ) ≠ 0 :=
    Complex.ofReal_ne_zero.mpr (Real.sqrt_pos.mpr (square_pos n (sq_nonneg 0))).ne'
  rw [Complex.ofReal_zero, mul_zero, Complex.exp_zero, mul_one, mul_inv_cancel₀ hs,
    mul_inv_eq_one₀ (mul_ne_zero (Complex.ofReal_ne_zero.mpr (Real.sqrt_pos.mpr hp).ne') (Complex.exp_ne_zero _))] at hc
  exact hc

/-! ### C116 -/

/-- the function, that maps positive frequencies to the value of the channel of the filter -/
def IsResponse (a : Channels ℝ ℂ) (H : ℝ → ℂ) : Prop := ∀ mem f, 0 < f → a.call complexEnv mem f = [some (H f)]

/-- The group delay is the negative derivative of the (continuous) phase with respect to the angular frequency. -/
def IsGroupDelay (H : ℝ → ℂ) (τ : ℝ → ℝ) : Prop :=
  ∃ φ : ℝ → ℝ, ∀ f, 0 < f → H f = ‖H f‖ * Complex.exp (I * φ f) ∧ HasDerivAt φ (-(2 * Real.pi * τ f)) f

/-- two group delays of a function without zeros are equal -/
theorem groupDelay_unique {H : ℝ → ℂ} {τ σ : ℝ → ℝ} (h0 : ∀ f, 0 < f → H f ≠ 0) (h1 : IsGroupDelay H τ)
    (h2 : IsGroupDelay H σ) {f : ℝ} (hf : 0 < f) : τ f = σ f := by
  obtain ⟨φ, hφ⟩ := h1
  obtain ⟨ψ, hψ⟩ := h2
  have e : ∀ g, 0 < g → Complex.exp (I * φ g - I * ψ g) = 1 := by
    intro g hg
    have hn : (‖H g‖ : ℂ) ≠ 0 := Complex.ofReal_ne_zero.mpr (norm_ne_zero_iff.mpr (h0 g hg))
    have : (‖H g‖ : ℂ) * Complex.exp (I * φ g) = ‖H g‖ * Complex.exp (I * ψ g) :=
      ((hφ g hg).1).symm.trans (hψ g hg).1
    rw [Complex.exp_sub, mul_left_cancel₀ hn this, div_self (Complex.exp_ne_zero _)]
  have hd : HasDerivAt (fun g : ℝ => Complex.exp (I * φ g - I * ψ g)) _ f :=
    (((hφ f hf).2.ofReal_comp.const_mul I).sub ((hψ f hf).2.ofReal_comp.const_mul I)).cexp
  have hd' : HasDerivAt (fun g : ℝ => Complex.exp (I * φ g - I * ψ g)) 0 f := by
    refine (hasDerivAt_const f (1 : ℂ)).congr_of_eventuallyEq ?_
    filter_upwards [lt_mem_nhds hf] with g hg
    exact e g hg
  have h := hd.unique hd'
  simp only [Pi.sub_apply] at h
  rw [e f hf, one_mul, ← mul_sub] at h
  have h := (mul_eq_zero.mp h).resolve_left Complex.I_ne_zero
  have h : -(2 * Real.pi * τ f) - -(2 * Real.pi * σ f) = 0 := by exact_mod_cast h
  have h : 2 * Real.pi * (σ f - τ f) = 0 := by linear_combination h
  have := (mul_eq_zero.mp h).resolve_left (mul_ne_zero two_ne_zero Real.pi_ne_zero)
  linarith

/-- the magnitude and the group delay of the inverse of a reverse Bessel polynomial -/
theorem response_spec (n : Nat) (u u' : ℝ → ℝ) (hu : ∀ f, 0 < f → HasDerivAt u (u' f) f) (H : ℝ → ℂ)
    (hH : ∀ f, 0 < f → H f = reverseBessel n 0 / reverseBessel n (I * u f)) :
    (∀ f, 0 < f → ‖H f‖ ^ 2 = squareCoefficient n 0 / square n (u f ^ 2)) ∧
    IsGroupDelay H fun f => (1 - u f ^ (2 * n) / square n (u f ^ 2)) * u' f / (2 * Real.pi) := by
  have h0 : reverseBessel n 0 = (Real.sqrt (squareCoefficient n 0) : ℂ) := by
    rw [squareCoefficient_zero, reverseBessel_zero, Complex.normSq_natCast, Real.sqrt_mul_self (Nat.cast_nonneg _),
      Complex.ofReal_natCast]
  have hp : ∀ f, 0 < square n (u f ^ 2) := fun f => square_pos n (sq_nonneg _)
  have polar : ∀ f, 0 < f → H f = ((Real.sqrt (squareCoefficient n 0) / Real.sqrt (square n (u f ^ 2)) : ℝ) : ℂ) *
      Complex.exp (I * (-besselPhase n (u f) : ℝ)) := by
    intro f hf
    rw [hH f hf, reverseBessel_polar, h0, Complex.ofReal_neg, mul_neg, Complex.exp_neg]
    have := Complex.exp_ne_zero (I * besselPhase n (u f))
    have : (Real.sqrt (square n (u f ^ 2)) : ℂ) ≠ 0 := Complex.ofReal_ne_zero.mpr (Real.sqrt_pos.mpr (hp f)).ne'
    push_cast
    field_simp
  have hnorm : ∀ f, 0 < f → ‖H f‖ = Real.sqrt (squareCoefficient n 0) / Real.sqrt (square n (u f ^ 2)) := by
    intro f hf
    rw [polar f hf, norm_mul, mul_comm I, Complex.norm_exp_ofReal_mul_I, mul_one, Complex.norm_real, Real.norm_eq_abs,
      abs_of_nonneg (by positivity)]
  refine ⟨fun f hf => ?_, fun f => -besselPhase n (u f), fun f hf => ⟨?_, ?_⟩⟩
  · rw [hnorm f hf, div_pow, Real.sq_sqrt (squareCoefficient_spec n).1.le, Real.sq_sqrt (hp f).le]
  · rw [hnorm f hf]
    exact polar f hf
  · refine ((besselPhase_hasDerivAt n (u f)).comp f (hu f hf)).neg.congr_deriv ?_
    have := Real.pi_pos
    field_simp

/-- the constant coefficient -/
theorem squareCoefficient_factorial (n : Nat) : squareCoefficient n 0 = ((2 * n - 1).doubleFactorial : ℝ) ^ 2 := by
  rw [squareCoefficient_zero, reverseBessel_zero, Complex.normSq_natCast, (C38_exact 0 n).2]
  simp
  ring

/-- the response of the filters -/
theorem bessel_response (cutoff : ℝ) (hc : 0 < cutoff) (order : Nat) (highpass : Bool) :
    ∃ a H, besselFilter cutoff order highpass = .ok a ∧ IsResponse a H ∧
      (∀ f, 0 < f → ‖H f‖ ^ 2 = squareCoefficient order 0 / square order (relative cutoff highpass f ^ 2)) ∧
      (∀ f, 0 < f → H f ≠ 0) ∧
      IsGroupDelay H fun f => (1 - relative cutoff highpass f ^ (2 * order) /
        square order (relative cutoff highpass f ^ 2)) * (if highpass then cutoff / f ^ 2 else 1 / cutoff) /
          (2 * Real.pi) := by
  obtain ⟨a, ha, -, -⟩ := C38_value 0 cutoff hc order highpass
  have hu : ∀ f, 0 < f → HasDerivAt (relative cutoff highpass) (if highpass then cutoff / f ^ 2 else 1 / cutoff) f := by
    intro f hf
    cases highpass with
    | false =>
      have e : relative cutoff false = fun f => f / cutoff := by
        funext f
        simp [relative]
      rw [e]
      exact (hasDerivAt_id f).div_const cutoff
    | true =>
      have e : relative cutoff true = fun f => -cutoff * f⁻¹ := by
        funext f
        simp [relative]
        ring
      rw [e]
      exact ((hasDerivAt_inv hf.ne').const_mul (-cutoff)).congr_deriv (by simp; ring)
  have arg : ∀ f : ℝ, 0 < f → (if highpass then (cutoff : ℂ) / (I * f) else I * f / cutoff) =
      I * relative cutoff highpass f := by
    intro f hf
    cases highpass with
    | false =>
      simp only [relative, Bool.false_eq_true, if_false]
      push_cast
      ring
    | true =>
      have : (f : ℂ) ≠ 0 := by exact_mod_cast hf.ne'
      simp only [relative, if_true]
      push_cast
      have hI := Complex.I_ne_zero
      field_simp
      rw [Complex.I_sq]
      ring
  refine ⟨a, fun f => reverseBessel order 0 / reverseBessel order (I * relative cutoff highpass f), ha, ?_, ?_⟩
  · intro mem f hf
    obtain ⟨b, hb, -, hv⟩ := C38_value mem cutoff hc order highpass
    show _ = [some (reverseBessel order 0 / reverseBessel order (I * relative cutoff highpass f))]
    rw [← arg f hf, ← hv f hf.le fun _ => hf.ne']
    rw [ha] at hb
    rw [ok_inj hb]
  · obtain ⟨h1, h2⟩ := response_spec order _ _ hu _ fun f _ => rfl
    refine ⟨h1, fun f hf => ?_, h2⟩
    refine div_ne_zero ?_ (reverseBessel_ne_zero _ _)
    have := reverseBessel_ne_zero order 0
    simpa using this

/-- C116: The group delay of the lowpass filter. -/
theorem C116_lowpass (cutoff : ℝ) (hc : 0 < cutoff) (order : Nat) :
    ∃ a H, besselFilter cutoff order false = .ok a ∧ IsResponse a H ∧ (∃ τ, IsGroupDelay H τ) ∧
      ∀ τ, IsGroupDelay H τ → ∀ f, 0 < f → 2 * Real.pi * cutoff * τ f =
        1 - ‖H f‖ ^ 2 * (f / cutoff) ^ (2 * order) / ((2 * order - 1).doubleFactorial : ℝ) ^ 2 := by
  obtain ⟨a, H, ha, hr, hn, h0, hd⟩ := bessel_response cutoff hc order false
  refine ⟨a, H, ha, hr, ⟨_, hd⟩, fun τ hτ f hf => ?_⟩
  rw [groupDelay_unique h0 hτ hd hf, hn f hf, ← squareCoefficient_factorial]
  have h1 := (squareCoefficient_spec order).1.ne'
  have h2 := (square_pos order (sq_nonneg (relative cutoff false f))).ne'
  have := Real.pi_pos
  have e : relative cutoff false f = f / cutoff := by simp [relative]
  rw [e] at h2 ⊢
  simp only [Bool.false_eq_true, if_false]
  field_simp

/-- C116: Up to the cutoff frequency, the group delay of the lowpass filter is constant, except for a deviation, that
decreases with the order of the filter. -/
theorem C116_constant (cutoff : ℝ) (hc : 0 < cutoff) (order : Nat) (ho : 0 < order) :
    ∃ a H, besselFilter cutoff order false = .ok a ∧ IsResponse a H ∧ (∃ τ, IsGroupDelay H τ) ∧
      ∀ τ, IsGroupDelay H τ → ∀ f, 0 < f → 0 < τ f ∧ τ f < 1 / (2 * Real.pi * cutoff) ∧
        (1 - (f / cutoff) ^ (2 * order) / ((2 * order - 1).doubleFactorial : ℝ) ^ 2) / (2 * Real.pi * cutoff) < τ f := by
  obtain ⟨n, rfl⟩ : ∃ n, order = n + 1 := ⟨order - 1, by omega⟩
  obtain ⟨a, H, ha, hr, hn, h0, hd⟩ := bessel_response cutoff hc (n + 1) false
  refine ⟨a, H, ha, hr, ⟨_, hd⟩, fun τ hτ f hf => ?_⟩
  rw [groupDelay_unique h0 hτ hd hf, ← squareCoefficient_factorial]
  have hu : 0 < f / cutoff := div_pos hf hc
  have e : relative cutoff false f = f / cutoff := by simp [relative]
  simp only [e, Bool.false_eq_true, if_false]
  have h1 := (squareCoefficient_spec (n + 1)).1
  have h2 := square_pos (n + 1) (sq_nonneg (f / cutoff))
  have h3 := square_ge n (sq_nonneg (f / cutoff))
  rw [← pow_mul] at h3
  have hx : 0 < (f / cutoff) ^ (2 * (n + 1)) := by positivity
  have hpc : 0 < 1 / (2 * Real.pi * cutoff) := by have := Real.pi_pos; positivity
  have r1 : (1 - (f / cutoff) ^ (2 * (n + 1)) / square (n + 1) ((f / cutoff) ^ 2)) * (1 / cutoff) / (2 * Real.pi) =
      (1 - (f / cutoff) ^ (2 * (n + 1)) / square (n + 1) ((f / cutoff) ^ 2)) * (1 / (2 * Real.pi * cutoff)) := by
    have := Real.pi_pos
    field_simp
  rw [r1]
  refine ⟨mul_pos (sub_pos.mpr ((div_lt_one h2).mpr (by linarith))) hpc, ?_, ?_⟩
  · have : 0 < (f / cutoff) ^ (2 * (n + 1)) / square (n + 1) ((f / cutoff) ^ 2) := div_pos hx h2
    nlinarith
  · rw [div_eq_mul_one_div]
    refine mul_lt_mul_of_pos_right (sub_lt_sub_left ?_ _) hpc
    exact div_lt_div_of_pos_left hx h1 (by linarith)

/-- the relative deviation of the group delay up to the cutoff frequency is less than 0.5 percent for the third order -/
example : (1 : ℝ) / ((2 * 3 - 1 : Nat).doubleFactorial : ℝ) ^ 2 < 0.005 := by
  simp [Nat.doubleFactorial]
  norm_num

/-- C116: The group delay of the highpass filter. -/
theorem C116_highpass (cutoff : ℝ) (hc : 0 < cutoff) (order : Nat) :
    ∃ a H, besselFilter cutoff order true = .ok a ∧ IsResponse a H ∧ (∃ τ, IsGroupDelay H τ) ∧
      ∀ τ, IsGroupDelay H τ → ∀ f, 0 < f → 2 * Real.pi * cutoff * τ f = (cutoff / f) ^ 2 *
        (1 - ‖H f‖ ^ 2 * (cutoff / f) ^ (2 * order) / ((2 * order - 1).doubleFactorial : ℝ) ^ 2) := by
  obtain ⟨a, H, ha, hr, hn, h0, hd⟩ := bessel_response cutoff hc order true
  refine ⟨a, H, ha, hr, ⟨_, hd⟩, fun τ hτ f hf => ?_⟩
  rw [groupDelay_unique h0 hτ hd hf, hn f hf, ← squareCoefficient_factorial]
  have h1 := (squareCoefficient_spec order).1.ne'
  have h2 := (square_pos order (sq_nonneg (relative cutoff true f))).ne'
  have := Real.pi_pos
  have e : relative cutoff true f = -(cutoff / f) := by simp [relative]
  rw [e, neg_sq] at h2 ⊢
  rw [pow_mul (-(cutoff / f)) 2 order, neg_sq, ← pow_mul]
  simp only [if_true]
  field_simp

/-- C116: "Bessel filters are optimized for a […] constant group delay in the pass band" (`_bessel.py:45-46`) is not true
for highpass filters: the group delay at the cutoff frequency is more than twice as long as that at its double. -/
theorem C116_highpass_violated (cutoff : ℝ) (hc : 0 < cutoff) (order : Nat) (ho : 0 < order) :
    ∃ a H, besselFilter cutoff order true = .ok a ∧ IsResponse a H ∧ (∃ τ, IsGroupDelay H τ) ∧
      ∀ τ, IsGroupDelay H τ → 2 * τ (2 * cutoff) < τ cutoff := by
  obtain ⟨n, rfl⟩ : ∃ n, order = n + 1 := ⟨order - 1, by omega⟩
  obtain ⟨a, H, ha, hr, hn, h0, hd⟩ := bessel_response cutoff hc (n + 1) true
  refine ⟨a, H, ha, hr, ⟨_, hd⟩, fun τ hτ => ?_⟩
  have hc2 : 0 < 2 * cutoff := by linarith
  rw [groupDelay_unique h0 hτ hd hc, groupDelay_unique h0 hτ hd hc2]
  have e1 : relative cutoff true cutoff = -1 := by simp [relative, hc.ne']
  have e2 : relative cutoff true (2 * cutoff) = -(1 / 2) := by
    simp [relative]
    field_simp
  rw [e1, e2]
  simp only [if_true]
  have hp := Real.pi_pos
  have h1 : square (n + 1) ((-1) ^ 2) ≥ 2 := by
    have h := square_ge n (zero_le_one (α := ℝ))
    have : 1 ≤ squareCoefficient (n + 1) 0 := by
      rw [squareCoefficient_factorial]
      have : 1 ≤ ((2 * (n + 1) - 1).doubleFactorial : ℝ) := by exact_mod_cast Nat.doubleFactorial_pos _
      nlinarith
    rw [one_pow] at h
    rw [neg_one_sq]
    linarith
  have h2 : 0 < (-(1 / 2) : ℝ) ^ (2 * (n + 1)) / square (n + 1) ((-(1 / 2)) ^ 2) := by
    refine div_pos ?_ (square_pos _ (sq_nonneg _))
    rw [pow_mul]
    positivity
  have h3 : (-1 : ℝ) ^ (2 * (n + 1)) / square (n + 1) ((-1) ^ 2) ≤ 1 / 2 := by
    rw [pow_mul, neg_one_sq, one_pow, div_le_div_iff₀ (by rw [neg_one_sq] at h1; linarith) two_pos]
    rw [neg_one_sq] at h1
    linarith
  set x := (-(1 / 2) : ℝ) ^ (2 * (n + 1)) / square (n + 1) ((-(1 / 2)) ^ 2)
  set y := (-1 : ℝ) ^ (2 * (n + 1)) / square (n + 1) ((-1) ^ 2)
  have r1 : 2 * ((1 - x) * (cutoff / (2 * cutoff) ^ 2) / (2 * Real.pi)) =
      (1 - x) / 2 * (1 / (2 * Real.pi * cutoff)) := by
    field_simp
  have r2 : (1 - y) * (cutoff / cutoff ^ 2) / (2 * Real.pi) = (1 - y) * (1 / (2 * Real.pi * cutoff)) := by
    field_simp
  rw [r1, r2]
  exact mul_lt_mul_of_pos_right (by linarith) (by positivity)

/-- C116: The magnitude of the lowpass filter decreases and that of the highpass filter increases with the frequency. -/
theorem C116_monotone (cutoff : ℝ) (hc : 0 < cutoff) (order : Nat) (ho : 0 < order) (highpass : Bool) :
    ∃ a H, besselFilter cutoff order highpass = .ok a ∧ IsResponse a H ∧ ∀ f g, 0 < f → f < g →
      ‖H g‖ < 1 ∧ 0 < ‖H g‖ ∧ if highpass then ‖H f‖ < ‖H g‖ else ‖H g‖ < ‖H f‖ := by
  obtain ⟨n, rfl⟩ : ∃ n, order = n + 1 := ⟨order - 1, by omega⟩
  obtain ⟨a, H, ha, hr, hn, h0, -⟩ := bessel_response cutoff hc (n + 1) highpass
  refine ⟨a, H, ha, hr, fun f g hf hfg => ?_⟩
  have hg := hf.trans hfg
  have h1 := (squareCoefficient_spec (n + 1)).1
  have lt : ∀ x y, 0 < x → 0 < y → relative cutoff highpass x ^ 2 < relative cutoff highpass y ^ 2 → ‖H y‖ < ‖H x‖ := by
    intro x y hx hy h
    refine lt_of_pow_lt_pow_left₀ 2 (norm_nonneg _) ?_
    rw [hn x hx, hn y hy]
    exact div_lt_div_of_pos_left h1 (square_pos _ (sq_nonneg _)) (square_strictMono n (sq_nonneg _) h)
  refine ⟨?_, norm_pos_iff.mpr (h0 g hg), ?_⟩
  · refine lt_of_pow_lt_pow_left₀ 2 zero_le_one ?_
    rw [hn g hg, one_pow, div_lt_one (square_pos _ (sq_nonneg _)), ← square_zero]
    refine square_strictMono n le_rfl (pow_pos ?_ 2 |>.trans_le (le_of_eq (sq_abs _)))
    refine abs_pos.mpr ?_
    unfold relative
    split
    · exact neg_ne_zero.mpr (div_ne_zero hc.ne' hg.ne')
    · exact div_ne_zero hg.ne' hc.ne'
  · cases highpass with
    | false =>
      simp only [Bool.false_eq_true, if_false]
      refine lt f g hf hg ?_
      simp only [relative, Bool.false_eq_true, if_false]
      exact pow_lt_pow_left₀ (div_lt_div_of_pos_right hfg hc) (by positivity) two_ne_zero
    | true =>
      simp only [if_true]
      refine lt g f hg hf ?_
      simp only [relative, if_true]
      rw [neg_sq, neg_sq]
      exact pow_lt_pow_left₀ (div_lt_div_of_pos_left hc hf hfg) (by positivity) two_ne_zero

/-- the squared magnitude at the cutoff frequency -/
theorem square_one (n : Nat) : square n 1 ≤ 2 * squareCoefficient n 0 ∧
    square (n + 1) 1 ≤ squareCoefficient (n + 1) 0 * (1 + 2 / (2 * n + 1)) := by
  have step : ∀ n : Nat, square (n + 1) 1 ≤ squareCoefficient (n + 1) 0 + (2 * n + 1) * square n 1 := by
    intro n
    unfold square
    rw [Finset.sum_range_succ', Finset.mul_sum, pow_zero, mul_one, add_comm]
    refine add_le_add_right (Finset.sum_le_sum fun k hk => ?_) _
    have h := ((squareCoefficient_spec n).2.2 k).1 (by have := Finset.mem_range.mp hk; omega)
    simp only [one_pow, mul_one, squareCoefficient]
    rw [div_le_iff₀ (by positivity)]
    have hk : (0 : ℝ) ≤ k := by positivity
    have hn : (0 : ℝ) ≤ n := by positivity
    nlinarith [mul_nonneg h.le hk, mul_nonneg (mul_nonneg h.le hk) hn]
  have fin : ∀ n : Nat, square n 1 ≤ 2 * squareCoefficient n 0 →
      square (n + 1) 1 ≤ squareCoefficient (n + 1) 0 * (1 + 2 / (2 * n + 1)) := by
    intro n h
    refine (step n).trans ?_
    have hn : (0 : ℝ) < 2 * n + 1 := by positivity
    have : squareCoefficient (n + 1) 0 * (1 + 2 / (2 * n + 1)) =
        squareCoefficient (n + 1) 0 + (2 * n + 1) * (2 * squareCoefficient n 0) := by
      simp only [squareCoefficient]
      field_simp
    rw [this]
    exact add_le_add_right (mul_le_mul_of_nonneg_left h hn.le) _
  have all : ∀ n, square n 1 ≤ 2 * squareCoefficient n 0 := by
    intro n
    induction n with
    | zero => simp [square, squareCoefficient]
    | succ n ih =>
      cases n with
      | zero => norm_num [square, squareCoefficient, Finset.sum_range_succ]
      | succ n =>
        refine (fin (n + 1) ih).trans ?_
        have h := (squareCoefficient_spec (n + 1 + 1)).1
        rw [mul_comm]
        refine mul_le_mul_of_nonneg_right ?_ h.le
        have : (2 : ℝ) / (2 * ((n + 1 : Nat) : ℝ) + 1) ≤ 1 := by
          rw [div_le_one (by positivity)]
          push_cast
          have : (0 : ℝ) ≤ n := by positivity
          linarith
        linarith
  exact ⟨all n, fin n (all n)⟩

/-- C116: The attenuation at the cutoff frequency is at most 3 dB and it vanishes for high orders. -/
theorem C116_cutoff_partial (cutoff : ℝ) (hc : 0 < cutoff) (n : Nat) (highpass : Bool) :
    ∃ a H, besselFilter cutoff (n + 1) highpass = .ok a ∧ IsResponse a H ∧
      1 / 2 ≤ ‖H cutoff‖ ^ 2 ∧ 1 - 2 / (2 * n + 3) ≤ ‖H cutoff‖ ^ 2 ∧ (n = 0 → ‖H cutoff‖ ^ 2 = 1 / 2) := by
  obtain ⟨a, H, ha, hr, hn, -, -⟩ := bessel_response cutoff hc (n + 1) highpass
  refine ⟨a, H, ha, hr, ?_⟩
  have e : relative cutoff highpass cutoff ^ 2 = 1 := by
    cases highpass with
    | false => simp [relative, hc.ne']
    | true =>
      simp only [relative, if_true, neg_sq, div_self hc.ne', one_pow]
  rw [hn cutoff hc, e]
  have h0 := (squareCoefficient_spec (n + 1)).1
  have h1 := square_pos (n + 1) (zero_le_one (α := ℝ))
  have hp : (0 : ℝ) < 2 * n + 1 := by positivity
  refine ⟨?_, ?_, ?_⟩
  · rw [div_le_div_iff₀ two_pos h1]
    have := (square_one (n + 1)).1
    linarith
  · rw [le_div_iff₀ h1]
    have h2 := (square_one n).2
    have h3 : (1 - 2 / (2 * n + 3) : ℝ) * (1 + 2 / (2 * n + 1)) = 1 := by
      field_simp
      ring
    have h4 : (0 : ℝ) ≤ 1 - 2 / (2 * n + 3) := by
      rw [sub_nonneg, div_le_one (by positivity)]
      linarith
    calc (1 - 2 / (2 * n + 3) : ℝ) * square (n + 1) 1 ≤
          (1 - 2 / (2 * n + 3)) * (squareCoefficient (n + 1) 0 * (1 + 2 / (2 * n + 1))) :=
        mul_le_mul_of_nonneg_left h2 h4
      _ = squareCoefficient (n + 1) 0 * ((1 - 2 / (2 * n + 3)) * (1 + 2 / (2 * n + 1))) := by ring
      _ = squareCoefficient (n + 1) 0 := by rw [h3, mul_one]
  · rintro rfl
    norm_num [square, squareCoefficient, Finset.sum_range_succ]

/-- C116: "the cutoff frequency (-3dB threshold)" (`_bessel.py:63`) is wrong for filters of the second order: the
attenuation at the cutoff frequency is `10 * log10(13 / 9)`, which is about 1.6 dB. -/
theorem C116_cutoff_violated (cutoff : ℝ) (hc : 0 < cutoff) (highpass : Bool) :
    ∃ a H, besselFilter cutoff 2 highpass = .ok a ∧ IsResponse a H ∧ ‖H cutoff‖ ^ 2 = 9 / 13 := by
  obtain ⟨a, H, ha, hr, hn, -, -⟩ := bessel_response cutoff hc 2 highpass
  refine ⟨a, H, ha, hr, ?_⟩
  have e : relative cutoff highpass cutoff ^ 2 = 1 := by
    cases highpass with
    | false => simp [relative, hc.ne']
    | true =>
      simp only [relative, if_true, neg_sq, div_self hc.ne', one_pow]
  rw [hn cutoff hc, e]
  norm_num [square, squareCoefficient, Finset.sum_range_succ]

example : (0 : ℝ) < 1000 := by norm_num

end Filter
end Verif
