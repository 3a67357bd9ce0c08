import Verif.WindowsSlepianProps
import Verif.WindowsChebyshevProps
import Mathlib.Analysis.InnerProductSpace.Spectrum
import Mathlib.Analysis.InnerProductSpace.PiL2
import Mathlib.Analysis.SpecialFunctions.Integrals.Basic
import Mathlib.Analysis.Calculus.MeanValue

/-
C115: the Slepian window has the largest possible share of its energy in its main lobe.
-/

namespace Verif
namespace Windows

open Finset Polynomial MeasureTheory

/-! ### The eigenvectors of symmetric tridiagonal matrices are a basis -/

/-- the extension of a vector to a sequence -/
noncomputable def extend {M : Nat} (x : EuclideanSpace ℝ (Fin M)) (i : Nat) : ℝ := if h : i < M then x ⟨i, h⟩ else 0

theorem triMul_add (M : Nat) (d e u w : Nat → ℝ) (i : Nat) :
    triMul M d e (fun n => u n + w n) i = triMul M d e u i + triMul M d e w i := by
  unfold triMul
  split <;> split <;> ring

theorem triMul_smul (M : Nat) (d e u : Nat → ℝ) (c : ℝ) (i : Nat) :
    triMul M d e (fun n => c * u n) i = c * triMul M d e u i := by
  unfold triMul
  split <;> split <;> ring

/-- the matrix as a linear map -/
noncomputable def triMap (M : Nat) (d e : Nat → ℝ) : EuclideanSpace ℝ (Fin M) →ₗ[ℝ] EuclideanSpace ℝ (Fin M) where
  toFun x := WithLp.toLp 2 fun i => triMul M d e (extend x) i
  map_add' x y := by
    ext i
    show triMul M d e (extend (x + y)) i = triMul M d e (extend x) i + triMul M d e (extend y) i
    rw [← triMul_add]
    refine triMul_congr M d e _ _ (fun j hj => ?_) i i.2
    unfold extend
    rw [dif_pos hj, dif_pos hj, dif_pos hj]
    rfl
  map_smul' c x := by
    ext i
    show triMul M d e (extend (c • x)) i = c * triMul M d e (extend x) i
    rw [← triMul_smul]
    refine triMul_congr M d e _ _ (fun j hj => ?_) i i.2
    unfold extend
    rw [dif_pos hj, dif_pos hj]
    rfl

theorem inner_extend {M : Nat} (x y : EuclideanSpace ℝ (Fin M)) :
    inner ℝ x y = ∑ i ∈ range M, extend x i * extend y i := by
  rw [PiLp.inner_apply, Finset.sum_range]
  refine sum_congr rfl fun i _ => ?_
  unfold extend
  rw [dif_pos i.2, dif_pos i.2]
  show inner ℝ (x i) (y i) = _
  rw [real_inner_eq_re_inner, RCLike.inner_apply]
  simp [mul_comm]

theorem triMap_symmetric (N : Nat) (d e : Nat → ℝ) : (triMap (N + 1) d e).IsSymmetric := by
  intro x y
  rw [inner_extend, inner_extend]
  have h : ∀ (z : EuclideanSpace ℝ (Fin (N + 1))) i, i < N + 1 →
      extend (triMap (N + 1) d e z) i = triMul (N + 1) d e (extend z) i := by
    intro z i hi
    show (if h : i < N + 1 then (triMap (N + 1) d e z) ⟨i, h⟩ else 0) = _
    rw [dif_pos hi]
    rfl
  have e1 : ∑ i ∈ range (N + 1), extend (triMap (N + 1) d e x) i * extend y i =
      ∑ i ∈ range (N + 1), extend y i * triMul (N + 1) d e (extend x) i :=
    sum_congr rfl fun i hi => by rw [h x i (mem_range.mp hi), mul_comm]
  have e2 : ∑ i ∈ range (N + 1), extend x i * extend (triMap (N + 1) d e y) i =
      ∑ i ∈ range (N + 1), extend x i * triMul (N + 1) d e (extend y) i :=
    sum_congr rfl fun i hi => by rw [h y i (mem_range.mp hi)]
  rw [e1, e2, tri_bilinear, tri_bilinear]
  congr 1
  · exact sum_congr rfl fun i _ => by ring
  · exact sum_congr rfl fun i _ => by ring

theorem tri_basis (N : Nat) (d e : Nat → ℝ) : ∃ (b : Fin (N + 1) → Nat → ℝ) (ϑ : Fin (N + 1) → ℝ),
    (∀ j i, i < N + 1 → triMul (N + 1) d e (b j) i = ϑ j * b j i) ∧ (∀ j, ∑ i ∈ range (N + 1), b j i ^ 2 = 1) ∧
    ∀ u x : Nat → ℝ, ∑ i ∈ range (N + 1), u i * x i =
      ∑ j, (∑ i ∈ range (N + 1), u i * b j i) * ∑ i ∈ range (N + 1), b j i * x i := by
  have hs := triMap_symmetric N d e
  have hn : Module.finrank ℝ (EuclideanSpace ℝ (Fin (N + 1))) = N + 1 := by simp
  set B := hs.eigenvectorBasis hn with hB
  have hto : ∀ (u : Nat → ℝ) i, i < N + 1 → extend (WithLp.toLp 2 fun i : Fin (N + 1) => u i) i = u i := by
    intro u i hi
    unfold extend
    rw [dif_pos hi]
  refine ⟨fun j => extend (B j), hs.eigenvalues hn, ?_, ?_, ?_⟩
  · intro j i hi
    have := hs.apply_eigenvectorBasis hn j
    have := congrArg (fun x : EuclideanSpace ℝ (Fin (N + 1)) => x ⟨i, hi⟩) this
    have h1 : triMul (N + 1) d e (extend (B j)) i = (hs.eigenvalues hn j : ℝ) * (B j) ⟨i, hi⟩ := this
    rw [h1]
    congr 1
    show _ = if h : i < N + 1 then (B j) ⟨i, h⟩ else 0
    rw [dif_pos hi]
  · intro j
    have h1 : inner ℝ (B j) (B j) = (1 : ℝ) := by
      rw [real_inner_self_eq_norm_sq, B.orthonormal.1 j, one_pow]
    rw [inner_extend] at h1
    rw [← h1]
    exact sum_congr rfl fun i _ => by ring
  · intro u x
    have h := B.sum_inner_mul_inner (WithLp.toLp 2 fun i : Fin (N + 1) => u i) (WithLp.toLp 2 fun i : Fin (N + 1) => x i)
    simp only [inner_extend] at h
    rw [sum_congr rfl fun i hi => by rw [← hto u i (mem_range.mp hi), ← hto x i (mem_range.mp hi)], ← h]
    refine sum_congr rfl fun j _ => ?_
    congr 1
    · exact sum_congr rfl fun i hi => by rw [hto u i (mem_range.mp hi)]
    · exact sum_congr rfl fun i hi => by rw [hto x i (mem_range.mp hi)]

/-- An eigenvector, whose first element is zero, is zero. -/
theorem tri_first (N : Nat) (d e v : Nat → ℝ) (μ : ℝ) (he : ∀ i, i < N → 0 < e i)
    (hv : ∀ i, i < N + 1 → triMul (N + 1) d e v i = μ * v i) (h0 : v 0 = 0) : ∀ i, i < N + 1 → v i = 0 := by
  intro i
  induction i using Nat.strong_induction_on with
  | _ i ih =>
    intro hi
    match i, ih, hi with
    | 0, _, _ => exact h0
    | i + 1, ih, hi =>
      have h1 := hv i (by omega)
      unfold triMul at h1
      rw [if_pos (show i + 1 < N + 1 by omega), ih i (by omega) (by omega)] at h1
      have h4 : (if i = 0 then 0 else e (i - 1) * v (i - 1)) = 0 := by
        split
        · rfl
        · rw [ih (i - 1) (by omega) (by omega), mul_zero]
      rw [h4, mul_zero, mul_zero, zero_add, zero_add] at h1
      exact (mul_eq_zero.mp h1).resolve_left (he i (by omega)).ne'

/-! ### The kernel of the concentration of the energy -/

/-- the element of the matrix, whose quadratic form is the energy between the frequencies `-θ` and `θ` -/
noncomputable def sincKernel (θ : ℝ) (k : ℤ) : ℝ := ∫ x in (-θ)..θ, Real.cos (k * x)

theorem sincKernel_mul (θ : ℝ) (k : ℤ) : (k : ℝ) * sincKernel θ k = 2 * Real.sin (k * θ) := by
  by_cases hk : k = 0
  · subst hk
    simp
  · have hk' : (k : ℝ) ≠ 0 := by exact_mod_cast hk
    unfold sincKernel
    rw [intervalIntegral.integral_comp_mul_left (fun x => Real.cos x) hk', integral_cos, smul_eq_mul, mul_inv_cancel_left₀ hk',
      mul_neg, Real.sin_neg]
    ring

theorem sincKernel_neg (θ : ℝ) (k : ℤ) : sincKernel θ (-k) = sincKernel θ k := by
  unfold sincKernel
  refine intervalIntegral.integral_congr fun x _ => ?_
  push_cast
  rw [neg_mul, Real.cos_neg]

/-- The matrix commutes with the tridiagonal one. -/
theorem sinc_entry (N : Nat) (θ W : ℝ) (hW : 2 * Real.pi * W = θ) (m n : Nat) (hm : m < N + 1) (hn : n < N + 1) :
    triMul (N + 1) (dpssDiagonal (N + 1) W) (dpssOffDiagonal (N + 1)) (fun i => sincKernel θ ((i : ℤ) - n)) m =
    triMul (N + 1) (dpssDiagonal (N + 1) W) (dpssOffDiagonal (N + 1)) (fun i => sincKernel θ ((m : ℤ) - i)) n := by
  have expand : ∀ (f : ℤ → ℝ) (i : Nat), i < N + 1 →
      triMul (N + 1) (dpssDiagonal (N + 1) W) (dpssOffDiagonal (N + 1)) (fun i => f i) i =
        (((N : ℝ) - 2 * i) / 2) ^ 2 * Real.cos θ * f i + (i : ℝ) * (N + 1 - i) / 2 * f ((i : ℤ) - 1) +
          ((i : ℝ) + 1) * (N - i) / 2 * f ((i : ℤ) + 1) := by
    intro f i hi
    unfold triMul dpssDiagonal dpssOffDiagonal
    rw [hW]
    congr 1
    · congr 1
      · push_cast
        ring
      · split
        · rename_i h0
          rw [h0]
          push_cast
          ring
        · dsimp only
          rw [Nat.cast_sub (show 1 ≤ i by omega), Nat.cast_sub (show 1 ≤ i by omega)]
          push_cast
          ring
    · split
      · push_cast
        ring
      · rw [show i = N by omega, sub_self]
        ring
  rw [expand (fun i => sincKernel θ (i - n)) m hm, expand (fun i => sincKernel θ ((m : ℤ) - i)) n hn]
  have k1 := sincKernel_mul θ ((m : ℤ) - n - 1)
  have k2 := sincKernel_mul θ ((m : ℤ) - n + 1)
  have k3 := sincKernel_mul θ ((m : ℤ) - n)
  rw [show (m : ℤ) - 1 - n = (m : ℤ) - n - 1 by ring, show (m : ℤ) + 1 - n = (m : ℤ) - n + 1 by ring,
    show (m : ℤ) - (n - 1) = (m : ℤ) - n + 1 by ring, show (m : ℤ) - (n + 1) = (m : ℤ) - n - 1 by ring]
  have t1 : Real.sin ((((m : ℤ) - n - 1 : ℤ) : ℝ) * θ) = Real.sin ((((m : ℤ) - n : ℤ) : ℝ) * θ) * Real.cos θ -
      Real.cos ((((m : ℤ) - n : ℤ) : ℝ) * θ) * Real.sin θ := by
    rw [← Real.sin_sub]
    push_cast
    congr 1
    ring
  have t2 : Real.sin ((((m : ℤ) - n + 1 : ℤ) : ℝ) * θ) = Real.sin ((((m : ℤ) - n : ℤ) : ℝ) * θ) * Real.cos θ +
      Real.cos ((((m : ℤ) - n : ℤ) : ℝ) * θ) * Real.sin θ := by
    rw [← Real.sin_add]
    push_cast
    congr 1
    ring
  rw [t1] at k1
  rw [t2] at k2
  push_cast at k1 k2 k3 ⊢
  linear_combination ((N : ℝ) - m - n) / 2 * (k1 + k2) - ((N : ℝ) - m - n) * Real.cos θ * k3

/-- the product of the matrix and a vector -/
noncomputable def sincMul (N : Nat) (θ : ℝ) (u : Nat → ℝ) (m : Nat) : ℝ :=
  ∑ n ∈ range (N + 1), sincKernel θ ((m : ℤ) - n) * u n

theorem triMul_sum (M : Nat) (d e : Nat → ℝ) (K : Nat) (f : Nat → Nat → ℝ) (c : Nat → ℝ) (i : Nat) :
    triMul M d e (fun m => ∑ n ∈ range K, f m n * c n) i = ∑ n ∈ range K, triMul M d e (fun m => f m n) i * c n := by
  induction K with
  | zero =>
    simp only [sum_range_zero]
    unfold triMul
    simp
  | succ K ih =>
    simp only [sum_range_succ]
    rw [triMul_add, ih]
    congr 1
    have := triMul_smul M d e (fun m => f m K) (c K) i
    rw [mul_comm _ (c K), ← this]
    congr 1
    funext m
    ring

theorem sinc_commute (N : Nat) (θ W : ℝ) (hW : 2 * Real.pi * W = θ) (u : Nat → ℝ) (m : Nat) (hm : m < N + 1) :
    triMul (N + 1) (dpssDiagonal (N + 1) W) (dpssOffDiagonal (N + 1)) (sincMul N θ u) m =
      sincMul N θ (triMul (N + 1) (dpssDiagonal (N + 1) W) (dpssOffDiagonal (N + 1)) u) m := by
  have h1 := triMul_sum (N + 1) (dpssDiagonal (N + 1) W) (dpssOffDiagonal (N + 1)) (N + 1)
    (fun m n => sincKernel θ ((m : ℤ) - n)) u m
  have h2 : triMul (N + 1) (dpssDiagonal (N + 1) W) (dpssOffDiagonal (N + 1)) (sincMul N θ u) m =
      ∑ n ∈ range (N + 1), triMul (N + 1) (dpssDiagonal (N + 1) W) (dpssOffDiagonal (N + 1))
        (fun i => sincKernel θ ((i : ℤ) - n)) m * u n := h1
  rw [h2, sum_congr rfl fun n hn => by rw [sinc_entry N θ W hW m n hm (mem_range.mp hn), mul_comm]]
  unfold sincMul
  rw [tri_bilinear, tri_bilinear]
  congr 1
  · exact sum_congr rfl fun i _ => by ring
  · exact sum_congr rfl fun i _ => by ring

/-- The eigenvectors of the tridiagonal matrix are eigenvectors of the kernel. -/
theorem sinc_eigen (N : Nat) (θ W : ℝ) (hW : 2 * Real.pi * W = θ) (v : Nat → ℝ) (μ : ℝ)
    (hv : ∀ i, i < N + 1 → triMul (N + 1) (dpssDiagonal (N + 1) W) (dpssOffDiagonal (N + 1)) v i = μ * v i) (h0 : v 0 ≠ 0) :
    ∃ l : ℝ, ∀ i, i < N + 1 → sincMul N θ v i = l * v i := by
  have hA : ∀ i, i < N + 1 → triMul (N + 1) (dpssDiagonal (N + 1) W) (dpssOffDiagonal (N + 1)) (sincMul N θ v) i =
      μ * sincMul N θ v i := by
    intro i hi
    rw [sinc_commute N θ W hW v i hi]
    unfold sincMul
    rw [mul_sum]
    exact sum_congr rfl fun n hn => by rw [hv n (mem_range.mp hn)]; ring
  have := tri_unique N _ _ (sincMul N θ v) v μ (fun i hi => off_pos N i hi) hA hv
  refine ⟨sincMul N θ v 0 / v 0, fun i hi => ?_⟩
  rw [div_mul_eq_mul_div, eq_div_iff h0, ← this i hi]
  ring

/-- There is an eigenvector of both matrices, whose eigenvalue of the kernel is the largest one. -/
theorem sinc_top (N : Nat) (θ W : ℝ) (hW : 2 * Real.pi * W = θ) : ∃ (w : Nat → ℝ) (ϑ l : ℝ),
    (∀ i, i < N + 1 → triMul (N + 1) (dpssDiagonal (N + 1) W) (dpssOffDiagonal (N + 1)) w i = ϑ * w i) ∧
    ∑ i ∈ range (N + 1), w i ^ 2 = 1 ∧ (∀ i, i < N + 1 → sincMul N θ w i = l * w i) ∧
    ∀ u : Nat → ℝ, ∑ i ∈ range (N + 1), u i * sincMul N θ u i ≤ l * ∑ i ∈ range (N + 1), u i ^ 2 := by
  obtain ⟨b, ϑ, h1, h2, h3⟩ := tri_basis N (dpssDiagonal (N + 1) W) (dpssOffDiagonal (N + 1))
  have hne : ∀ j, b j 0 ≠ 0 := by
    intro j h0
    have := tri_first N _ _ (b j) (ϑ j) (fun i hi => off_pos N i hi) (h1 j) h0
    have h4 := h2 j
    rw [sum_eq_zero fun i hi => by rw [this i (mem_range.mp hi), zero_pow two_ne_zero]] at h4
    exact absurd h4 (by norm_num)
  choose l hl using fun j => sinc_eigen N θ W hW (b j) (ϑ j) (h1 j) (hne j)
  obtain ⟨j, _, hj⟩ := exists_max_image (univ : Finset (Fin (N + 1))) l ⟨0, mem_univ _⟩
  refine ⟨b j, ϑ j, l j, h1 j, h2 j, hl j, fun u => ?_⟩
  have hsym : ∀ k, ∑ i ∈ range (N + 1), b k i * sincMul N θ u i = l k * ∑ i ∈ range (N + 1), b k i * u i := by
    intro k
    unfold sincMul
    simp only [mul_sum]
    rw [sum_comm]
    refine sum_congr rfl fun n hn => ?_
    have := hl k n (mem_range.mp hn)
    unfold sincMul at this
    rw [← mul_assoc, ← this, sum_mul]
    refine sum_congr rfl fun i _ => ?_
    rw [show (i : ℤ) - n = -((n : ℤ) - i) by ring, sincKernel_neg]
    ring
  rw [h3 u (sincMul N θ u)]
  have e : ∑ i ∈ range (N + 1), u i ^ 2 = ∑ k, (∑ i ∈ range (N + 1), b k i * u i) ^ 2 := by
    rw [sum_congr rfl fun i _ => sq (u i), h3 u u]
    refine sum_congr rfl fun k _ => ?_
    rw [sq]
    congr 1
    exact sum_congr rfl fun i _ => mul_comm _ _
  rw [e, mul_sum]
  refine sum_le_sum fun k _ => ?_
  rw [hsym k, sum_congr rfl fun i _ => mul_comm (u i) (b k i)]
  have := mul_le_mul_of_nonneg_right (hj k (mem_univ _)) (sq_nonneg (∑ i ∈ range (N + 1), b k i * u i))
  linarith

/-! ### The energy in a frequency band -/

theorem spectrumOf_continuous (M : Nat) (u : Nat → ℂ) : Continuous (spectrumOf M u) := by
  unfold spectrumOf
  fun_prop

theorem norm_spectrumOf (M : Nat) (u : Nat → ℂ) (x : ℝ) : ‖spectrumOf M u x‖ ^ 2 = ∑ m ∈ range M, ∑ n ∈ range M,
    (((u m).re * (u n).re + (u m).im * (u n).im) * Real.cos ((((m : ℤ) - n : ℤ) : ℝ) * x) +
      ((u m).im * (u n).re - (u m).re * (u n).im) * Real.sin ((((m : ℤ) - n : ℤ) : ℝ) * x)) := by
  have h1 : ((‖spectrumOf M u x‖ ^ 2 : ℝ) : ℂ) = spectrumOf M u x * (starRingEnd ℂ) (spectrumOf M u x) := by
    rw [Complex.mul_conj, Complex.normSq_eq_norm_sq]
  have h2 := congrArg Complex.re h1
  rw [Complex.ofReal_re] at h2
  rw [h2]
  unfold spectrumOf
  rw [map_sum, sum_mul_sum, Complex.re_sum]
  refine sum_congr rfl fun m _ => ?_
  rw [Complex.re_sum]
  refine sum_congr rfl fun n _ => ?_
  have e : (u m * Complex.exp (-(Complex.I * x * m))) * (starRingEnd ℂ) (u n * Complex.exp (-(Complex.I * x * n))) =
      (u m * (starRingEnd ℂ) (u n)) * Complex.exp (((-((((m : ℤ) - n : ℤ) : ℝ) * x) : ℝ) : ℂ) * Complex.I) := by
    rw [map_mul, ← Complex.exp_conj, mul_mul_mul_comm, ← Complex.exp_add]
    congr 2
    simp only [map_neg, map_mul, Complex.conj_I, Complex.conj_ofReal, map_natCast]
    push_cast
    ring
  rw [e, Complex.mul_re, Complex.exp_ofReal_mul_I_re, Complex.exp_ofReal_mul_I_im, Real.cos_neg, Real.sin_neg, Complex.mul_re,
    Complex.mul_im, Complex.conj_re, Complex.conj_im]
  ring

theorem integral_sin_odd (θ : ℝ) (k : ℤ) : ∫ x in (-θ)..θ, Real.sin (k * x) = 0 := by
  by_cases hk : k = 0
  · subst hk
    simp
  · have hk' : (k : ℝ) ≠ 0 := by exact_mod_cast hk
    rw [intervalIntegral.integral_comp_mul_left (fun x => Real.sin x) hk', integral_sin, mul_neg, Real.cos_neg, sub_self, smul_zero]

theorem energy_eq (N : Nat) (u : Nat → ℂ) (θ : ℝ) : ∫ x in (-θ)..θ, ‖spectrumOf (N + 1) u x‖ ^ 2 =
    ∑ m ∈ range (N + 1), (u m).re * sincMul N θ (fun n => (u n).re) m +
      ∑ m ∈ range (N + 1), (u m).im * sincMul N θ (fun n => (u n).im) m := by
  simp only [norm_spectrumOf]
  rw [intervalIntegral.integral_finsetSum fun m _ => (by fun_prop : Continuous _).intervalIntegrable _ _, ← sum_add_distrib]
  refine sum_congr rfl fun m _ => ?_
  rw [intervalIntegral.integral_finsetSum fun n _ => (by fun_prop : Continuous _).intervalIntegrable _ _]
  unfold sincMul
  rw [mul_sum, mul_sum, ← sum_add_distrib]
  refine sum_congr rfl fun n _ => ?_
  rw [intervalIntegral.integral_add ((by fun_prop : Continuous _).intervalIntegrable _ _)
    ((by fun_prop : Continuous _).intervalIntegrable _ _), intervalIntegral.integral_const_mul,
    intervalIntegral.integral_const_mul, integral_sin_odd]
  unfold sincKernel
  ring

theorem sincKernel_pi (k : ℤ) : sincKernel Real.pi k = if k = 0 then 2 * Real.pi else 0 := by
  by_cases hk : k = 0
  · subst hk
    unfold sincKernel
    simp
    ring
  · rw [if_neg hk]
    have := sincKernel_mul Real.pi k
    rw [Real.sin_int_mul_pi, mul_zero] at this
    exact (mul_eq_zero.mp this).resolve_left (by exact_mod_cast hk)

theorem sincMul_pi (N : Nat) (u : Nat → ℝ) (m : Nat) (hm : m < N + 1) : sincMul N Real.pi u m = 2 * Real.pi * u m := by
  unfold sincMul
  rw [sum_eq_single m]
  · rw [sincKernel_pi, if_pos (sub_self _)]
  · intro n _ hn
    rw [sincKernel_pi, if_neg (by omega), zero_mul]
  · intro h
    exact absurd (mem_range.mpr hm) h

/-- Parseval's theorem -/
theorem energy_total (N : Nat) (u : Nat → ℂ) :
    ∫ x in (-Real.pi)..Real.pi, ‖spectrumOf (N + 1) u x‖ ^ 2 = 2 * Real.pi * ∑ i ∈ range (N + 1), ‖u i‖ ^ 2 := by
  rw [energy_eq, ← sum_add_distrib, mul_sum]
  refine sum_congr rfl fun m hm => ?_
  rw [sincMul_pi N _ m (mem_range.mp hm), sincMul_pi N _ m (mem_range.mp hm), Complex.sq_norm, Complex.normSq_apply]
  ring

theorem energy_le (N : Nat) (θ l : ℝ)
    (hl : ∀ u : Nat → ℝ, ∑ i ∈ range (N + 1), u i * sincMul N θ u i ≤ l * ∑ i ∈ range (N + 1), u i ^ 2) (u : Nat → ℂ) :
    ∫ x in (-θ)..θ, ‖spectrumOf (N + 1) u x‖ ^ 2 ≤ l * ∑ i ∈ range (N + 1), ‖u i‖ ^ 2 := by
  rw [energy_eq]
  have e : ∑ i ∈ range (N + 1), ‖u i‖ ^ 2 = ∑ i ∈ range (N + 1), (u i).re ^ 2 + ∑ i ∈ range (N + 1), (u i).im ^ 2 := by
    rw [← sum_add_distrib]
    exact sum_congr rfl fun i _ => by rw [Complex.sq_norm, Complex.normSq_apply]; ring
  rw [e, mul_add]
  exact add_le_add (hl _) (hl _)

theorem energy_eigen (N : Nat) (θ l : ℝ) (w : Nat → ℝ) (hw : ∀ i, i < N + 1 → sincMul N θ w i = l * w i) :
    ∫ x in (-θ)..θ, ‖spectrumOf (N + 1) (fun i => (w i : ℂ)) x‖ ^ 2 = l * ∑ i ∈ range (N + 1), w i ^ 2 := by
  rw [energy_eq]
  simp only [Complex.ofReal_re, Complex.ofReal_im, zero_mul, sum_const_zero, add_zero]
  rw [mul_sum]
  exact sum_congr rfl fun i hi => by rw [hw i (mem_range.mp hi)]; ring

/-! ### The spectrum of the optimal sequence does not have zeros in the main lobe -/

theorem concentration_pos (θ c : ℝ) (h0 : 0 < θ) (h1 : θ < Real.pi) (hc0 : 0 < c) (hc1 : c ≤ 1) (f : ℝ → ℝ) (hf : Continuous f)
    (hp : ∀ x, 0 ≤ f x) (hx : ∃ x, θ < x ∧ x < Real.pi ∧ 0 < f x) :
    0 < (∫ x in (-θ)..θ, (Real.cos x - Real.cos θ) * f x) - c * ∫ x in (-Real.pi)..Real.pi, (Real.cos x - Real.cos θ) * f x := by
  set g : ℝ → ℝ := fun x => (Real.cos x - Real.cos θ) * f x with hg
  have hgc : Continuous g := by rw [hg]; fun_prop
  have hi : ∀ a b, IntervalIntegrable g volume a b := fun a b => hgc.intervalIntegrable a b
  have e : ∫ x in (-Real.pi)..Real.pi, g x = (∫ x in (-Real.pi)..(-θ), g x) + (∫ x in (-θ)..θ, g x) + ∫ x in θ..Real.pi, g x := by
    rw [intervalIntegral.integral_add_adjacent_intervals (hi _ _) (hi _ _),
      intervalIntegral.integral_add_adjacent_intervals (hi _ _) (hi _ _)]
  have i1 : 0 ≤ ∫ x in (-θ)..θ, g x := by
    refine intervalIntegral.integral_nonneg (by linarith) fun x hx => mul_nonneg ?_ (hp x)
    rw [sub_nonneg, ← Real.cos_abs x]
    exact Real.cos_le_cos_of_nonneg_of_le_pi (abs_nonneg x) h1.le (abs_le.mpr hx)
  have i2 : 0 ≤ -∫ x in (-Real.pi)..(-θ), g x := by
    rw [← intervalIntegral.integral_neg]
    refine intervalIntegral.integral_nonneg (by linarith) fun x hx => ?_
    rw [hg]
    dsimp only
    rw [← neg_mul]
    refine mul_nonneg ?_ (hp x)
    rw [neg_sub, sub_nonneg, ← Real.cos_neg x]
    exact Real.cos_le_cos_of_nonneg_of_le_pi h0.le (by linarith [hx.1]) (by linarith [hx.2])
  have i3 : 0 < -∫ x in θ..Real.pi, g x := by
    rw [← intervalIntegral.integral_neg]
    obtain ⟨x, x1, x2, x3⟩ := hx
    refine intervalIntegral.integral_pos h1 hgc.neg.continuousOn (fun x hx => ?_) ⟨x, ⟨x1.le, x2.le⟩, ?_⟩
    · rw [hg]
      dsimp only
      rw [← neg_mul]
      refine mul_nonneg ?_ (hp x)
      rw [neg_sub, sub_nonneg]
      exact Real.cos_le_cos_of_nonneg_of_le_pi h0.le hx.2 hx.1.le
    · rw [hg]
      dsimp only
      rw [← neg_mul]
      refine mul_pos ?_ x3
      rw [neg_sub, sub_pos]
      exact Real.cos_lt_cos_of_nonneg_of_le_pi h0.le x2.le x1
  rw [e]
  have := mul_nonneg (sub_nonneg.mpr hc1) i1
  have := mul_nonneg hc0.le i2
  have := mul_pos hc0 i3
  linarith

theorem spectrumOf_eval (N : Nat) (P : ℂ[X]) (hP : P.natDegree ≤ N) (x : ℝ) :
    spectrumOf (N + 1) P.coeff x = P.eval (Complex.exp (-(Complex.I * x))) := by
  unfold spectrumOf
  rw [eval_eq_sum_range' (show P.natDegree < N + 1 by omega)]
  refine sum_congr rfl fun i _ => ?_
  rw [← Complex.exp_nat_mul]
  congr 2
  ring

theorem spectrumOf_congr (M : Nat) (u v : Nat → ℂ) (h : ∀ i, i < M → u i = v i) (x : ℝ) : spectrumOf M u x = spectrumOf M v x :=
  sum_congr rfl fun i hi => by rw [h i (mem_range.mp hi)]

/-- a quadratic polynomial without positive values, whose constant term is zero -/
theorem linear_zero (a b : ℝ) (h : ∀ t : ℝ, 2 * t * a + t ^ 2 * b ≤ 0) : a = 0 := by
  by_contra ha
  have hb : 0 < |b| + 1 := by positivity
  have h1 := h (a / (|b| + 1))
  have h2 : (a / (|b| + 1)) ^ 2 * (-(|b| + 1)) ≤ (a / (|b| + 1)) ^ 2 * b :=
    mul_le_mul_of_nonneg_left (by linarith [neg_abs_le b]) (sq_nonneg _)
  have h3 : (a / (|b| + 1)) ^ 2 * (-(|b| + 1)) = -(a ^ 2 / (|b| + 1)) := by field_simp
  have h4 : 2 * (a / (|b| + 1)) * a = 2 * (a ^ 2 / (|b| + 1)) := by ring
  have h5 : 0 < a ^ 2 / (|b| + 1) := by positivity
  linarith

theorem no_zero (N : Nat) (θ l : ℝ) (h0 : 0 < θ) (h1 : θ < Real.pi) (w : Nat → ℝ) (hw1 : ∑ i ∈ range (N + 1), w i ^ 2 = 1)
    (hw : ∀ i, i < N + 1 → sincMul N θ w i = l * w i)
    (hl : ∀ u : Nat → ℝ, ∑ i ∈ range (N + 1), u i * sincMul N θ u i ≤ l * ∑ i ∈ range (N + 1), u i ^ 2) (φ : ℝ)
    (hφ : |φ| ≤ θ) : spectrumOf (N + 1) (fun i => (w i : ℂ)) φ ≠ 0 := by
  intro hz
  have hpi := Real.pi_pos
  set c := l / (2 * Real.pi) with hc
  set J : (ℝ → ℝ) → ℝ := fun f => (∫ x in (-θ)..θ, f x) - c * ∫ x in (-Real.pi)..Real.pi, f x with hJ
  have hJle : ∀ u : Nat → ℂ, J (fun x => ‖spectrumOf (N + 1) u x‖ ^ 2) ≤ 0 := by
    intro u
    rw [hJ]
    dsimp only
    rw [energy_total, hc, show l / (2 * Real.pi) * (2 * Real.pi * ∑ i ∈ range (N + 1), ‖u i‖ ^ 2) =
      l * ∑ i ∈ range (N + 1), ‖u i‖ ^ 2 by field_simp]
    linarith [energy_le N θ l hl u]
  have hJw : J (fun x => ‖spectrumOf (N + 1) (fun i => (w i : ℂ)) x‖ ^ 2) = 0 := by
    rw [hJ]
    dsimp only
    rw [energy_total, energy_eigen N θ l w hw, hc]
    simp only [Complex.norm_real, Real.norm_eq_abs, sq_abs]
    rw [show l / (2 * Real.pi) * (2 * Real.pi * ∑ i ∈ range (N + 1), w i ^ 2) = l * ∑ i ∈ range (N + 1), w i ^ 2 by field_simp,
      sub_self]
  have hJadd : ∀ (f g : ℝ → ℝ) (a b : ℝ), Continuous f → Continuous g → J (fun x => a * f x + b * g x) = a * J f + b * J g := by
    intro f g a b hf hg
    rw [hJ]
    dsimp only
    rw [intervalIntegral.integral_add ((hf.const_mul a).intervalIntegrable _ _) ((hg.const_mul b).intervalIntegrable _ _),
      intervalIntegral.integral_add ((hf.const_mul a).intervalIntegrable _ _) ((hg.const_mul b).intervalIntegrable _ _)]
    simp only [intervalIntegral.integral_const_mul]
    ring
  -- the polynomial
  set P : ℂ[X] := ∑ n ∈ range (N + 1), monomial n (w n : ℂ) with hP
  have hPc : ∀ i, i < N + 1 → P.coeff i = (w i : ℂ) := by
    intro i hi
    rw [hP, finsetSum_coeff]
    simp only [coeff_monomial]
    rw [sum_ite_eq' (range (N + 1)) i, if_pos (mem_range.mpr hi)]
  have hPd : P.natDegree ≤ N := by
    refine natDegree_sum_le_of_forall_le _ _ fun i hi => ?_
    refine le_trans (natDegree_monomial_le _) ?_
    have := mem_range.mp hi
    omega
  have hWP : ∀ x, spectrumOf (N + 1) (fun i => (w i : ℂ)) x = P.eval (Complex.exp (-(Complex.I * x))) := by
    intro x
    rw [← spectrumOf_eval N P hPd]
    exact spectrumOf_congr _ _ _ (fun i hi => (hPc i hi).symm) x
  have hP0 : P ≠ 0 := by
    intro h
    have : ∑ i ∈ range (N + 1), w i ^ 2 = 0 := sum_eq_zero fun i hi => by
      have := hPc i (mem_range.mp hi)
      rw [h, coeff_zero] at this
      have : w i = 0 := by exact_mod_cast this.symm
      rw [this, zero_pow two_ne_zero]
    rw [this] at hw1
    exact absurd hw1 (by norm_num)
  have hroot : P.IsRoot (Complex.exp (-(Complex.I * φ))) := by
    rw [IsRoot, ← hWP, hz]
  obtain ⟨Q, hQ⟩ := dvd_iff_isRoot.mpr hroot
  have hQ0 : Q ≠ 0 := by
    rintro rfl
    rw [mul_zero] at hQ
    exact hP0 hQ
  have hQd : Q.natDegree ≤ N := by
    have := congrArg natDegree hQ
    rw [natDegree_mul (X_sub_C_ne_zero _) hQ0, natDegree_X_sub_C] at this
    omega
  set q : ℝ → ℂ := spectrumOf (N + 1) Q.coeff with hq
  have hqe : ∀ x, q x = Q.eval (Complex.exp (-(Complex.I * x))) := spectrumOf_eval N Q hQd
  have hqc : Continuous q := spectrumOf_continuous _ _
  set f : ℝ → ℝ := fun x => ‖q x‖ ^ 2 with hf
  have hfc : Continuous f := by rw [hf]; fun_prop
  have hW : ∀ x : ℝ, spectrumOf (N + 1) (fun i => (w i : ℂ)) x =
      (Complex.exp (-(Complex.I * x)) - Complex.exp (-(Complex.I * φ))) * q x := by
    intro x
    rw [hWP, hqe, hQ, eval_mul, eval_sub, eval_X, eval_C]
  have hre : ∀ x : ℝ, (spectrumOf (N + 1) (fun i => (w i : ℂ)) x * (starRingEnd ℂ) (q x)).re =
      (Real.cos x - Real.cos φ) * f x := by
    intro x
    rw [hW, mul_assoc, Complex.mul_conj, Complex.normSq_eq_norm_sq, Complex.re_mul_ofReal]
    congr 1
    rw [Complex.sub_re, show -(Complex.I * x) = ((-x : ℝ) : ℂ) * Complex.I by push_cast; ring,
      show -(Complex.I * φ) = ((-φ : ℝ) : ℂ) * Complex.I by push_cast; ring, Complex.exp_ofReal_mul_I_re,
      Complex.exp_ofReal_mul_I_re, Real.cos_neg, Real.cos_neg]
  have hJ1 : J (fun x => (Real.cos x - Real.cos φ) * f x) = 0 := by
    refine linear_zero _ (J f) fun t => ?_
    have h := hJle fun i => (w i : ℂ) + t * Q.coeff i
    have e : ∀ x, ‖spectrumOf (N + 1) (fun i => (w i : ℂ) + t * Q.coeff i) x‖ ^ 2 =
        1 * ‖spectrumOf (N + 1) (fun i => (w i : ℂ)) x‖ ^ 2 + 1 * (2 * t * ((Real.cos x - Real.cos φ) * f x) + t ^ 2 * f x) := by
      intro x
      have e1 : spectrumOf (N + 1) (fun i => (w i : ℂ) + t * Q.coeff i) x =
          spectrumOf (N + 1) (fun i => (w i : ℂ)) x + t * q x := by
        rw [hq]
        unfold spectrumOf
        rw [mul_sum, ← sum_add_distrib]
        exact sum_congr rfl fun i _ => by ring
      rw [e1, ← hre, ← Complex.normSq_eq_norm_sq, Complex.normSq_add, Complex.normSq_eq_norm_sq, Complex.normSq_eq_norm_sq,
        norm_mul, Complex.norm_real, mul_pow, Real.norm_eq_abs, sq_abs, map_mul, Complex.conj_ofReal,
        mul_left_comm _ (t : ℂ), Complex.re_ofReal_mul]
      ring
    simp only [e] at h
    rw [hJadd _ _ 1 1 (by have := spectrumOf_continuous (N + 1) fun i => (w i : ℂ); fun_prop) (by fun_prop), hJw,
      hJadd (fun x => (Real.cos x - Real.cos φ) * f x) f (2 * t) (t ^ 2) (by fun_prop) hfc] at h
    linarith
  have hJf : J f ≤ 0 := hJle _
  have hJ2 : J (fun x => (Real.cos x - Real.cos θ) * f x) ≤ 0 := by
    have e : (fun x => (Real.cos x - Real.cos θ) * f x) =
        fun x => 1 * ((Real.cos x - Real.cos φ) * f x) + (Real.cos φ - Real.cos θ) * f x := by
      funext x
      ring
    rw [e, hJadd (fun x => (Real.cos x - Real.cos φ) * f x) f 1 _ (by fun_prop) hfc, hJ1, mul_zero, zero_add]
    refine mul_nonpos_of_nonneg_of_nonpos ?_ hJf
    rw [sub_nonneg, ← Real.cos_abs φ]
    exact Real.cos_le_cos_of_nonneg_of_le_pi (abs_nonneg φ) h1.le hφ
  -- the largest eigenvalue
  have hl0 : 0 < l := by
    have := hl fun i => if i = 0 then 1 else 0
    rw [sum_eq_single 0 (fun i _ hi => by rw [if_neg hi, zero_mul]) (fun h => absurd (mem_range.mpr (by omega)) h),
      sum_eq_single 0 (fun i _ hi => by rw [if_neg hi, zero_pow two_ne_zero]) (fun h => absurd (mem_range.mpr (by omega)) h),
      if_pos rfl, one_pow, one_mul, mul_one] at this
    unfold sincMul at this
    dsimp only at this
    rw [sum_eq_single 0 (fun i _ hi => by rw [if_neg hi, mul_zero]) (fun h => absurd (mem_range.mpr (by omega)) h), if_pos rfl,
      mul_one] at this
    refine lt_of_lt_of_le ?_ this
    unfold sincKernel
    simp
    linarith
  have hc0 : 0 < c := by positivity
  have hc1 : c ≤ 1 := by
    have h2 := energy_eigen N θ l w hw
    have h3 := energy_total N fun i => (w i : ℂ)
    simp only [Complex.norm_real, Real.norm_eq_abs, sq_abs] at h3
    rw [hw1, mul_one] at h2 h3
    have hcont : Continuous fun x => ‖spectrumOf (N + 1) (fun i => (w i : ℂ)) x‖ ^ 2 := by
      have := spectrumOf_continuous (N + 1) fun i => (w i : ℂ)
      fun_prop
    have h4 : ∫ x in (-θ)..θ, ‖spectrumOf (N + 1) (fun i => (w i : ℂ)) x‖ ^ 2 ≤
        ∫ x in (-Real.pi)..Real.pi, ‖spectrumOf (N + 1) (fun i => (w i : ℂ)) x‖ ^ 2 :=
      intervalIntegral.integral_mono_interval (by linarith) (by linarith) h1.le
        (Filter.Eventually.of_forall fun x => sq_nonneg _) (hcont.intervalIntegrable _ _)
    rw [h2, h3] at h4
    rw [hc, div_le_one (by positivity)]
    exact h4
  obtain ⟨x, x1, x2, x3⟩ : ∃ x, θ < x ∧ x < Real.pi ∧ 0 < f x := by
    by_contra hcon
    simp only [not_exists, not_and, not_lt] at hcon
    refine hQ0 (eq_zero_of_infinite_isRoot Q ?_)
    have hinj : Set.InjOn (fun x : ℝ => Complex.exp (-(Complex.I * x))) (Set.Ioo θ Real.pi) := by
      intro a ha b hb hab
      have := congrArg Complex.re hab
      dsimp only at this
      rw [show -(Complex.I * a) = ((-a : ℝ) : ℂ) * Complex.I by push_cast; ring,
        show -(Complex.I * b) = ((-b : ℝ) : ℂ) * Complex.I by push_cast; ring, Complex.exp_ofReal_mul_I_re,
        Complex.exp_ofReal_mul_I_re, Real.cos_neg, Real.cos_neg] at this
      exact Real.injOn_cos ⟨by linarith [ha.1], ha.2.le⟩ ⟨by linarith [hb.1], hb.2.le⟩ this
    refine ((Set.Ioo_infinite h1).image hinj).mono ?_
    rintro _ ⟨x, hx, rfl⟩
    have h2 : f x = 0 := le_antisymm (hcon x hx.1 hx.2) (sq_nonneg _)
    have h3 : q x = 0 := norm_eq_zero.mp (pow_eq_zero_iff two_ne_zero |>.mp h2)
    show Q.eval _ = 0
    rw [← hqe, h3]
  have := concentration_pos θ c h0 h1 hc0 hc1 f hfc (fun x => sq_nonneg _) ⟨x, x1, x2, x3⟩
  exact absurd hJ2 (not_le.mpr this)

/-! ### The differential equation of the spectrum -/

/-- the spectrum without its linear phase -/
noncomputable def zeroPhase (N : Nat) (v : Nat → ℝ) (x : ℝ) : ℝ := ∑ n ∈ range (N + 1), v n * Real.cos (((N : ℝ) - 2 * n) * x)

/-- its first derivative -/
noncomputable def zeroPhase1 (N : Nat) (v : Nat → ℝ) (x : ℝ) : ℝ :=
  ∑ n ∈ range (N + 1), v n * (-((N : ℝ) - 2 * n) * Real.sin (((N : ℝ) - 2 * n) * x))

/-- its second derivative -/
noncomputable def zeroPhase2 (N : Nat) (v : Nat → ℝ) (x : ℝ) : ℝ :=
  ∑ n ∈ range (N + 1), v n * (-((N : ℝ) - 2 * n) ^ 2 * Real.cos (((N : ℝ) - 2 * n) * x))

theorem zeroPhase_deriv (N : Nat) (v : Nat → ℝ) (x : ℝ) : HasDerivAt (zeroPhase N v) (zeroPhase1 N v x) x := by
  unfold zeroPhase zeroPhase1
  refine HasDerivAt.fun_sum fun n _ => HasDerivAt.const_mul _ ?_
  have h : HasDerivAt (fun x : ℝ => ((N : ℝ) - 2 * n) * x) ((N : ℝ) - 2 * n) x := by
    simpa using (hasDerivAt_id x).const_mul ((N : ℝ) - 2 * n)
  exact h.cos.congr_deriv (by ring)

theorem zeroPhase1_deriv (N : Nat) (v : Nat → ℝ) (x : ℝ) : HasDerivAt (zeroPhase1 N v) (zeroPhase2 N v x) x := by
  unfold zeroPhase1 zeroPhase2
  refine HasDerivAt.fun_sum fun n _ => HasDerivAt.const_mul _ ?_
  have h : HasDerivAt (fun x : ℝ => ((N : ℝ) - 2 * n) * x) ((N : ℝ) - 2 * n) x := by
    simpa using (hasDerivAt_id x).const_mul ((N : ℝ) - 2 * n)
  convert h.sin.const_mul (-((N : ℝ) - 2 * n)) using 1
  ring

theorem zeroPhase_equation (N : Nat) (θ W : ℝ) (hW : 2 * Real.pi * W = θ) (v : Nat → ℝ) (μ : ℝ)
    (hv : ∀ i, i < N + 1 → triMul (N + 1) (dpssDiagonal (N + 1) W) (dpssOffDiagonal (N + 1)) v i = μ * v i) (x : ℝ) :
    (Real.cos (2 * x) - Real.cos θ) * zeroPhase2 N v x + -2 * Real.sin (2 * x) * zeroPhase1 N v x +
      N * (N + 2) * Real.cos (2 * x) * zeroPhase N v x = 4 * μ * zeroPhase N v x := by
  have h1 : μ * zeroPhase N v x = ∑ n ∈ range (N + 1), v n * triMul (N + 1) (dpssDiagonal (N + 1) W) (dpssOffDiagonal (N + 1))
      (fun n => Real.cos (((N : ℝ) - 2 * n) * x)) n := by
    have e : μ * zeroPhase N v x = ∑ n ∈ range (N + 1), Real.cos (((N : ℝ) - 2 * n) * x) *
        triMul (N + 1) (dpssDiagonal (N + 1) W) (dpssOffDiagonal (N + 1)) v n := by
      unfold zeroPhase
      rw [mul_sum]
      exact sum_congr rfl fun n hn => by rw [hv n (mem_range.mp hn)]; ring
    rw [e, tri_bilinear, tri_bilinear]
    congr 1
    · exact sum_congr rfl fun i _ => by ring
    · exact sum_congr rfl fun i _ => by ring
  rw [mul_assoc 4 μ, h1]
  unfold zeroPhase zeroPhase1 zeroPhase2
  rw [mul_sum, mul_sum, mul_sum, mul_sum, ← sum_add_distrib, ← sum_add_distrib]
  refine sum_congr rfl fun n hn => ?_
  have hn' := mem_range.mp hn
  have ht : triMul (N + 1) (dpssDiagonal (N + 1) W) (dpssOffDiagonal (N + 1)) (fun n => Real.cos (((N : ℝ) - 2 * n) * x)) n =
      (((N : ℝ) - 2 * n) / 2) ^ 2 * Real.cos θ * Real.cos (((N : ℝ) - 2 * n) * x) +
        (n : ℝ) * (N + 1 - n) / 2 * Real.cos (((N : ℝ) - 2 * n) * x + 2 * x) +
          ((n : ℝ) + 1) * (N - n) / 2 * Real.cos (((N : ℝ) - 2 * n) * x - 2 * x) := by
    unfold triMul dpssDiagonal dpssOffDiagonal
    rw [hW]
    congr 1
    · congr 1
      · push_cast
        ring
      · split
        · rename_i h0
          rw [h0]
          push_cast
          ring
        · dsimp only
          rw [Nat.cast_sub (show 1 ≤ n by omega)]
          push_cast
          rw [show ((N : ℝ) - 2 * (n - 1)) * x = ((N : ℝ) - 2 * n) * x + 2 * x by ring]
          ring
    · split
      · push_cast
        rw [show ((N : ℝ) - 2 * (n + 1)) * x = ((N : ℝ) - 2 * n) * x - 2 * x by ring]
        ring
      · rw [show n = N by omega, sub_self]
        ring
  rw [ht, Real.cos_add, Real.cos_sub]
  ring

/-- A sequence, whose spectrum does not have zeros in the main lobe, belongs to the largest eigenvalue. -/
theorem zeroPhase_compare (N : Nat) (θ W : ℝ) (hW : 2 * Real.pi * W = θ) (h0 : 0 < θ) (v w : Nat → ℝ) (μ ϑ : ℝ)
    (hv : ∀ i, i < N + 1 → triMul (N + 1) (dpssDiagonal (N + 1) W) (dpssOffDiagonal (N + 1)) v i = μ * v i)
    (hw : ∀ i, i < N + 1 → triMul (N + 1) (dpssDiagonal (N + 1) W) (dpssOffDiagonal (N + 1)) w i = ϑ * w i)
    (hne : ∀ x, |x| ≤ θ / 2 → zeroPhase N w x ≠ 0) (hpi : θ < Real.pi) (hv0 : zeroPhase N v 0 ≠ 0) : μ ≤ ϑ := by
  by_contra hcon
  rw [not_le] at hcon
  set p : ℝ → ℝ := fun x => Real.cos (2 * x) - Real.cos θ with hp
  set a := zeroPhase N w
  set b := zeroPhase N v
  set a1 := zeroPhase1 N w
  set b1 := zeroPhase1 N v
  set H : ℝ → ℝ := fun x => p x * b1 x * b x - p x * a1 x * b x ^ 2 / a x with hH
  have hpd : ∀ x, HasDerivAt p (-2 * Real.sin (2 * x)) x := by
    intro x
    have h : HasDerivAt (fun x : ℝ => 2 * x) 2 x := by simpa using (hasDerivAt_id x).const_mul (2 : ℝ)
    exact (h.cos.sub_const (Real.cos θ)).congr_deriv (by ring)
  have hd : ∀ x, |x| ≤ θ / 2 → HasDerivAt H (4 * (μ - ϑ) * b x ^ 2 + p x * (b1 x - a1 x * b x / a x) ^ 2) x := by
    intro x hx
    have ha := hne x hx
    have e1 := ((hpd x).mul (zeroPhase1_deriv N v x)).mul (zeroPhase_deriv N v x)
    have e2 := (((hpd x).mul (zeroPhase1_deriv N w x)).mul ((zeroPhase_deriv N v x).pow 2)).div (zeroPhase_deriv N w x) ha
    refine (e1.sub e2).congr_deriv (Eq.symm ?_)
    have q1 := zeroPhase_equation N θ W hW v μ hv x
    have q2 := zeroPhase_equation N θ W hW w ϑ hw x
    have r1 : -2 * Real.sin (2 * x) * b1 x + p x * zeroPhase2 N v x = (4 * μ - N * (N + 2) * Real.cos (2 * x)) * b x := by
      linear_combination q1
    have r2 : -2 * Real.sin (2 * x) * a1 x + p x * zeroPhase2 N w x = (4 * ϑ - N * (N + 2) * Real.cos (2 * x)) * a x := by
      linear_combination q2
    show 4 * (μ - ϑ) * b x ^ 2 + p x * (b1 x - a1 x * b x / a x) ^ 2 =
      (-2 * Real.sin (2 * x) * b1 x + p x * zeroPhase2 N v x) * b x + p x * b1 x * b1 x -
        ((((-2 * Real.sin (2 * x) * a1 x + p x * zeroPhase2 N w x) * b x ^ 2 +
          p x * a1 x * ((2 : ℕ) * b x ^ (2 - 1) * b1 x)) * a x - p x * a1 x * b x ^ 2 * a1 x) / a x ^ 2)
    rw [r1, r2]
    have ha' : a x ≠ 0 := ha
    field_simp
    push_cast
    ring
  have hpnn : ∀ x, |x| ≤ θ / 2 → 0 ≤ p x := by
    intro x hx
    rw [hp]
    dsimp only
    rw [sub_nonneg, ← Real.cos_abs (2 * x), abs_mul, abs_of_pos (two_pos)]
    exact Real.cos_le_cos_of_nonneg_of_le_pi (by positivity) hpi.le (by linarith)
  have hend : ∀ x, |x| = θ / 2 → H x = 0 := by
    intro x hx
    have : p x = 0 := by
      rw [hp]
      dsimp only
      rw [← Real.cos_abs (2 * x), abs_mul, abs_of_pos (two_pos), hx, mul_div_cancel₀ _ two_ne_zero, sub_self]
    rw [hH]
    dsimp only
    rw [this]
    ring
  have hmem : ∀ x, x ∈ Set.Icc (-(θ / 2)) (θ / 2) → |x| ≤ θ / 2 := fun x hx => abs_le.mpr hx
  have hmono : MonotoneOn H (Set.Icc (-(θ / 2)) (θ / 2)) := by
    refine monotoneOn_of_deriv_nonneg (convex_Icc _ _)
      (fun x hx => (hd x (hmem x hx)).continuousAt.continuousWithinAt) (fun x hx => ?_) (fun x hx => ?_)
    · exact (hd x (hmem x (interior_subset hx))).differentiableAt.differentiableWithinAt
    · have hx' := hmem x (interior_subset hx)
      rw [(hd x hx').deriv]
      have := hpnn x hx'
      have : 0 < μ - ϑ := by linarith
      positivity
  have hzero : ∀ x ∈ Set.Icc (-(θ / 2)) (θ / 2), H x = 0 := by
    intro x hx
    have hl : -(θ / 2) ∈ Set.Icc (-(θ / 2)) (θ / 2) := ⟨le_rfl, by linarith⟩
    have hr : θ / 2 ∈ Set.Icc (-(θ / 2)) (θ / 2) := ⟨by linarith, le_rfl⟩
    have i1 := hmono hl hx hx.1
    have i2 := hmono hx hr hx.2
    rw [hend _ (by rw [abs_neg, abs_of_pos (by linarith)])] at i1
    rw [hend _ (abs_of_pos (by linarith))] at i2
    exact le_antisymm i2 i1
  have hd0 := hd 0 (by rw [abs_zero]; linarith)
  have hev : H =ᶠ[nhds 0] fun _ => 0 := by
    filter_upwards [Icc_mem_nhds (show -(θ / 2) < 0 by linarith) (show 0 < θ / 2 by linarith)] with x hx
    exact hzero x hx
  have h2 := hd0.unique ((hasDerivAt_const (0 : ℝ) (0 : ℝ)).congr_of_eventuallyEq hev)
  have hb : 0 < b 0 ^ 2 := by positivity
  have h3 := hpnn 0 (by rw [abs_zero]; linarith)
  have h4 : 0 < 4 * (μ - ϑ) * b 0 ^ 2 := mul_pos (by linarith) hb
  have h5 : 0 ≤ p 0 * (b1 0 - a1 0 * b 0 / a 0) ^ 2 := mul_nonneg h3 (sq_nonneg _)
  linarith

/-- The spectrum of a palindrome is the product of a real function and a linear phase. -/
theorem spectrumOf_palindrome (N : Nat) (w : Nat → ℝ) (hw : ∀ i, i < N + 1 → w (N - i) = w i) (x : ℝ) :
    spectrumOf (N + 1) (fun i => (w i : ℂ)) (2 * x) = Complex.exp (-(Complex.I * N * x)) * (zeroPhase N w x : ℂ) := by
  have hs : ∑ n ∈ range (N + 1), w n * Real.sin (((N : ℝ) - 2 * n) * x) = 0 := by
    have h := sum_range_reflect (fun n => w n * Real.sin (((N : ℝ) - 2 * n) * x)) (N + 1)
    have h2 : ∑ n ∈ range (N + 1), w (N + 1 - 1 - n) * Real.sin (((N : ℝ) - 2 * ((N + 1 - 1 - n : Nat) : ℝ)) * x) =
        -∑ n ∈ range (N + 1), w n * Real.sin (((N : ℝ) - 2 * n) * x) := by
      rw [← sum_neg_distrib]
      refine sum_congr rfl fun n hn => ?_
      have hn' := mem_range.mp hn
      rw [show N + 1 - 1 - n = N - n by omega, hw n hn', Nat.cast_sub (by omega), ← mul_neg, ← Real.sin_neg]
      congr 2
      ring
    rw [h2] at h
    linarith
  have e : ((zeroPhase N w x : ℝ) : ℂ) = ∑ n ∈ range (N + 1), (w n : ℂ) * Complex.exp (((((N : ℝ) - 2 * n) * x : ℝ) : ℂ) * Complex.I) := by
    apply Complex.ext
    · rw [Complex.ofReal_re, Complex.re_sum]
      unfold zeroPhase
      exact sum_congr rfl fun n _ => by rw [Complex.re_ofReal_mul, Complex.exp_ofReal_mul_I_re]
    · rw [Complex.ofReal_im, Complex.im_sum, ← hs]
      exact sum_congr rfl fun n _ => by rw [Complex.im_ofReal_mul, Complex.exp_ofReal_mul_I_im]
  rw [e]
  unfold spectrumOf
  rw [mul_sum]
  refine sum_congr rfl fun n _ => ?_
  rw [mul_left_comm, ← Complex.exp_add]
  congr 2
  push_cast
  ring

/-- The positive eigenvector of the tridiagonal matrix is the one, that belongs to the largest eigenvalue of the kernel. -/
theorem dpss_optimal (N : Nat) (θ W : ℝ) (hW : 2 * Real.pi * W = θ) (h0 : 0 < θ) (hpi : θ < Real.pi) (v : Nat → ℝ)
    (hp : ∀ i, i < N + 1 → 0 < v i) (ht : IsTop (N + 1) (dpssDiagonal (N + 1) W) (dpssOffDiagonal (N + 1)) v) :
    ∃ l : ℝ, (∀ i, i < N + 1 → sincMul N θ v i = l * v i) ∧
      ∀ u : Nat → ℝ, ∑ i ∈ range (N + 1), u i * sincMul N θ u i ≤ l * ∑ i ∈ range (N + 1), u i ^ 2 := by
  obtain ⟨_, μ, hv, hm⟩ := ht
  obtain ⟨w, ϑ, l, w1, w2, w3, w4⟩ := sinc_top N θ W hW
  have hnz := no_zero N θ l h0 hpi w w2 w3 w4
  have hr := tri_reverse N _ _ w ϑ (diagonal_symm N W) (off_symm N) w1
  have hu := tri_unique N _ _ (fun i => w (N - i)) w ϑ (fun i hi => off_pos N i hi) hr w1
  have hw0 : w 0 ≠ 0 := by
    intro h
    have := tri_first N _ _ w ϑ (fun i hi => off_pos N i hi) w1 h
    rw [sum_eq_zero fun i hi => by rw [this i (mem_range.mp hi), zero_pow two_ne_zero]] at w2
    exact absurd w2 (by norm_num)
  have hsum : ∑ i ∈ range (N + 1), w i ≠ 0 := by
    intro h
    refine hnz 0 (by rw [abs_zero]; exact h0.le) ?_
    unfold spectrumOf
    simp only [Complex.ofReal_zero, mul_zero, zero_mul, neg_zero, Complex.exp_zero, mul_one]
    exact_mod_cast h
  have hpal : ∀ i, i < N + 1 → w (N - i) = w i := by
    have h1 : w 0 * ∑ i ∈ range (N + 1), w i = w N * ∑ i ∈ range (N + 1), w i := by
      rw [mul_sum, mul_sum]
      have := sum_congr (rfl : range (N + 1) = range (N + 1)) fun i hi => hu i (mem_range.mp hi)
      rw [Nat.sub_zero] at this
      rw [← this]
      have h2 := sum_range_reflect (fun i => w 0 * w i) (N + 1)
      rw [← h2]
      exact sum_congr rfl fun i _ => by rw [show N + 1 - 1 - i = N - i by omega]
    have h2 := mul_right_cancel₀ hsum h1
    intro i hi
    have := hu i hi
    rw [Nat.sub_zero, ← h2] at this
    exact mul_left_cancel₀ hw0 this
  have hne : ∀ x, |x| ≤ θ / 2 → zeroPhase N w x ≠ 0 := by
    intro x hx h
    refine hnz (2 * x) (by rw [abs_mul, abs_of_pos (two_pos)]; linarith) ?_
    rw [spectrumOf_palindrome N w hpal, h, Complex.ofReal_zero, mul_zero]
  have hv0 : zeroPhase N v 0 ≠ 0 := by
    have : 0 < zeroPhase N v 0 := by
      unfold zeroPhase
      refine sum_pos (fun i hi => ?_) ⟨0, mem_range.mpr (by omega)⟩
      rw [mul_zero, Real.cos_zero, mul_one]
      exact hp i (mem_range.mp hi)
    exact this.ne'
  have hle := zeroPhase_compare N θ W hW h0 v w μ ϑ hv w1 hne hpi hv0
  have hge : ϑ ≤ μ := by
    have := hm w
    rw [sum_congr rfl fun i hi => by rw [w1 i (mem_range.mp hi), show w i * (ϑ * w i) = ϑ * w i ^ 2 by ring], ← mul_sum, w2, mul_one,
      mul_one] at this
    exact this
  obtain rfl := le_antisymm hle hge
  have hprop := tri_unique N _ _ v w μ (fun i hi => off_pos N i hi) hv w1
  refine ⟨l, fun i hi => ?_, w4⟩
  refine mul_left_cancel₀ hw0 ?_
  have e : w 0 * sincMul N θ v i = v 0 * sincMul N θ w i := by
    unfold sincMul
    rw [mul_sum, mul_sum]
    exact sum_congr rfl fun n hn => by linear_combination sincKernel θ ((i : ℤ) - n) * hprop n (mem_range.mp hn)
  rw [e, w3 i hi]
  linear_combination (-l) * hprop i hi

/-! ### Uniqueness -/

theorem sincMul_sub (N : Nat) (θ c : ℝ) (u v : Nat → ℝ) (i : Nat) :
    sincMul N θ (fun n => u n - c * v n) i = sincMul N θ u i - c * sincMul N θ v i := by
  unfold sincMul
  rw [mul_sum, ← sum_sub_distrib]
  exact sum_congr rfl fun n _ => by ring

theorem sincMul_symm (N : Nat) (θ : ℝ) (u v : Nat → ℝ) :
    ∑ i ∈ range (N + 1), u i * sincMul N θ v i = ∑ i ∈ range (N + 1), v i * sincMul N θ u i := by
  unfold sincMul
  simp only [mul_sum]
  rw [sum_comm]
  refine sum_congr rfl fun n _ => sum_congr rfl fun m _ => ?_
  rw [← sincKernel_neg, neg_sub]
  ring

/-- A sequence with the largest possible energy in the main lobe is an eigenvector. -/
theorem sinc_maximum (N : Nat) (θ l : ℝ)
    (hl : ∀ u : Nat → ℝ, ∑ i ∈ range (N + 1), u i * sincMul N θ u i ≤ l * ∑ i ∈ range (N + 1), u i ^ 2) (u : Nat → ℝ)
    (hu : l * ∑ i ∈ range (N + 1), u i ^ 2 ≤ ∑ i ∈ range (N + 1), u i * sincMul N θ u i) (i : Nat) (hi : i < N + 1) :
    sincMul N θ u i = l * u i := by
  set r : Nat → ℝ := fun i => l * u i - sincMul N θ u i with hr
  set S := ∑ i ∈ range (N + 1), r i ^ 2 with hS
  set C := l * ∑ i ∈ range (N + 1), r i ^ 2 - ∑ i ∈ range (N + 1), r i * sincMul N θ r i with hC
  have hC0 : 0 ≤ C := by have := hl r; linarith
  have hS0 : 0 ≤ S := sum_nonneg fun i _ => sq_nonneg _
  have key : ∀ t : ℝ, 2 * t * S ≤ t ^ 2 * C := by
    intro t
    have h := hl (fun n => u n - t * r n)
    have e1 : ∑ i ∈ range (N + 1), (u i - t * r i) * sincMul N θ (fun n => u n - t * r n) i =
        ∑ i ∈ range (N + 1), u i * sincMul N θ u i - 2 * t * ∑ i ∈ range (N + 1), r i * sincMul N θ u i +
          t ^ 2 * ∑ i ∈ range (N + 1), r i * sincMul N θ r i := by
      have hsym := sincMul_symm N θ u r
      rw [show 2 * t * ∑ i ∈ range (N + 1), r i * sincMul N θ u i = t * ∑ i ∈ range (N + 1), u i * sincMul N θ r i +
        t * ∑ i ∈ range (N + 1), r i * sincMul N θ u i by rw [hsym]; ring]
      rw [mul_sum, mul_sum, mul_sum, ← sum_add_distrib, ← sum_sub_distrib, ← sum_add_distrib]
      exact sum_congr rfl fun i _ => by rw [sincMul_sub]; ring
    have e2 : ∑ i ∈ range (N + 1), (u i - t * r i) ^ 2 = ∑ i ∈ range (N + 1), u i ^ 2 -
        2 * t * ∑ i ∈ range (N + 1), r i * u i + t ^ 2 * ∑ i ∈ range (N + 1), r i ^ 2 := by
      rw [mul_sum, mul_sum, ← sum_sub_distrib, ← sum_add_distrib]
      exact sum_congr rfl fun i _ => by ring
    have e3 : S = l * ∑ i ∈ range (N + 1), r i * u i - ∑ i ∈ range (N + 1), r i * sincMul N θ u i := by
      rw [hS, mul_sum, ← sum_sub_distrib]
      exact sum_congr rfl fun i _ => by rw [hr]; ring
    rw [e1, e2] at h
    rw [e3, hC]
    linarith
  have hzero : S = 0 := by
    by_contra hne
    have hpos : 0 < S := lt_of_le_of_ne hS0 (Ne.symm hne)
    have h := key (S / (C + 1))
    have hC1 : 0 < C + 1 := by linarith
    rw [div_pow, ← sub_nonneg] at h
    have e : S ^ 2 / (C + 1) ^ 2 * C - 2 * (S / (C + 1)) * S = -(S ^ 2 * (C + 2)) / (C + 1) ^ 2 := by
      field_simp
      ring
    rw [e] at h
    have : -(S ^ 2 * (C + 2)) / (C + 1) ^ 2 < 0 := div_neg_of_neg_of_pos (by
      have : 0 < S ^ 2 * (C + 2) := by positivity
      linarith) (by positivity)
    linarith
  have := (sum_eq_zero_iff_of_nonneg fun i _ => sq_nonneg (r i)).mp hzero i (mem_range.mpr hi)
  have h := pow_eq_zero_iff two_ne_zero |>.mp this
  rw [hr] at h
  linarith

/-- All optimal sequences are multiples of each other. -/
theorem sinc_unique (N : Nat) (θ l : ℝ) (h0 : 0 < θ) (h1 : θ < Real.pi) (v : Nat → ℝ) (hp : ∀ i, i < N + 1 → 0 < v i)
    (hv : ∀ i, i < N + 1 → sincMul N θ v i = l * v i)
    (hl : ∀ u : Nat → ℝ, ∑ i ∈ range (N + 1), u i * sincMul N θ u i ≤ l * ∑ i ∈ range (N + 1), u i ^ 2) (u : Nat → ℝ)
    (hu : ∀ i, i < N + 1 → sincMul N θ u i = l * u i) : ∃ c : ℝ, ∀ i, i < N + 1 → u i = c * v i := by
  have hs : 0 < ∑ i ∈ range (N + 1), v i := sum_pos (fun i hi => hp i (mem_range.mp hi)) ⟨0, mem_range.mpr (by omega)⟩
  set c := (∑ i ∈ range (N + 1), u i) / ∑ i ∈ range (N + 1), v i with hc
  refine ⟨c, ?_⟩
  set w : Nat → ℝ := fun n => u n - c * v n with hw
  have hws : ∑ i ∈ range (N + 1), w i = 0 := by
    rw [hw, sum_sub_distrib, ← mul_sum, hc, div_mul_cancel₀ _ hs.ne', sub_self]
  have hwe : ∀ i, i < N + 1 → sincMul N θ w i = l * w i := by
    intro i hi
    rw [hw, sincMul_sub, hu i hi, hv i hi]
    ring
  by_cases hz : ∑ i ∈ range (N + 1), w i ^ 2 = 0
  · intro i hi
    have := (sum_eq_zero_iff_of_nonneg fun i _ => sq_nonneg (w i)).mp hz i (mem_range.mpr hi)
    have h := pow_eq_zero_iff two_ne_zero |>.mp this
    rw [hw] at h
    linarith
  · exfalso
    have hpos : 0 < ∑ i ∈ range (N + 1), w i ^ 2 := lt_of_le_of_ne (sum_nonneg fun i _ => sq_nonneg _) (Ne.symm hz)
    set q := Real.sqrt (∑ i ∈ range (N + 1), w i ^ 2) with hq
    have hq0 : 0 < q := Real.sqrt_pos.mpr hpos
    refine no_zero N θ l h0 h1 (fun i => w i / q) ?_ ?_ hl 0 (by rw [abs_zero]; exact h0.le) ?_
    · simp only [div_pow]
      rw [← sum_div, hq, Real.sq_sqrt hpos.le, div_self hpos.ne']
    · intro i hi
      have e : sincMul N θ (fun i => w i / q) i = sincMul N θ w i / q := by
        unfold sincMul
        rw [sum_div]
        exact sum_congr rfl fun n _ => by ring
      rw [e, hwe i hi]
      ring
    · unfold spectrumOf
      simp only [Complex.ofReal_zero, mul_zero, zero_mul, neg_zero, Complex.exp_zero, mul_one]
      have : ∑ i ∈ range (N + 1), w i / q = 0 := by rw [← sum_div, hws, zero_div]
      exact_mod_cast this

/-! ### C115 -/

/-- the energy of the frequencies up to `θ` (in radians per sample) of the sequence `u(0), …, u(L - 1)` -/
noncomputable def inBand (L : Nat) (θ : ℝ) (u : Nat → ℂ) : ℝ := ∫ x in (-θ)..θ, ‖spectrumOf L u x‖ ^ 2

/-- the energy of the other frequencies -/
noncomputable def outOfBand (L : Nat) (θ : ℝ) (u : Nat → ℂ) : ℝ :=
  (∫ x in (-Real.pi)..(-θ), ‖spectrumOf L u x‖ ^ 2) + ∫ x in θ..Real.pi, ‖spectrumOf L u x‖ ^ 2

theorem band_sum (N : Nat) (θ : ℝ) (u : Nat → ℂ) :
    inBand (N + 1) θ u + outOfBand (N + 1) θ u = 2 * Real.pi * ∑ i ∈ range (N + 1), ‖u i‖ ^ 2 := by
  have hi : ∀ a b, IntervalIntegrable (fun x => ‖spectrumOf (N + 1) u x‖ ^ 2) volume a b := fun a b =>
    ((spectrumOf_continuous (N + 1) u).norm.pow 2).intervalIntegrable a b
  rw [← energy_total, ← intervalIntegral.integral_add_adjacent_intervals (hi (-Real.pi) (-θ)) (hi (-θ) Real.pi),
    ← intervalIntegral.integral_add_adjacent_intervals (hi (-θ) θ) (hi θ Real.pi)]
  unfold inBand outOfBand
  ring

/-- the sequence of the window is positive and has the largest possible energy in its main lobe -/
theorem window_top {R : Type} (mem : Nat → Nat → ℝ) (eigh : Eigh) (beta : ℝ) (plateau : Indexing.Idx) (rate : R) (N : Nat)
    (hi : Indexing.index (N + 1) plateau = some 0) (hL : 2 ≤ N) (he : Solves eigh (N + 1)) (hb0 : 0 < beta)
    (hb1 : beta / Real.pi < ((N + 1 : Nat) : ℝ) / 2) :
    0 < 2 * beta / (N + 1 : Nat) ∧ 2 * beta / (N + 1 : Nat) < Real.pi ∧
    ∃ s : Signal ℝ R, slepianWindow mem eigh beta plateau rate (N + 1) true = some (.ok (s, 0)) ∧
      (∀ i, i < N + 1 → 0 < s.channels.get 0 i) ∧
      ∃ l : ℝ, (∀ i, i < N + 1 → sincMul N (2 * beta / (N + 1 : Nat)) (s.channels.get 0) i = l * s.channels.get 0 i) ∧
        ∀ u : Nat → ℝ, ∑ i ∈ range (N + 1), u i * sincMul N (2 * beta / (N + 1 : Nat)) u i ≤ l * ∑ i ∈ range (N + 1), u i ^ 2 := by
  have hNp : (0 : ℝ) < ((N + 1 : Nat) : ℝ) := by positivity
  have hpi := Real.pi_pos
  have t0 : 0 < 2 * beta / (N + 1 : Nat) := by positivity
  have t1 : 2 * beta / (N + 1 : Nat) < Real.pi := by
    rw [div_lt_div_iff₀ hpi two_pos] at hb1
    rw [div_lt_iff₀ hNp]
    linarith
  refine ⟨t0, t1, ?_⟩
  obtain ⟨s, s1, _, _, _, _, _, w, s2, ⟨c, hc, s3⟩, _, _⟩ :=
    window_ok mem eigh beta plateau rate (N + 1) true hi hL he hb0 hb1
  obtain ⟨hp, ht⟩ := dpss_positive eigh N (beta / Real.pi) he
  obtain ⟨l, l1, l2⟩ := dpss_optimal N (2 * beta / (N + 1 : Nat)) (beta / Real.pi / (N + 1 : Nat)) (by field_simp) t0 t1 _ hp ht
  have hs : ∀ i, i < N + 1 → s.channels.get 0 i = c * dpssSequence eigh (N + 1) (beta / Real.pi) i := fun i hi =>
    (s2 i hi).trans (s3 i)
  refine ⟨s, s1, fun i hi => by rw [hs i hi]; exact mul_pos hc (hp i hi), l, fun i hi => ?_, l2⟩
  have e : sincMul N (2 * beta / (N + 1 : Nat)) (s.channels.get 0) i =
      c * sincMul N (2 * beta / (N + 1 : Nat)) (dpssSequence eigh (N + 1) (beta / Real.pi)) i := by
    unfold sincMul
    rw [mul_sum]
    exact sum_congr rfl fun n hn => by rw [hs n (mem_range.mp hn)]; ring
  rw [e, l1 i hi, hs i hi]
  ring

/-- C115: No other sequence of the same length has a larger share of its energy in the main lobe, which reaches from
`-2 * beta / length` to `2 * beta / length`. -/
theorem C115_concentration {R : Type} (mem : Nat → Nat → ℝ) (eigh : Eigh) (beta : ℝ) (plateau : Indexing.Idx) (rate : R)
    (L : Nat) (hi : Indexing.index L plateau = some 0) (hL : 3 ≤ L) (he : Solves eigh L) (hb0 : 0 < beta)
    (hb1 : beta / Real.pi < (L : ℝ) / 2) :
    ∃ s : Signal ℝ R, slepianWindow mem eigh beta plateau rate L true = some (.ok (s, 0)) ∧ ∀ u : Nat → ℂ,
      inBand L (2 * beta / L) u * ∑ i ∈ range L, s.channels.get 0 i ^ 2 ≤
        inBand L (2 * beta / L) (fun i => (s.channels.get 0 i : ℂ)) * ∑ i ∈ range L, ‖u i‖ ^ 2 := by
  obtain ⟨N, rfl⟩ : ∃ N, L = N + 1 := ⟨L - 1, by omega⟩
  obtain ⟨t0, t1, s, s1, s2, l, l1, l2⟩ := window_top mem eigh beta plateau rate N hi (by omega) he hb0 hb1
  refine ⟨s, s1, fun u => ?_⟩
  have h1 := energy_le N _ l l2 u
  unfold inBand
  rw [energy_eigen N _ l _ l1]
  have hnn : 0 ≤ ∑ i ∈ range (N + 1), s.channels.get 0 i ^ 2 := sum_nonneg fun i _ => sq_nonneg _
  have := mul_le_mul_of_nonneg_right h1 hnn
  linarith

/-- C115: The window minimizes the energy of the side lobes in relation to the energy of the main lobe. -/
theorem C115_side_lobes {R : Type} (mem : Nat → Nat → ℝ) (eigh : Eigh) (beta : ℝ) (plateau : Indexing.Idx) (rate : R)
    (L : Nat) (hi : Indexing.index L plateau = some 0) (hL : 3 ≤ L) (he : Solves eigh L) (hb0 : 0 < beta)
    (hb1 : beta / Real.pi < (L : ℝ) / 2) :
    ∃ s : Signal ℝ R, slepianWindow mem eigh beta plateau rate L true = some (.ok (s, 0)) ∧
      0 < inBand L (2 * beta / L) (fun i => (s.channels.get 0 i : ℂ)) ∧
      ∀ u : Nat → ℂ, 0 < inBand L (2 * beta / L) u →
        outOfBand L (2 * beta / L) (fun i => (s.channels.get 0 i : ℂ)) / inBand L (2 * beta / L) (fun i => (s.channels.get 0 i : ℂ)) ≤
          outOfBand L (2 * beta / L) u / inBand L (2 * beta / L) u := by
  obtain ⟨N, rfl⟩ : ∃ N, L = N + 1 := ⟨L - 1, by omega⟩
  obtain ⟨t0, t1, s, s1, s2, l, l1, l2⟩ := window_top mem eigh beta plateau rate N hi (by omega) he hb0 hb1
  have hS : 0 < ∑ i ∈ range (N + 1), s.channels.get 0 i ^ 2 :=
    sum_pos (fun i hi => by have := s2 i (mem_range.mp hi); positivity) ⟨0, mem_range.mpr (by omega)⟩
  have hin : inBand (N + 1) (2 * beta / (N + 1 : Nat)) (fun i => (s.channels.get 0 i : ℂ)) =
      l * ∑ i ∈ range (N + 1), s.channels.get 0 i ^ 2 := energy_eigen N _ l _ l1
  have hl : 0 < l := by
    have h := l2 (fun i => if i = 0 then 1 else 0)
    unfold sincMul at h
    dsimp only at h
    rw [sum_eq_single 0 (fun i _ hi => by rw [if_neg hi, zero_mul]) (fun h => absurd (mem_range.mpr (by omega)) h),
      sum_eq_single 0 (fun i _ hi => by rw [if_neg hi, mul_zero]) (fun h => absurd (mem_range.mpr (by omega)) h),
      sum_eq_single 0 (fun i _ hi => by rw [if_neg hi, zero_pow two_ne_zero]) (fun h => absurd (mem_range.mpr (by omega)) h),
      if_pos rfl] at h
    have e : sincKernel (2 * beta / (N + 1 : Nat)) (((0 : Nat) : ℤ) - ((0 : Nat) : ℤ)) = 2 * (2 * beta / (N + 1 : Nat)) := by
      unfold sincKernel
      simp only [sub_self, Int.cast_zero, zero_mul, Real.cos_zero, intervalIntegral.integral_const, smul_eq_mul, mul_one]
      ring
    rw [e] at h
    linarith
  have hpos : 0 < inBand (N + 1) (2 * beta / (N + 1 : Nat)) (fun i => (s.channels.get 0 i : ℂ)) := by
    rw [hin]
    exact mul_pos hl hS
  refine ⟨s, s1, hpos, fun u hu => ?_⟩
  have h1 : inBand (N + 1) (2 * beta / (N + 1 : Nat)) u ≤ l * ∑ i ∈ range (N + 1), ‖u i‖ ^ 2 := energy_le N _ l l2 u
  have b1 := band_sum N (2 * beta / (N + 1 : Nat)) u
  have b2 := band_sum N (2 * beta / (N + 1 : Nat)) (fun i => (s.channels.get 0 i : ℂ))
  simp only [Complex.norm_real, Real.norm_eq_abs, sq_abs] at b2
  rw [div_le_div_iff₀ hpos hu]
  rw [hin] at b2 ⊢
  have e1 : outOfBand (N + 1) (2 * beta / (N + 1 : Nat)) (fun i => (s.channels.get 0 i : ℂ)) =
      (2 * Real.pi - l) * ∑ i ∈ range (N + 1), s.channels.get 0 i ^ 2 := by linarith
  have e2 : outOfBand (N + 1) (2 * beta / (N + 1 : Nat)) u =
      2 * Real.pi * ∑ i ∈ range (N + 1), ‖u i‖ ^ 2 - inBand (N + 1) (2 * beta / (N + 1 : Nat)) u := by linarith
  rw [e1, e2]
  have h2 := mul_le_mul_of_nonneg_left h1 (mul_pos (mul_pos two_pos Real.pi_pos) hS).le
  linarith

/-- C115: All other sequences with this share are multiples of the window. -/
theorem C115_unique {R : Type} (mem : Nat → Nat → ℝ) (eigh : Eigh) (beta : ℝ) (plateau : Indexing.Idx) (rate : R)
    (L : Nat) (hi : Indexing.index L plateau = some 0) (hL : 3 ≤ L) (he : Solves eigh L) (hb0 : 0 < beta)
    (hb1 : beta / Real.pi < (L : ℝ) / 2) :
    ∃ s : Signal ℝ R, slepianWindow mem eigh beta plateau rate L true = some (.ok (s, 0)) ∧ ∀ u : Nat → ℂ,
      inBand L (2 * beta / L) (fun i => (s.channels.get 0 i : ℂ)) * ∑ i ∈ range L, ‖u i‖ ^ 2 =
        inBand L (2 * beta / L) u * ∑ i ∈ range L, s.channels.get 0 i ^ 2 →
      ∃ c : ℂ, ∀ i, i < L → u i = c * s.channels.get 0 i := by
  obtain ⟨N, rfl⟩ : ∃ N, L = N + 1 := ⟨L - 1, by omega⟩
  obtain ⟨t0, t1, s, s1, s2, l, l1, l2⟩ := window_top mem eigh beta plateau rate N hi (by omega) he hb0 hb1
  refine ⟨s, s1, fun u hu => ?_⟩
  have hS : 0 < ∑ i ∈ range (N + 1), s.channels.get 0 i ^ 2 :=
    sum_pos (fun i hi => by have := s2 i (mem_range.mp hi); positivity) ⟨0, mem_range.mpr (by omega)⟩
  unfold inBand at hu
  rw [energy_eigen N _ l _ l1, energy_eq] at hu
  have e : ∑ i ∈ range (N + 1), ‖u i‖ ^ 2 = ∑ i ∈ range (N + 1), (u i).re ^ 2 + ∑ i ∈ range (N + 1), (u i).im ^ 2 := by
    rw [← sum_add_distrib]
    exact sum_congr rfl fun i _ => by rw [Complex.sq_norm, Complex.normSq_apply]; ring
  rw [e, show ∀ a b c : ℝ, l * a * (b + c) = (l * b + l * c) * a from fun a b c => by ring] at hu
  have hu' := mul_right_cancel₀ hS.ne' hu
  have r1 := l2 fun n => (u n).re
  have r2 := l2 fun n => (u n).im
  obtain ⟨c, hc⟩ := sinc_unique N _ l t0 t1 _ s2 l1 l2 (fun n => (u n).re) (sinc_maximum N _ l l2 _ (by linarith))
  obtain ⟨c', hc'⟩ := sinc_unique N _ l t0 t1 _ s2 l1 l2 (fun n => (u n).im) (sinc_maximum N _ l l2 _ (by linarith))
  refine ⟨⟨c, c'⟩, fun i hi => Complex.ext ?_ ?_⟩
  · rw [Complex.re_mul_ofReal]
    exact hc i hi
  · rw [Complex.im_mul_ofReal]
    exact hc' i hi

/-- C115: The spectrum of the window does not have zeros in the main lobe. -/
theorem C115_main_lobe {R : Type} (mem : Nat → Nat → ℝ) (eigh : Eigh) (beta : ℝ) (plateau : Indexing.Idx) (rate : R)
    (L : Nat) (hi : Indexing.index L plateau = some 0) (hL : 3 ≤ L) (he : Solves eigh L) (hb0 : 0 < beta)
    (hb1 : beta / Real.pi < (L : ℝ) / 2) :
    ∃ s : Signal ℝ R, slepianWindow mem eigh beta plateau rate L true = some (.ok (s, 0)) ∧ ∀ ω : ℝ, |ω| ≤ 2 * beta / L →
      spectrumOf L (fun i => (s.channels.get 0 i : ℂ)) ω ≠ 0 := by
  obtain ⟨N, rfl⟩ : ∃ N, L = N + 1 := ⟨L - 1, by omega⟩
  obtain ⟨t0, t1, s, s1, s2, l, l1, l2⟩ := window_top mem eigh beta plateau rate N hi (by omega) he hb0 hb1
  refine ⟨s, s1, fun ω hω h => ?_⟩
  have hS : 0 < ∑ i ∈ range (N + 1), s.channels.get 0 i ^ 2 :=
    sum_pos (fun i hi => by have := s2 i (mem_range.mp hi); positivity) ⟨0, mem_range.mpr (by omega)⟩
  set q := Real.sqrt (∑ i ∈ range (N + 1), s.channels.get 0 i ^ 2) with hq
  have hq0 : 0 < q := Real.sqrt_pos.mpr hS
  refine no_zero N _ l t0 t1 (fun i => s.channels.get 0 i / q) ?_ ?_ l2 ω hω ?_
  · simp only [div_pow]
    rw [← sum_div, hq, Real.sq_sqrt hS.le, div_self hS.ne']
  · intro i hi
    have e : sincMul N (2 * beta / (N + 1 : Nat)) (fun i => s.channels.get 0 i / q) i =
        sincMul N (2 * beta / (N + 1 : Nat)) (s.channels.get 0) i / q := by
      unfold sincMul
      rw [sum_div]
      exact sum_congr rfl fun n _ => by ring
    rw [e, l1 i hi]
    ring
  · have e : spectrumOf (N + 1) (fun i => ((s.channels.get 0 i / q : ℝ) : ℂ)) ω =
        spectrumOf (N + 1) (fun i => (s.channels.get 0 i : ℂ)) ω / q := by
      unfold spectrumOf
      rw [sum_div]
      exact sum_congr rfl fun n _ => by push_cast; ring
    rw [e, h, zero_div]

/-- The hypotheses are met by the default value of beta for windows with seven samples, the solver exists and there are other
sequences with energy in the main lobe. -/
example : ∃ eigh : Eigh, Solves eigh 7 ∧ Indexing.index 7 (.int 0) = some 0 ∧ (0 : ℝ) < 9.4248 ∧
    (9.4248 : ℝ) / Real.pi < ((7 : Nat) : ℝ) / 2 ∧ 0 < inBand 7 (2 * 9.4248 / (7 : Nat)) (fun i => if i = 0 then 1 else 0) := by
  obtain ⟨eigh, h⟩ := exists_eigh
  refine ⟨eigh, h _ (by omega), by decide, by norm_num, ?_, ?_⟩
  · rw [div_lt_div_iff₀ Real.pi_pos (by norm_num)]
    push_cast
    linarith [Real.pi_gt_three]
  · have e : ∀ x : ℝ, spectrumOf 7 (fun i => if i = 0 then 1 else 0) x = 1 := by
      intro x
      unfold spectrumOf
      dsimp only
      rw [sum_eq_single 0 (fun i _ hi => by rw [if_neg hi, zero_mul]) (fun h => absurd (mem_range.mpr (by omega)) h), if_pos rfl]
      simp
    unfold inBand
    simp only [e]
    norm_num

end Windows
end Verif
