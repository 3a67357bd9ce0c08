import Mathlib.FieldTheory.KummerExtension
import Mathlib.RingTheory.RootsOfUnity.Complex
import Mathlib.Analysis.SpecialFunctions.Trigonometric.Chebyshev.Basic
import Mathlib.Analysis.SpecialFunctions.Trigonometric.Complex

/-
Product formulas, with which the magnitudes of Butterworth and Chebyshev filters are computed. There is nothing about the
model of the filters in this file.
-/

namespace Verif
namespace Filter

open Complex (I)

theorem prod_unity (n : Nat) (hn : 0 < n) (a b : ℂ) :
    ∏ k ∈ Finset.range n, (a - Complex.exp (2 * Real.pi * I / n) ^ k * b) = a ^ n - b ^ n := by
  have h := X_pow_sub_C_eq_prod (Complex.isPrimitiveRoot_exp n (by omega)) hn (rfl : b ^ n = b ^ n)
  have h2 := congrArg (Polynomial.eval a) h
  rw [Polynomial.eval_prod] at h2
  simpa using h2.symm

/-- the angles of the poles of an analog filter of the order `n` -/
noncomputable def poleAngle (n k : Nat) : ℝ := (2 * k + 1 - n) * Real.pi / (2 * n)

theorem prod_cos (n : Nat) (hn : 0 < n) (a b : ℂ) :
    ∏ k ∈ Finset.range n, (2 * Complex.cos a - 2 * Complex.cos (b + 2 * Real.pi * k / n)) =
      2 * Complex.cos (n * a) - 2 * Complex.cos (n * b) := by
  have hn' : (n : ℂ) ≠ 0 := by exact_mod_cast hn.ne'
  have hz : ∀ z : ℂ, Complex.exp (z * I) ≠ 0 := fun z => Complex.exp_ne_zero _
  have two : ∀ z : ℂ, 2 * Complex.cos z = Complex.exp (z * I) + (Complex.exp (z * I))⁻¹ := by
    intro z
    rw [Complex.cos, ← Complex.exp_neg, neg_mul]
    ring
  set w := Complex.exp (2 * Real.pi * I / n) with hw
  have hw0 : w ≠ 0 := Complex.exp_ne_zero _
  have hwn : w ^ n = 1 := (Complex.isPrimitiveRoot_exp n (by omega)).pow_eq_one
  have e1 : ∀ k : Nat, Complex.exp ((b + 2 * Real.pi * k / n) * I) = w ^ k * Complex.exp (b * I) := by
    intro k
    rw [hw, ← Complex.exp_nat_mul, ← Complex.exp_add]
    congr 1
    ring
  have e2 : ∀ z : ℂ, Complex.exp (n * z * I) = Complex.exp (z * I) ^ n := by
    intro z
    rw [← Complex.exp_nat_mul]
    congr 1
    ring
  have P1 := prod_unity n hn (Complex.exp (a * I)) (Complex.exp (b * I))
  have P2 := prod_unity n hn (Complex.exp (a * I))⁻¹ (Complex.exp (b * I))
  rw [← hw] at P1 P2
  set u := Complex.exp (a * I) with hu
  set v := Complex.exp (b * I) with hv
  have hu0 : u ≠ 0 := hz a
  have hv0 : v ≠ 0 := hz b
  have fac : ∀ k ∈ Finset.range n, (2 * Complex.cos a - 2 * Complex.cos (b + 2 * Real.pi * k / n)) =
      (u - w ^ k * v) * (u⁻¹ - w ^ k * v) * (-(w ^ k * v)⁻¹) := by
    intro k _
    rw [two, two, e1, ← hu]
    have : w ^ k * v ≠ 0 := mul_ne_zero (pow_ne_zero _ hw0) hv0
    field_simp
    ring
  rw [Finset.prod_congr rfl fac, Finset.prod_mul_distrib, Finset.prod_mul_distrib, P1, P2, two, two, e2, e2, ← hu, ← hv]
  have P3 : ∏ k ∈ Finset.range n, (-(w ^ k * v)⁻¹) = -(v ^ n)⁻¹ := by
    have h := prod_unity n hn 0 v
    rw [← hw] at h
    have : ∏ k ∈ Finset.range n, (-(w ^ k * v)⁻¹) = (∏ k ∈ Finset.range n, (0 - w ^ k * v))⁻¹ := by
      rw [← Finset.prod_inv_distrib]
      exact Finset.prod_congr rfl fun k _ => by rw [zero_sub, inv_neg]
    rw [this, h, zero_pow hn.ne', zero_sub, inv_neg]
  rw [P3]
  have : u ^ n ≠ 0 := pow_ne_zero _ hu0
  have : v ^ n ≠ 0 := pow_ne_zero _ hv0
  rw [inv_pow]
  field_simp
  ring

/-- the squared Chebyshev polynomial as product -/
theorem chebyshev_prod (n : Nat) (hn : 0 < n) (x g : ℂ) :
    ∏ k ∈ Finset.range n, (4 * (x ^ 2 - Complex.sin (poleAngle n k + g * I) ^ 2)) =
      4 * ((Polynomial.Chebyshev.T ℂ n).eval x ^ 2 + Complex.sinh (n * g) ^ 2) := by
  have hn' : (n : ℂ) ≠ 0 := by exact_mod_cast hn.ne'
  obtain ⟨a, rfl⟩ := Complex.cos_surjective x
  have h := prod_cos n hn (2 * a) (2 * g * I + Real.pi / n)
  have T : (Polynomial.Chebyshev.T ℂ n).eval (Complex.cos a) = Complex.cos (n * a) := by
    have := Polynomial.Chebyshev.T_complex_cos a n
    simpa using this
  have fac : ∀ k ∈ Finset.range n, (4 * (Complex.cos a ^ 2 - Complex.sin (poleAngle n k + g * I) ^ 2)) =
      2 * Complex.cos (2 * a) - 2 * Complex.cos (2 * g * I + Real.pi / n + 2 * Real.pi * k / n) := by
    intro k _
    have : (2 * g * I + Real.pi / n + 2 * Real.pi * k / n : ℂ) = 2 * (poleAngle n k + g * I) + Real.pi := by
      unfold poleAngle
      push_cast
      field_simp
      ring
    rw [this, Complex.cos_add_pi, Complex.cos_two_mul, Complex.cos_two_mul]
    have := Complex.sin_sq_add_cos_sq (poleAngle n k + g * I)
    linear_combination (-4) * this
  rw [Finset.prod_congr rfl fac, h, T]
  have : (n * (2 * g * I + Real.pi / n) : ℂ) = 2 * (n * g) * I + Real.pi := by field_simp
  rw [this, Complex.cos_add_pi, Complex.cos_mul_I, Complex.cosh_two_mul, show (n * (2 * a) : ℂ) = 2 * (n * a) by ring,
    Complex.cos_two_mul]
  have := Complex.cosh_sq (n * g)
  linear_combination 2 * this

/-- the product of the Butterworth filter's squared factors -/
theorem butterworth_prod (n : Nat) (hn : 0 < n) (y : ℂ) :
    ∏ k ∈ Finset.range n, (1 + y * Complex.exp (2 * poleAngle n k * I)) = 1 + y ^ n := by
  have hn' : (n : ℂ) ≠ 0 := by exact_mod_cast hn.ne'
  have h := prod_unity n hn 1 (-(y * Complex.exp ((1 - n) * Real.pi / n * I)))
  have fac : ∀ k ∈ Finset.range n, (1 + y * Complex.exp (2 * poleAngle n k * I)) =
      1 - Complex.exp (2 * Real.pi * I / n) ^ k * (-(y * Complex.exp ((1 - n) * Real.pi / n * I))) := by
    intro k _
    have : Complex.exp (2 * poleAngle n k * I) =
        Complex.exp (2 * Real.pi * I / n) ^ k * Complex.exp ((1 - n) * Real.pi / n * I) := by
      rw [← Complex.exp_nat_mul, ← Complex.exp_add]
      congr 1
      unfold poleAngle
      push_cast
      field_simp
      ring
    rw [this]
    ring
  rw [Finset.prod_congr rfl fac, h, one_pow, neg_pow, mul_pow, ← Complex.exp_nat_mul]
  have e : (n * ((1 - n) * Real.pi / n * I) : ℂ) = Real.pi * I - n * (Real.pi * I) := by
    field_simp
  rw [e, Complex.exp_sub, Complex.exp_nat_mul, Complex.exp_pi_mul_I]
  have s : ((-1 : ℂ) ^ n) ≠ 0 := pow_ne_zero _ (by norm_num)
  field_simp
  ring

/-- the angles come in pairs with different signs -/
theorem prod_pairs_even (m : Nat) (hm : 0 < m) (F : ℝ → ℂ) :
    ∏ k ∈ Finset.range (2 * m), F (poleAngle (2 * m) k) = ∏ k ∈ Finset.range m,
      (F ((2 * k + 1) * Real.pi / (2 * (2 * m : Nat))) * F (-((2 * k + 1) * Real.pi / (2 * (2 * m : Nat))))) := by
  have hm' : (m : ℝ) ≠ 0 := by exact_mod_cast hm.ne'
  rw [two_mul, Finset.prod_range_add, ← Finset.prod_range_reflect, ← Finset.prod_mul_distrib]
  refine Finset.prod_congr rfl fun k hk => ?_
  have hk := Finset.mem_range.mp hk
  have e1 : poleAngle (m + m) (m - 1 - k) = -((2 * k + 1) * Real.pi / (2 * ((m + m : Nat) : ℝ))) := by
    unfold poleAngle
    rw [Nat.cast_sub (by omega), Nat.cast_sub (by omega)]
    push_cast
    field_simp
    ring
  have e2 : poleAngle (m + m) (m + k) = (2 * k + 1) * Real.pi / (2 * ((m + m : Nat) : ℝ)) := by
    unfold poleAngle
    push_cast
    field_simp
    ring
  rw [e1, e2, mul_comm]

theorem prod_pairs_odd (m : Nat) (F : ℝ → ℂ) :
    ∏ k ∈ Finset.range (2 * m + 1), F (poleAngle (2 * m + 1) k) = F 0 * ∏ k ∈ Finset.range m,
      (F ((k + 1) * Real.pi / (2 * m + 1 : Nat)) * F (-((k + 1) * Real.pi / (2 * m + 1 : Nat)))) := by
  have hm' : ((2 * m + 1 : Nat) : ℝ) ≠ 0 := by exact_mod_cast (by omega : 2 * m + 1 ≠ 0)
  rw [show 2 * m + 1 = m + (m + 1) by omega, Finset.prod_range_add, Finset.prod_range_succ', ← Finset.prod_range_reflect]
  rw [show m + (m + 1) = 2 * m + 1 by omega]
  have e0 : poleAngle (2 * m + 1) (m + 0) = 0 := by
    unfold poleAngle
    push_cast
    rw [show ((2 : ℝ) * (m + 0) + 1 - (2 * m + 1)) = 0 by ring]
    simp
  rw [e0, mul_comm _ (F 0), mul_left_comm, ← Finset.prod_mul_distrib]
  congr 1
  refine Finset.prod_congr rfl fun k hk => ?_
  have hk := Finset.mem_range.mp hk
  push_cast at hm'
  have e1 : poleAngle (2 * m + 1) (m - 1 - k) = -((k + 1) * Real.pi / ((2 * m + 1 : Nat) : ℝ)) := by
    unfold poleAngle
    rw [Nat.cast_sub (by omega), Nat.cast_sub (by omega)]
    push_cast
    field_simp
    ring
  have e2 : poleAngle (2 * m + 1) (m + (k + 1)) = (k + 1) * Real.pi / ((2 * m + 1 : Nat) : ℝ) := by
    unfold poleAngle
    push_cast
    field_simp
    ring
  rw [e1, e2, mul_comm]

end Filter
end Verif
