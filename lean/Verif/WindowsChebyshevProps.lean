import Verif.WindowsChebyshev
import Verif.WindowsScipyProps
import Verif.Dft
import Mathlib.Analysis.SpecialFunctions.Trigonometric.Chebyshev.Extremal
import Mathlib.Analysis.SpecialFunctions.Trigonometric.Chebyshev.RootsExtrema
import Mathlib.Algebra.BigOperators.Field

/-
C113: the side lobes of the Dolph-Chebyshev window.
-/

namespace Verif
namespace Windows

open Finset Polynomial

/-! ### The coefficients of a Chebyshev polynomial of a scaled cosine -/

/-- The polynomial `Q` with `T n (b * cos θ) = exp(-iθn) * Q(exp(2iθ))` for the Chebyshev polynomial `T n`. -/
noncomputable def chebQ (b : ℝ) : Nat → ℝ[X]
  | 0 => 1
  | 1 => C (b / 2) * (1 + X)
  | n + 2 => C b * (1 + X) * chebQ b (n + 1) - X * chebQ b n

theorem chebQ_zero (b : ℝ) : chebQ b 0 = 1 := by rw [chebQ]
theorem chebQ_one (b : ℝ) : chebQ b 1 = C (b / 2) * (1 + X) := by rw [chebQ]
theorem chebQ_add (b : ℝ) (n : Nat) : chebQ b (n + 2) = C b * (1 + X) * chebQ b (n + 1) - X * chebQ b n := by rw [chebQ]

theorem chebQ_coeff_zero (b : ℝ) (n : Nat) : (chebQ b (n + 2)).coeff 0 = b * (chebQ b (n + 1)).coeff 0 := by
  rw [chebQ_add]
  simp [mul_assoc, add_mul]

theorem chebQ_coeff_succ (b : ℝ) (n k : Nat) : (chebQ b (n + 2)).coeff (k + 1) =
    b * ((chebQ b (n + 1)).coeff (k + 1) + (chebQ b (n + 1)).coeff k) - (chebQ b n).coeff k := by
  rw [chebQ_add]
  simp [mul_assoc, add_mul]

theorem chebQ_one_coeff (b : ℝ) (k : Nat) : (chebQ b 1).coeff k = if k ≤ 1 then b / 2 else 0 := by
  rw [chebQ_one]
  rcases k with _ | _ | k
  · simp
  · simp [coeff_one]
  · simp [coeff_one, coeff_X]

theorem chebQ_large (b : ℝ) (n : Nat) : (∀ k, n < k → (chebQ b n).coeff k = 0) ∧
    ∀ k, n + 1 < k → (chebQ b (n + 1)).coeff k = 0 := by
  induction n with
  | zero =>
    refine ⟨fun k hk => ?_, fun k hk => ?_⟩
    · rw [chebQ_zero, coeff_one, if_neg (by omega)]
    · rw [chebQ_one_coeff, if_neg (by omega)]
  | succ n ih =>
    refine ⟨ih.2, fun k hk => ?_⟩
    obtain ⟨k, rfl⟩ : ∃ j, k = j + 1 := ⟨k - 1, by omega⟩
    rw [chebQ_coeff_succ, ih.2 (k + 1) (by omega), ih.2 k (by omega), ih.1 k (by omega)]
    ring

theorem chebQ_symm (b : ℝ) (n : Nat) : (∀ i j, i + j = n → (chebQ b n).coeff i = (chebQ b n).coeff j) ∧
    ∀ i j, i + j = n + 1 → (chebQ b (n + 1)).coeff i = (chebQ b (n + 1)).coeff j := by
  induction n with
  | zero =>
    refine ⟨fun i j h => ?_, fun i j h => ?_⟩
    · obtain rfl : i = 0 := by omega
      obtain rfl : j = 0 := by omega
      rfl
    · rw [chebQ_one_coeff, chebQ_one_coeff, if_pos (by omega), if_pos (by omega)]
  | succ n ih =>
    refine ⟨ih.2, ?_⟩
    have edge : (chebQ b (n + 2)).coeff 0 = (chebQ b (n + 2)).coeff (n + 2) := by
      rw [chebQ_coeff_zero, chebQ_coeff_succ, (chebQ_large b n).2 (n + 1 + 1) (by omega), (chebQ_large b n).1 (n + 1) (by omega),
        ih.2 0 (n + 1) (by omega)]
      ring
    intro i j h
    rcases i with _ | i
    · obtain rfl : j = n + 2 := by omega
      exact edge
    · rcases j with _ | j
      · obtain rfl : i = n + 1 := by omega
        exact edge.symm
      · rw [chebQ_coeff_succ, chebQ_coeff_succ, ih.2 (i + 1) j (by omega), ih.2 i (j + 1) (by omega), ih.1 i j (by omega)]
        ring

/-- the value of the polynomial -/
theorem chebQ_eval (b : ℝ) (z : ℂ) (hz : z ≠ 0) (n : Nat) :
    ((chebQ b n).map (algebraMap ℝ ℂ)).eval (z ^ 2) = z ^ n * (Chebyshev.T ℂ n).eval (b * ((z + z⁻¹) / 2)) ∧
    ((chebQ b (n + 1)).map (algebraMap ℝ ℂ)).eval (z ^ 2) =
      z ^ (n + 1) * (Chebyshev.T ℂ (n + 1 : Nat)).eval (b * ((z + z⁻¹) / 2)) := by
  induction n with
  | zero =>
    rw [chebQ_zero, chebQ_one]
    constructor
    · simp
    · simp
      field_simp
      ring
  | succ n ih =>
    refine ⟨ih.2, ?_⟩
    have h1 := ih.1
    have h2 := ih.2
    have e : (Chebyshev.T ℂ ((n + 1 + 1 : Nat) : ℤ)) =
        2 * X * Chebyshev.T ℂ ((n + 1 : Nat) : ℤ) - Chebyshev.T ℂ (n : ℤ) := by
      have := Chebyshev.T_add_two ℂ (n : ℤ)
      push_cast
      rw [show (n : ℤ) + 1 + 1 = n + 2 by ring]
      exact this
    rw [e, chebQ_add]
    simp only [Polynomial.map_sub, Polynomial.map_mul, Polynomial.map_add, Polynomial.map_one, map_C, map_X, eval_sub, eval_mul,
      eval_add, eval_one, eval_C, eval_X, h1, h2, eval_ofNat, Complex.coe_algebraMap]
    have hz2 : z * z⁻¹ = 1 := mul_inv_cancel₀ hz
    generalize (Chebyshev.T ℂ ((n + 1 : Nat) : ℤ)).eval _ = p
    generalize (Chebyshev.T ℂ (n : ℤ)).eval _ = q
    field_simp
    ring

/-- the Chebyshev polynomial of a scaled cosine as a sum of exponential functions -/
theorem cheb_sum (b θ : ℝ) (n : Nat) : (((Chebyshev.T ℝ n).eval (b * Real.cos θ) : ℝ) : ℂ) =
    ∑ k ∈ range (n + 1), ((chebQ b n).coeff k : ℂ) * Complex.exp (Complex.I * θ * (2 * k - n)) := by
  have hz := Complex.exp_ne_zero (Complex.I * θ)
  have h := (chebQ_eval b (Complex.exp (Complex.I * θ)) hz n).1
  have hc : (Complex.exp (Complex.I * θ) + (Complex.exp (Complex.I * θ))⁻¹) / 2 = Complex.cos θ := by
    rw [Complex.cos, ← Complex.exp_neg]
    congr 3 <;> ring
  have hT : (((Chebyshev.T ℝ n).eval (b * Real.cos θ) : ℝ) : ℂ) = (Chebyshev.T ℂ n).eval (b * Complex.cos θ) := by
    rw [Chebyshev.complex_ofReal_eval_T]
    push_cast
    rfl
  have hd : ((chebQ b n).map (algebraMap ℝ ℂ)).natDegree < n + 1 := by
    refine lt_of_le_of_lt (natDegree_map_le) (Nat.lt_succ_of_le ?_)
    rw [natDegree_le_iff_coeff_eq_zero]
    exact fun k hk => (chebQ_large b n).1 k hk
  rw [hc, eval_eq_sum_range' hd] at h
  rw [hT]
  have : (Chebyshev.T ℂ n).eval (b * Complex.cos θ) = (Complex.exp (Complex.I * θ) ^ n)⁻¹ *
      (Complex.exp (Complex.I * θ) ^ n * (Chebyshev.T ℂ n).eval (b * Complex.cos θ)) := by
    rw [← mul_assoc, inv_mul_cancel₀ (pow_ne_zero _ hz), one_mul]
  rw [this, ← h, mul_sum]
  apply sum_congr rfl
  intro k _
  rw [coeff_map, Complex.coe_algebraMap, ← Complex.exp_nat_mul, ← Complex.exp_neg, ← pow_mul, ← Complex.exp_nat_mul,
    mul_left_comm, ← Complex.exp_add]
  congr 2
  push_cast
  ring

/-- a recursion with non-negative summands -/
theorem chebQ_mono (b : ℝ) (n : Nat) : chebQ b (n + 1) = X * chebQ b n + C (1 / 2) * (1 - X) +
    C (b - 1) * (1 + X) * (C (1 / 2) + ∑ j ∈ range n, chebQ b (j + 1)) := by
  have h2 : (C (1 / 2 : ℝ)) * 2 = 1 := by
    rw [show (2 : ℝ[X]) = C 2 from rfl, ← C_mul]
    norm_num
  induction n with
  | zero =>
    rw [chebQ_one, chebQ_zero, show b / 2 = b * (1 / 2) by ring]
    simp only [range_zero, sum_empty, C_mul, C_sub, C_1]
    linear_combination (X : ℝ[X]) * h2
  | succ n ih =>
    rw [chebQ_add, sum_range_succ]
    have : chebQ b (n + 1) - X * chebQ b n = C (1 / 2) * (1 - X) +
        C (b - 1) * (1 + X) * (C (1 / 2) + ∑ j ∈ range n, chebQ b (j + 1)) := by
      rw [sub_eq_iff_eq_add]
      exact ih.trans (by ring)
    rw [show C (b - 1) * (1 + X) * (C (1 / 2) + (∑ j ∈ range n, chebQ b (j + 1) + chebQ b (n + 1))) =
      C (b - 1) * (1 + X) * (C (1 / 2) + ∑ j ∈ range n, chebQ b (j + 1)) + C (b - 1) * (1 + X) * chebQ b (n + 1) by ring]
    rw [C_sub, C_1] at this ⊢
    linear_combination this

/-- All coefficients are positive. -/
theorem chebQ_pos (b : ℝ) (hb : 1 < b) (n : Nat) : ∀ m ≤ n, 1 / 2 ≤ (chebQ b m).coeff 0 ∧
    (∀ k, 0 ≤ (chebQ b m).coeff k) ∧ ∀ k, k ≤ m → 0 < (chebQ b m).coeff k := by
  induction n with
  | zero =>
    intro m hm
    obtain rfl : m = 0 := by omega
    rw [chebQ_zero]
    refine ⟨by norm_num, fun k => ?_, fun k hk => ?_⟩
    · rw [coeff_one]
      split <;> norm_num
    · obtain rfl : k = 0 := by omega
      norm_num
  | succ n ih =>
    intro m hm
    rcases Nat.lt_or_ge m (n + 1) with h | h
    · exact ih m (by omega)
    obtain rfl : m = n + 1 := by omega
    obtain ⟨h0, hn, hp⟩ := ih n le_rfl
    set S := C (1 / 2) + ∑ j ∈ range n, chebQ b (j + 1) with hS
    have hSn : ∀ k, 0 ≤ S.coeff k := by
      intro k
      rw [hS, coeff_add, finsetSum_coeff, coeff_C]
      refine add_nonneg (by split <;> norm_num) (sum_nonneg fun j hj => ?_)
      exact (ih (j + 1) (by have := mem_range.mp hj; omega)).2.1 k
    have hS0 : 1 / 2 ≤ S.coeff 0 := by
      rw [hS, coeff_add, finsetSum_coeff, coeff_C_zero]
      have : 0 ≤ ∑ j ∈ range n, (chebQ b (j + 1)).coeff 0 :=
        sum_nonneg fun j hj => (ih (j + 1) (by have := mem_range.mp hj; omega)).2.1 0
      linarith
    have c0 : (chebQ b (n + 1)).coeff 0 = 1 / 2 + (b - 1) * S.coeff 0 := by
      rw [chebQ_mono, ← hS]
      simp [mul_assoc, add_mul]
    have c1 : ∀ k, (chebQ b (n + 1)).coeff (k + 1) =
        (chebQ b n).coeff k - (if k = 0 then 1 / 2 else 0) + (b - 1) * (S.coeff (k + 1) + S.coeff k) := by
      intro k
      rw [chebQ_mono, ← hS]
      simp only [coeff_add, coeff_sub, coeff_C_mul, mul_assoc, add_mul, coeff_X_mul, one_mul, coeff_X, mul_sub, mul_one]
      rcases k with _ | k
      · simp
        ring
      · simp
    have hc1 : ∀ k, 0 ≤ (chebQ b n).coeff k - (if k = 0 then 1 / 2 else 0) := by
      intro k
      split
      · next h => rw [h]; linarith
      · linarith [hn k]
    have hb1 : 0 < b - 1 := by linarith
    refine ⟨?_, ?_, ?_⟩
    · rw [c0]
      nlinarith
    · intro k
      rcases k with _ | k
      · rw [c0]
        nlinarith
      · rw [c1]
        exact add_nonneg (hc1 k) (mul_nonneg hb1.le (add_nonneg (hSn _) (hSn _)))
    · intro k hk
      rcases k with _ | k
      · rw [c0]
        nlinarith
      · rw [c1]
        rcases k with _ | k
        · exact add_pos_of_nonneg_of_pos (hc1 0) (mul_pos hb1 (add_pos_of_nonneg_of_pos (hSn _) (by linarith)))
        · refine add_pos_of_pos_of_nonneg ?_ (mul_nonneg hb1.le (add_nonneg (hSn _) (hSn _)))
          rw [if_neg (by omega), sub_zero]
          exact hp (k + 1) (by omega)

/-! ### The function of scipy -/

/-- the scaling of the cosine -/
noncomputable def chebBeta (attenuation : ℝ) (N : Nat) : ℝ :=
  Real.cosh (1 / N * Real.arcosh ((10 : ℝ) ^ (|attenuation| / 20)))

theorem one_lt_ratio {a : ℝ} (ha : a ≠ 0) : 1 < (10 : ℝ) ^ (|a| / 20) :=
  Real.one_lt_rpow (by norm_num) (by have := abs_pos.mpr ha; positivity)

theorem one_lt_beta {a : ℝ} (ha : a ≠ 0) {N : Nat} (hN : 0 < N) : 1 < chebBeta a N := by
  unfold chebBeta
  rw [Real.one_lt_cosh]
  have := Real.arcosh_pos (one_lt_ratio ha)
  have hN' : (0 : ℝ) < N := by exact_mod_cast hN
  positivity

theorem cheb_beta {a : ℝ} (ha : a ≠ 0) {N : Nat} (hN : 0 < N) :
    (Chebyshev.T ℝ N).eval (chebBeta a N) = (10 : ℝ) ^ (|a| / 20) := by
  have hN' : (N : ℝ) ≠ 0 := by exact_mod_cast hN.ne'
  unfold chebBeta
  rw [Chebyshev.T_real_cosh, Int.cast_natCast, ← mul_assoc, mul_one_div_cancel hN', one_mul,
    Real.cosh_arcosh (one_lt_ratio ha).le]

/-- The case distinction in `chebwin` computes the Chebyshev polynomial. -/
theorem cheb_branches (N : Nat) (x : ℝ) :
    (if x > 1 then Real.cosh (N * Real.arcosh x)
    else if x < -1 then (2 * (((N + 1) % 2 : Nat) : ℝ) - 1) * Real.cosh (N * Real.arcosh (-x))
    else Real.cos (N * Real.arccos x)) = (Chebyshev.T ℝ N).eval x := by
  split
  · next h =>
    conv_rhs => rw [← Real.cosh_arcosh (le_of_lt h)]
    rw [Chebyshev.T_real_cosh, Int.cast_natCast]
  · split
    · next h =>
      have h' : 1 ≤ -x := by linarith
      conv_rhs => rw [← neg_neg x]
      rw [Chebyshev.T_eval_neg]
      conv_rhs => rw [← Real.cosh_arcosh h']
      rw [Chebyshev.T_real_cosh, Int.cast_natCast]
      congr 1
      rcases Nat.even_or_odd N with he | ho
      · rw [Int.negOnePow_even _ (by exact_mod_cast he)]
        obtain ⟨m, rfl⟩ := he
        rw [show (m + m + 1) % 2 = 1 by omega]
        norm_num
      · rw [Int.negOnePow_odd _ (by exact_mod_cast ho)]
        obtain ⟨m, rfl⟩ := ho
        rw [show (2 * m + 1 + 1) % 2 = 0 by omega]
        norm_num
    · next h1 h2 =>
      conv_rhs => rw [← Real.cos_arccos (not_lt.mp h2) (not_lt.mp h1)]
      rw [Chebyshev.T_real_cos, Int.cast_natCast]

theorem spectrum_eq (a : ℝ) (N k : Nat) : chebwinSpectrum a (N + 1) k =
    (Chebyshev.T ℝ N).eval (chebBeta a N * Real.cos (Real.pi * k / ((N + 1 : Nat) : ℝ))) := by
  rw [← cheb_branches]
  unfold chebwinSpectrum chebBeta
  have : (((N + 1 : Nat) : ℝ) - 1) = N := by push_cast; ring
  simp only [this]

/-- the discrete Fourier transform of the spectrum -/
theorem transform_sum (b : ℝ) (N n : Nat) (hn : N / 2 + n ≤ N) :
    ∑ k ∈ range (N + 1), (((Chebyshev.T ℝ N).eval (b * Real.cos (Real.pi * k / ((N + 1 : Nat) : ℝ))) : ℝ) : ℂ) *
      Complex.exp (Complex.I * Real.pi / (N + 1 : Nat) * k * ((N % 2 : Nat) : ℂ)) *
      Complex.exp (-2 * Real.pi * Complex.I * k * n / (N + 1 : Nat)) =
    ((N + 1 : Nat) : ℂ) * ((chebQ b N).coeff (N / 2 + n) : ℂ) := by
  have hM : ((N + 1 : Nat) : ℂ) ≠ 0 := Nat.cast_ne_zero.mpr (by omega)
  have hN : (N : ℂ) = 2 * ((N / 2 : Nat) : ℂ) + ((N % 2 : Nat) : ℂ) := by exact_mod_cast (Nat.div_add_mod N 2).symm
  have step : ∀ k : Nat, (((Chebyshev.T ℝ N).eval (b * Real.cos (Real.pi * k / ((N + 1 : Nat) : ℝ))) : ℝ) : ℂ) *
      Complex.exp (Complex.I * Real.pi / (N + 1 : Nat) * k * ((N % 2 : Nat) : ℂ)) *
      Complex.exp (-2 * Real.pi * Complex.I * k * n / (N + 1 : Nat)) =
      ∑ j ∈ range (N + 1), ((chebQ b N).coeff j : ℂ) *
        Dft.omega (N + 1) ^ ((k : ℤ) * ((j : ℤ) - ((N / 2 + n : Nat) : ℤ))) := by
    intro k
    rw [cheb_sum, sum_mul, sum_mul]
    apply sum_congr rfl
    intro j _
    unfold Dft.omega
    rw [← Complex.exp_int_mul, mul_assoc, mul_assoc, ← Complex.exp_add, ← Complex.exp_add]
    congr 2
    rw [hN]
    generalize ((N % 2 : Nat) : ℂ) = e
    generalize N / 2 = h
    push_cast
    field_simp
    ring
  rw [sum_congr rfl fun k _ => step k, sum_comm]
  rw [sum_eq_single (N / 2 + n)]
  · rw [← mul_sum, Dft.sum_omega (by omega), if_pos (by rw [sub_self]; exact dvd_zero _)]
    ring
  · intro j hj hne
    have hj := mem_range.mp hj
    rw [← mul_sum, Dft.sum_omega (by omega), if_neg, mul_zero]
    intro hd
    have h0 : (j : ℤ) - ((N / 2 + n : Nat) : ℤ) ≠ 0 := by omega
    have := Int.le_of_dvd (abs_pos.mpr h0) ((dvd_abs _ _).mpr hd)
    rw [le_abs] at this
    omega
  · intro h
    exact absurd (mem_range.mpr (by omega)) h

theorem transform_eq (a : ℝ) (N n : Nat) (hn : N / 2 + n ≤ N) :
    chebwinTransform a (N + 1) n = ((N + 1 : Nat) : ℝ) * (chebQ (chebBeta a N) N).coeff (N / 2 + n) := by
  have h := transform_sum (chebBeta a N) N n hn
  have h2 : (((N + 1 : Nat) : ℂ) * ((chebQ (chebBeta a N) N).coeff (N / 2 + n) : ℂ)).re =
      ((N + 1 : Nat) : ℝ) * (chebQ (chebBeta a N) N).coeff (N / 2 + n) := by
    rw [← Complex.ofReal_natCast, ← Complex.ofReal_mul, Complex.ofReal_re]
  rw [← h2, ← h]
  unfold chebwinTransform
  simp only [spectrum_eq]
  split
  · next ho =>
    rw [show N % 2 = 0 by omega]
    simp
  · next he =>
    rw [show N % 2 = 1 by omega]
    simp

/-- a list and its reversed tail -/
theorem mirror_map (f : Nat → ℝ) (m M : Nat) (h : m + 1 ≤ M) :
    ((((List.range M).map f).take (m + 1)).drop 1) = (List.range m).map (fun i => f (i + 1)) ∧
    ((((List.range M).map f).take (m + 1)).drop 1).reverse = (List.range m).map fun i => f (m - i) := by
  have e : ((((List.range M).map f).take (m + 1)).drop 1) = (List.range m).map (fun i => f (i + 1)) := by
    rw [← List.map_take, List.take_range, min_eq_left h, List.range_succ_eq_map, List.map_cons, List.map_map]
    rfl
  refine ⟨e, ?_⟩
  rw [e]
  apply List.ext_getElem
  · simp
  · intro i h1 h2
    simp only [List.length_reverse, List.length_map, List.length_range] at h1
    simp only [List.getElem_reverse, List.getElem_map, List.getElem_range, List.length_map, List.length_range]
    congr 1
    omega

/-- the samples before the normalisation -/
theorem samples_eq (a : ℝ) (N : Nat) (hN : 0 < N) : chebwinSamples a (N + 1) =
    (List.range (N + 1)).map fun i => ((N + 1 : Nat) : ℝ) * (chebQ (chebBeta a N) N).coeff i := by
  have hs := (chebQ_symm (chebBeta a N) N).1
  unfold chebwinSamples
  dsimp only
  split
  · next ho =>
    obtain ⟨m, rfl⟩ : ∃ m, N = 2 * m := ⟨N / 2, by omega⟩
    rw [show (2 * m + 1 + 1) / 2 = m + 1 by omega, (mirror_map _ m _ (by omega)).2, ← List.map_take, List.take_range,
      min_eq_left (by omega)]
    conv_rhs => rw [show 2 * m + 1 = m + (m + 1) by omega, List.range_add, List.map_append, List.map_map]
    congr 1
    · apply List.map_congr_left
      intro i hi
      have hi := List.mem_range.mp hi
      rw [transform_eq _ _ _ (by omega), hs (2 * m / 2 + (m - i)) i (by omega)]
      congr 2
      omega
    · apply List.map_congr_left
      intro i hi
      have hi := List.mem_range.mp hi
      rw [transform_eq _ _ _ (by omega), show 2 * m / 2 + i = m + i by omega]
      congr 2
      omega
  · next he =>
    obtain ⟨m, rfl⟩ : ∃ m, N = 2 * m + 1 := ⟨N / 2, by omega⟩
    rw [show (2 * m + 1 + 1) / 2 + 1 = (m + 1) + 1 by omega, (mirror_map _ (m + 1) _ (by omega)).2,
      (mirror_map _ (m + 1) _ (by omega)).1]
    conv_rhs => rw [show 2 * m + 1 + 1 = (m + 1) + (m + 1) by omega, List.range_add, List.map_append, List.map_map]
    congr 1
    · apply List.map_congr_left
      intro i hi
      have hi := List.mem_range.mp hi
      rw [transform_eq _ _ _ (by omega), hs ((2 * m + 1) / 2 + (m + 1 - i)) i (by omega)]
      congr 2
      omega
    · apply List.map_congr_left
      intro i hi
      have hi := List.mem_range.mp hi
      rw [transform_eq _ _ _ (by omega), show (2 * m + 1) / 2 + (i + 1) = m + 1 + i by omega]
      congr 2
      omega

theorem foldl_max_pos (l : List ℝ) : ∀ x : ℝ, 0 < x → 0 < l.foldl max x := by
  induction l with
  | nil => exact fun x h => h
  | cons y l ih => exact fun x h => ih _ (lt_max_of_lt_left h)

/-- the samples of the window as quotients of coefficients -/
theorem dolph_eq {a : ℝ} (ha : a ≠ 0) (N i : Nat) (hN : 2 ≤ N) (hi : i ≤ N) : dolphChebyshev a (N + 1) i =
    (chebQ (chebBeta a N) N).coeff i / (chebQ (chebBeta a N) N).coeff ((N + 1) / 2) := by
  have hp := (chebQ_pos (chebBeta a N) (one_lt_beta ha (by omega)) N N le_rfl).2.2
  have hM : (0 : ℝ) < ((N + 1 : Nat) : ℝ) := by positivity
  have hget : ∀ j, j ≤ N → (chebwinSamples a (N + 1)).getD j 0 = ((N + 1 : Nat) : ℝ) * (chebQ (chebBeta a N) N).coeff j := by
    intro j hj
    rw [samples_eq a N (by omega), List.getD_eq_getElem?_getD, List.getElem?_map, List.getElem?_range (by omega)]
    rfl
  have hmax : 0 < listMax (chebwinSamples a (N + 1)) := by
    rw [samples_eq a N (by omega), List.range_succ_eq_map, List.map_cons]
    exact foldl_max_pos _ _ (mul_pos hM (hp 0 (by omega)))
  unfold dolphChebyshev chebwin
  rw [if_neg (by omega), if_neg (by omega), if_neg (by omega)]
  dsimp only
  rw [hget i hi, hget ((N + 1) / 2) (by omega)]
  have h1 := (hp ((N + 1) / 2) (by omega)).ne'
  field_simp

theorem symmetric_dolph {a : ℝ} (ha : a ≠ 0) : Symmetric (dolphChebyshev a) := by
  intro n i hi
  by_cases h : n ≤ 2
  · unfold dolphChebyshev
    rw [if_pos h, if_pos h]
  · obtain ⟨N, rfl⟩ : ∃ N, n = N + 1 := ⟨n - 1, by omega⟩
    rw [dolph_eq ha N _ (by omega) (by omega), dolph_eq ha N i (by omega) (by omega),
      (chebQ_symm (chebBeta a N) N).1 (N + 1 - 1 - i) i (by omega)]

/-! ### The spectrum of the window -/

/-- the spectrum of a sequence with `L` samples at a continuous (angular) frequency -/
noncomputable def spectrumOf (L : Nat) (v : Nat → ℂ) (ω : ℝ) : ℂ :=
  ∑ i ∈ range L, v i * Complex.exp (-(Complex.I * ω * i))

/-- the ratio between the maximum of the main lobe and that of the side lobes -/
noncomputable def lobeRatio (attenuation : ℝ) : ℝ := (10 : ℝ) ^ (|attenuation| / 20)

/-- The side lobes are the frequencies, for which the cosine of the half angle does not exceed this value. -/
noncomputable def lobeEdge (attenuation : ℝ) (L : Nat) : ℝ := 1 / Real.cosh (Real.arcosh (lobeRatio attenuation) / (L - 1))

theorem lobeEdge_eq (a : ℝ) (N : Nat) : lobeEdge a (N + 1) = 1 / chebBeta a N := by
  unfold lobeEdge chebBeta lobeRatio
  rw [show (((N + 1 : Nat) : ℝ) - 1) = N by push_cast; ring]
  congr 2
  ring

theorem spectrum_window {a : ℝ} (ha : a ≠ 0) (N : Nat) (hN : 2 ≤ N) (ω : ℝ) :
    spectrumOf (N + 1) (fun i => (dolphChebyshev a (N + 1) i : ℂ)) ω = Complex.exp (-(Complex.I * ω / 2 * N)) *
      (((Chebyshev.T ℝ N).eval (chebBeta a N * Real.cos (ω / 2)) / (chebQ (chebBeta a N) N).coeff ((N + 1) / 2) : ℝ) : ℂ) := by
  unfold spectrumOf
  rw [Complex.ofReal_div, ← Real.cos_neg (ω / 2), cheb_sum, Finset.sum_div, mul_sum]
  apply sum_congr rfl
  intro i hi
  dsimp only
  rw [dolph_eq ha N i hN (by have := mem_range.mp hi; omega), Complex.ofReal_div, div_mul_eq_mul_div, ← mul_div_assoc,
    mul_left_comm, ← Complex.exp_add]
  congr 3
  push_cast
  ring

theorem norm_spectrum {a : ℝ} (ha : a ≠ 0) (N : Nat) (hN : 2 ≤ N) (ω : ℝ) :
    ‖spectrumOf (N + 1) (fun i => (dolphChebyshev a (N + 1) i : ℂ)) ω‖ =
      |(Chebyshev.T ℝ N).eval (chebBeta a N * Real.cos (ω / 2))| / (chebQ (chebBeta a N) N).coeff ((N + 1) / 2) := by
  have hp := (chebQ_pos (chebBeta a N) (one_lt_beta ha (by omega)) N N le_rfl).2.2 ((N + 1) / 2) (by omega)
  rw [spectrum_window ha N hN, norm_mul, show -(Complex.I * ω / 2 * N) = ((-(ω / 2 * N) : ℝ) : ℂ) * Complex.I by push_cast; ring,
    Complex.norm_exp_ofReal_mul_I, one_mul, Complex.norm_real, Real.norm_eq_abs, abs_div, abs_of_pos hp]

theorem sum_window {a : ℝ} (ha : a ≠ 0) (N : Nat) (hN : 2 ≤ N) :
    ∑ i ∈ range (N + 1), dolphChebyshev a (N + 1) i =
      lobeRatio a / (chebQ (chebBeta a N) N).coeff ((N + 1) / 2) := by
  have h := spectrum_window ha N hN 0
  unfold spectrumOf at h
  simp only [Complex.ofReal_zero, mul_zero, zero_mul, neg_zero, Complex.exp_zero, mul_one, zero_div, one_mul, Real.cos_zero] at h
  rw [cheb_beta ha (by omega)] at h
  exact_mod_cast h

/-- the optimality of the Chebyshev polynomials for spectrums of arbitrary sequences -/
theorem spectrum_bound {a : ℝ} (ha : a ≠ 0) (N : Nat) (hN : 0 < N) (v : Nat → ℂ) (B : ℝ)
    (hv : ∀ ω : ℝ, |Real.cos (ω / 2)| ≤ 1 / chebBeta a N → ‖spectrumOf (N + 1) v ω‖ ≤ B) :
    ‖∑ i ∈ range (N + 1), v i‖ ≤ lobeRatio a * B := by
  have hb := one_lt_beta ha hN
  have hb0 : 0 < chebBeta a N := by linarith
  set β := chebBeta a N with hβ
  set V := ∑ i ∈ range (N + 1), v i with hV
  have hA : 0 < lobeRatio a := by unfold lobeRatio; positivity
  have hB : 0 ≤ B := by
    refine le_trans (norm_nonneg _) (hv Real.pi ?_)
    rw [Real.cos_pi_div_two, abs_zero]
    positivity
  obtain ⟨u, hu1, hu2⟩ : ∃ u : ℂ, ‖u‖ = 1 ∧ (u * V).re = ‖V‖ := by
    by_cases h : V = 0
    · exact ⟨1, by simp, by simp [h]⟩
    · have hn : ‖V‖ ≠ 0 := norm_ne_zero_iff.mpr h
      refine ⟨(starRingEnd ℂ) V / ‖V‖, ?_, ?_⟩
      · rw [norm_div, RCLike.norm_conj, Complex.norm_real, norm_norm, div_self hn]
      · rw [div_mul_eq_mul_div, mul_comm, Complex.mul_conj, ← Complex.ofReal_div, Complex.ofReal_re, Complex.normSq_eq_norm_sq]
        field_simp
  set r : Nat → ℝ := fun i => (u * v i).re with hr
  set P : ℝ[X] := ∑ i ∈ range (N + 1), C (r i) * Chebyshev.T ℝ ((N : ℤ) - 2 * i) with hP
  have hPdeg : P.natDegree ≤ N := by
    refine natDegree_sum_le_of_forall_le _ _ fun i hi => ?_
    refine le_trans (natDegree_C_mul_le _ _) ?_
    rw [Chebyshev.natDegree_T]
    have := mem_range.mp hi
    omega
  have hPcos : ∀ θ : ℝ, P.eval (Real.cos θ) = ∑ i ∈ range (N + 1), r i * Real.cos (((N : ℤ) - 2 * i : ℤ) * θ) := by
    intro θ
    rw [hP, eval_finsetSum]
    refine sum_congr rfl fun i _ => ?_
    rw [eval_mul, eval_C, Chebyshev.T_real_cos]
  have hbound : ∀ θ : ℝ, |Real.cos θ| ≤ 1 / β → |P.eval (Real.cos θ)| ≤ B := by
    intro θ hθ
    have h1 := hv (2 * θ) (by rw [mul_div_cancel_left₀ θ two_ne_zero]; exact hθ)
    have h2 := hv (-(2 * θ)) (by rw [neg_div, Real.cos_neg, mul_div_cancel_left₀ θ two_ne_zero]; exact hθ)
    have e : ((P.eval (Real.cos θ) : ℝ)) = (u * (Complex.exp (Complex.I * θ * N) * spectrumOf (N + 1) v (2 * θ) +
        Complex.exp (-(Complex.I * θ * N)) * spectrumOf (N + 1) v (-(2 * θ))) / 2).re := by
      rw [hPcos]
      unfold spectrumOf
      rw [mul_sum, mul_sum, ← sum_add_distrib, mul_sum, Finset.sum_div, Complex.re_sum]
      refine sum_congr rfl fun i _ => ?_
      have : u * (Complex.exp (Complex.I * θ * N) * (v i * Complex.exp (-(Complex.I * ((2 * θ : ℝ) : ℂ) * i))) +
          Complex.exp (-(Complex.I * θ * N)) * (v i * Complex.exp (-(Complex.I * ((-(2 * θ) : ℝ) : ℂ) * i)))) / 2 =
          (u * v i) * ((Real.cos (((N : ℤ) - 2 * i : ℤ) * θ) : ℝ) : ℂ) := by
        rw [mul_left_comm, mul_left_comm (Complex.exp (-(Complex.I * θ * N))), ← Complex.exp_add, ← Complex.exp_add,
          Complex.ofReal_cos, Complex.cos, ← mul_add, ← mul_assoc, mul_div_assoc]
        congr 4 <;> (push_cast; ring)
      rw [this, Complex.re_mul_ofReal]
    rw [e]
    refine le_trans (Complex.abs_re_le_norm _) ?_
    rw [norm_div, norm_mul, hu1, one_mul, Complex.norm_ofNat, div_le_iff₀ (by norm_num)]
    refine le_trans (norm_add_le _ _) ?_
    rw [norm_mul, norm_mul, show Complex.I * θ * N = ((θ * N : ℝ) : ℂ) * Complex.I by push_cast; ring,
      show -(((θ * N : ℝ) : ℂ) * Complex.I) = ((-(θ * N) : ℝ) : ℂ) * Complex.I by push_cast; ring,
      Complex.norm_exp_ofReal_mul_I, Complex.norm_exp_ofReal_mul_I, one_mul, one_mul]
    linarith
  have hP1 : P.eval 1 = ‖V‖ := by
    have := hPcos 0
    rw [Real.cos_zero] at this
    rw [this, ← hu2, hV, mul_sum, Complex.re_sum]
    simp [hr]
  refine le_of_forall_pos_le_add fun ε hε => ?_
  have hε' : 0 < ε / lobeRatio a := by positivity
  set D := B + ε / lobeRatio a with hD
  have hD0 : 0 < D := by positivity
  set Q : ℝ[X] := C (1 / D) * P.comp (C (1 / β) * X) with hQ
  have hQdeg : Q.degree ≤ N := by
    rw [← natDegree_le_iff_degree_le]
    refine le_trans (natDegree_C_mul_le _ _) (le_trans natDegree_comp_le ?_)
    refine le_trans (Nat.mul_le_mul hPdeg (le_trans (natDegree_C_mul_le _ _) natDegree_X_le)) ?_
    omega
  have hQb : ∀ x ∈ Set.Icc (-1 : ℝ) 1, |Q.eval x| ≤ 1 := by
    intro x hx
    have hxa : |1 / β * x| ≤ 1 / β := by
      rw [abs_mul, abs_of_pos (show 0 < 1 / β by positivity)]
      have : |x| ≤ 1 := abs_le.mpr hx
      have : 0 < 1 / β := by positivity
      nlinarith
    have hxb : |1 / β * x| ≤ 1 := le_trans hxa (by rw [div_le_one hb0]; exact hb.le)
    have hc : Real.cos (Real.arccos (1 / β * x)) = 1 / β * x := Real.cos_arccos (abs_le.mp hxb).1 (abs_le.mp hxb).2
    have := hbound (Real.arccos (1 / β * x)) (by rw [hc]; exact hxa)
    rw [hc] at this
    rw [hQ, eval_mul, eval_C, eval_comp, eval_mul, eval_C, eval_X, abs_mul, abs_of_pos (show 0 < 1 / D by positivity),
      one_div_mul_eq_div, div_le_one hD0]
    linarith
  have hmain := Chebyshev.eval_iterate_derivative_le_of_forall_abs_le_one (k := 0) hb.le hQdeg hQb
  rw [Function.iterate_zero, id, id, hβ, cheb_beta ha hN, ← hβ, hQ, eval_mul, eval_C, eval_comp, eval_mul, eval_C, eval_X,
    one_div_mul_cancel hb0.ne', hP1, one_div_mul_eq_div, div_le_iff₀ hD0] at hmain
  refine le_trans hmain (le_of_eq ?_)
  show lobeRatio a * D = _
  rw [hD, mul_add, mul_div_cancel₀ _ hA.ne']

/-! ### C113 -/

/-- C113: The Dolph-Chebyshev window can be created with every attenuation except for zero. Its samples are positive and the one
in the middle is one. -/
theorem C113_samples {R : Type} (mem : Nat → Nat → ℝ) (a : ℝ) (ha : a ≠ 0) (plateau : Indexing.Idx) (rate : R) (L : Nat)
    (symmetric : Bool) (hL : 2 ≤ steps L symmetric) (hi : Indexing.index L plateau = some 0) :
    ∃ s : Signal ℝ R, dolphChebyshevWindow mem a plateau rate L symmetric = some (.ok (s, 0)) ∧ s.rate = rate ∧ s.offset = 0 ∧
      s.labels = ["Dolph-Chebyshev window"] ∧ s.channels.rows = 1 ∧ s.channels.cols = L ∧
      (∀ i, i < L → 0 < s.channels.get 0 i) ∧ s.channels.get 0 ((steps L symmetric + 1) / 2) = 1 := by
  obtain ⟨s, h1, h2, h3, h4, h5, h6, h7⟩ := new_ok mem (dolphChebyshev a) "Dolph-Chebyshev window" plateau rate L symmetric hi
    (by omega)
  have hLs : L ≤ steps L symmetric + 1 ∧ steps L symmetric ≤ L := by unfold steps; split <;> omega
  have hp := (chebQ_pos (chebBeta a (steps L symmetric)) (one_lt_beta ha (by omega)) (steps L symmetric)
    (steps L symmetric) le_rfl).2.2
  refine ⟨s, h1, h2, h3, h4, h5, h6, ?_, ?_⟩
  · intro i hi
    rw [h7 i hi, dolph_eq ha _ i hL (by omega)]
    exact div_pos (hp i (by omega)) (hp _ (by omega))
  · rw [h7 _ (by omega), dolph_eq ha _ _ hL (by omega), div_self (hp _ (by omega)).ne']

/-- C113: The symmetric Dolph-Chebyshev window is a palindrome with every plateau. -/
theorem C113_palindrome {R : Type} (mem : Nat → Nat → ℝ) (a : ℝ) (ha : a ≠ 0) (plateau : Indexing.Idx) (rate : R) (p L : Nat)
    (hi : Indexing.index L plateau = some (p : Int)) (hp : p ≤ L) :
    ∃ s : Signal ℝ R, dolphChebyshevWindow mem a plateau rate L true = some (.ok (s, (p : Int))) ∧ s.channels.cols = L ∧
      ∀ i, i < L → s.channels.get 0 (L - 1 - i) = s.channels.get 0 i :=
  C42_palindrome mem (dolphChebyshev a) _ plateau rate p L hi hp (symmetric_dolph ha)

theorem window_spectrum {R : Type} (mem : Nat → Nat → ℝ) (a : ℝ) (plateau : Indexing.Idx) (rate : R) (N : Nat)
    (hN : 2 ≤ N) (hi : Indexing.index (N + 1) plateau = some 0) :
    ∃ s : Signal ℝ R, dolphChebyshevWindow mem a plateau rate (N + 1) true = some (.ok (s, 0)) ∧
      (∀ ω, spectrumOf (N + 1) (fun i => (s.channels.get 0 i : ℂ)) ω =
        spectrumOf (N + 1) (fun i => (dolphChebyshev a (N + 1) i : ℂ)) ω) ∧
      ∑ i ∈ range (N + 1), s.channels.get 0 i = ∑ i ∈ range (N + 1), dolphChebyshev a (N + 1) i := by
  obtain ⟨s, h1, _, _, _, _, _, h7⟩ := new_ok mem (dolphChebyshev a) "Dolph-Chebyshev window" plateau rate (N + 1) true hi
    (by show 0 < N + 1 - 1; omega)
  refine ⟨s, h1, fun ω => ?_, sum_congr rfl fun i hi => h7 i (mem_range.mp hi)⟩
  unfold spectrumOf
  refine sum_congr rfl fun i hi => ?_
  have := h7 i (mem_range.mp hi)
  rw [show steps (N + 1) true + 1 = N + 1 from rfl] at this
  dsimp only
  rw [this]

/-- C113: The side lobes of the spectrum are attenuated by exactly the given value in dB, relative to the maximum of the main
lobe, which is the sum of the samples. The main lobe ends, where the attenuation is reached: the frequencies in the main lobe are
those, where the magnitude exceeds this bound. -/
theorem C113_side_lobes {R : Type} (mem : Nat → Nat → ℝ) (a : ℝ) (ha : a ≠ 0) (plateau : Indexing.Idx) (rate : R) (L : Nat)
    (hL : 3 ≤ L) (hi : Indexing.index L plateau = some 0) :
    ∃ s : Signal ℝ R, dolphChebyshevWindow mem a plateau rate L true = some (.ok (s, 0)) ∧
      (∀ ω : ℝ, ‖spectrumOf L (fun i => (s.channels.get 0 i : ℂ)) ω‖ ≤ ∑ i ∈ range L, s.channels.get 0 i) ∧
      (∀ ω : ℝ, |Real.cos (ω / 2)| ≤ lobeEdge a L ↔
        ‖spectrumOf L (fun i => (s.channels.get 0 i : ℂ)) ω‖ ≤ (∑ i ∈ range L, s.channels.get 0 i) / 10 ^ (|a| / 20)) := by
  obtain ⟨N, rfl⟩ : ∃ N, L = N + 1 := ⟨L - 1, by omega⟩
  obtain ⟨s, h1, h2, h3⟩ := window_spectrum mem a plateau rate N (by omega) hi
  have hb := one_lt_beta (N := N) ha (by omega)
  have hp := (chebQ_pos (chebBeta a N) hb N N le_rfl).2.2
  have hc : 0 < (chebQ (chebBeta a N) N).coeff ((N + 1) / 2) := hp _ (by omega)
  have hA : (0 : ℝ) < 10 ^ (|a| / 20) := by positivity
  refine ⟨s, h1, fun ω => ?_, fun ω => ?_⟩
  · obtain ⟨s', g1, _, _, _, _, _, g7, _⟩ := C113_samples mem a ha plateau rate (N + 1) true (by show 2 ≤ N + 1 - 1; omega) hi
    obtain rfl : s = s' := by
      rw [h1] at g1
      cases g1
      rfl
    unfold spectrumOf
    refine le_trans (norm_sum_le _ _) (sum_le_sum fun i hi => ?_)
    rw [norm_mul, Complex.norm_real, Real.norm_eq_abs, abs_of_pos (g7 i (mem_range.mp hi)),
      show -(Complex.I * ω * i) = ((-(ω * i) : ℝ) : ℂ) * Complex.I by push_cast; ring, Complex.norm_exp_ofReal_mul_I, mul_one]
  · rw [h2, h3, sum_window ha N (by omega), norm_spectrum ha N (by omega), lobeEdge_eq, div_right_comm,
      div_le_div_iff_of_pos_right hc, show lobeRatio a / 10 ^ (|a| / 20) = 1 from div_self hA.ne', le_div_iff₀ (by linarith)]
    have hβ : |chebBeta a N * Real.cos (ω / 2)| = |Real.cos (ω / 2)| * chebBeta a N := by
      rw [abs_mul, abs_of_pos (show 0 < chebBeta a N by linarith), mul_comm]
    rw [← hβ]
    constructor
    · intro h
      exact Chebyshev.abs_eval_T_real_le_one _ h
    · intro h
      by_contra hc
      exact absurd (Chebyshev.one_lt_abs_eval_T_real (n := (N : ℤ)) (by omega) (not_le.mp hc)) (not_lt.mpr h)

/-- C113: All side lobes are equally high: the bound is reached exactly at the edges of the main lobe and at the `L - 2`
frequencies between them, that are given by this formula. -/
theorem C113_equiripple {R : Type} (mem : Nat → Nat → ℝ) (a : ℝ) (ha : a ≠ 0) (plateau : Indexing.Idx) (rate : R) (L : Nat)
    (hL : 3 ≤ L) (hi : Indexing.index L plateau = some 0) :
    ∃ s : Signal ℝ R, dolphChebyshevWindow mem a plateau rate L true = some (.ok (s, 0)) ∧
      ∀ ω : ℝ, ‖spectrumOf L (fun i => (s.channels.get 0 i : ℂ)) ω‖ = (∑ i ∈ range L, s.channels.get 0 i) / 10 ^ (|a| / 20) ↔
        ∃ j, j ≤ L - 1 ∧ Real.cos (ω / 2) = lobeEdge a L * Real.cos (j * Real.pi / (L - 1 : Nat)) := by
  obtain ⟨N, rfl⟩ : ∃ N, L = N + 1 := ⟨L - 1, by omega⟩
  obtain ⟨s, h1, h2, h3⟩ := window_spectrum mem a plateau rate N (by omega) hi
  have hb := one_lt_beta (N := N) ha (by omega)
  have hb0 : chebBeta a N ≠ 0 := by linarith
  have hc : 0 < (chebQ (chebBeta a N) N).coeff ((N + 1) / 2) := (chebQ_pos (chebBeta a N) hb N N le_rfl).2.2 _ (by omega)
  have hA : (0 : ℝ) < 10 ^ (|a| / 20) := by positivity
  refine ⟨s, h1, fun ω => ?_⟩
  rw [h2, h3, sum_window ha N (by omega), norm_spectrum ha N (by omega), lobeEdge_eq, div_right_comm,
    div_left_inj' hc.ne', show lobeRatio a / 10 ^ (|a| / 20) = 1 from div_self hA.ne']
  rw [Chebyshev.abs_eval_T_real_eq_one_iff (n := N) (by omega)]
  constructor
  · rintro ⟨j, hj, e⟩
    exact ⟨j, hj, by rw [show N + 1 - 1 = N from rfl, ← e]; field_simp⟩
  · rintro ⟨j, hj, e⟩
    refine ⟨j, hj, ?_⟩
    rw [e, ← mul_assoc, mul_one_div_cancel hb0, one_mul]
    rfl

/-- C113: The window is optimal: no other sequence with the same number of real or complex samples, whose spectrum is bounded by
the same value outside of the main lobe, has a larger sum. So the side lobes cannot be attenuated more without making the main
lobe wider. -/
theorem C113_optimal {R : Type} (mem : Nat → Nat → ℝ) (a : ℝ) (ha : a ≠ 0) (plateau : Indexing.Idx) (rate : R) (L : Nat)
    (hL : 3 ≤ L) (hi : Indexing.index L plateau = some 0) :
    ∃ s : Signal ℝ R, dolphChebyshevWindow mem a plateau rate L true = some (.ok (s, 0)) ∧
      ∀ v : Nat → ℂ, (∀ ω : ℝ, |Real.cos (ω / 2)| ≤ lobeEdge a L →
          ‖spectrumOf L v ω‖ ≤ (∑ i ∈ range L, s.channels.get 0 i) / 10 ^ (|a| / 20)) →
        ‖∑ i ∈ range L, v i‖ ≤ ∑ i ∈ range L, s.channels.get 0 i := by
  obtain ⟨N, rfl⟩ : ∃ N, L = N + 1 := ⟨L - 1, by omega⟩
  obtain ⟨s, h1, h2, h3⟩ := window_spectrum mem a plateau rate N (by omega) hi
  have hA : (0 : ℝ) < 10 ^ (|a| / 20) := by positivity
  refine ⟨s, h1, fun v hv => ?_⟩
  rw [lobeEdge_eq] at hv
  refine le_trans (spectrum_bound ha N (by omega) v _ hv) (le_of_eq ?_)
  exact mul_div_cancel₀ _ hA.ne'

/-- The theorems apply to a window with five samples, that attenuates its side lobes by 40 dB. -/
example : (40 : ℝ) ≠ 0 ∧ 2 ≤ steps 5 true ∧ 2 ≤ steps 5 false ∧ 3 ≤ 5 ∧ Indexing.index 5 (.int 0) = some 0 :=
  ⟨by norm_num, by decide, by decide, by decide, by decide⟩

/-- The main lobe is neither empty, nor does it contain all frequencies. -/
example : 0 < lobeEdge 40 5 ∧ lobeEdge 40 5 < 1 := by
  have h := one_lt_beta (a := 40) (N := 4) (by norm_num) (by norm_num)
  rw [show (5 : Nat) = 4 + 1 from rfl, lobeEdge_eq]
  exact ⟨by positivity, by rw [div_lt_one (by linarith)]; exact h⟩

end Windows
end Verif
