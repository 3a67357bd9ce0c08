import Mathlib.RingTheory.RootsOfUnity.Complex
import Mathlib.Algebra.BigOperators.Intervals
import Mathlib.Algebra.Field.GeomSum

/-
Facts about the discrete Fourier transform.  Nothing in this file models SuMPF itself.
-/

namespace Verif
namespace Dft

open Finset Complex

/-- The primitive root of unity `exp(2πi / N)`. -/
noncomputable def omega (N : Nat) : ℂ := Complex.exp (2 * Real.pi * Complex.I / N)

theorem omega_primitive {N : Nat} (hN : N ≠ 0) : IsPrimitiveRoot (omega N) N :=
  Complex.isPrimitiveRoot_exp N hN

theorem omega_ne_zero (N : Nat) : omega N ≠ 0 := Complex.exp_ne_zero _

/-- The sum of the powers of a root of unity. -/
theorem sum_omega {N : Nat} (hN : N ≠ 0) (m : ℤ) :
    ∑ k ∈ range N, omega N ^ ((k : ℤ) * m) = if (N : ℤ) ∣ m then (N : ℂ) else 0 := by
  have h := omega_primitive hN
  have e : ∀ k : Nat, omega N ^ ((k : ℤ) * m) = (omega N ^ m) ^ k := by
    intro k
    rw [mul_comm, zpow_mul, zpow_natCast]
  simp only [e]
  split_ifs with hd
  · rw [(h.zpow_eq_one_iff_dvd m).mpr hd]
    simp
  · have h1 : omega N ^ m ≠ 1 := fun h' => hd ((h.zpow_eq_one_iff_dvd m).mp h')
    rw [geom_sum_eq h1, ← zpow_natCast, ← zpow_mul, mul_comm, zpow_mul, zpow_natCast, h.pow_eq_one]
    simp

theorem conj_omega_zpow (N : Nat) (m : ℤ) : (starRingEnd ℂ) (omega N ^ m) = omega N ^ (-m) := by
  rw [map_zpow₀]
  have : (starRingEnd ℂ) (omega N) = (omega N)⁻¹ := by
    unfold omega
    rw [← Complex.exp_conj, ← Complex.exp_neg]
    congr 1
    simp only [map_div₀, map_mul, Complex.conj_I, map_natCast, Complex.conj_ofReal, map_ofNat]
    ring
  rw [this, inv_zpow, zpow_neg]

/-- The discrete Fourier transform of the first `N` values of `x` at the bin `k`. -/
noncomputable def dft (N : Nat) (x : Nat → ℝ) (k : ℤ) : ℂ :=
  ∑ j ∈ range N, (x j : ℂ) * omega N ^ (-(k * j))

theorem conj_dft (N : Nat) (x : Nat → ℝ) (k : ℤ) : (starRingEnd ℂ) (dft N x k) = dft N x (-k) := by
  unfold dft
  rw [map_sum]
  refine Finset.sum_congr rfl fun j _ => ?_
  rw [map_mul, conj_omega_zpow, Complex.conj_ofReal]
  congr 2
  ring

theorem omega_period {N : Nat} (hN : N ≠ 0) (m k : ℤ) : omega N ^ (m + N * k) = omega N ^ m := by
  rw [zpow_add₀ (omega_ne_zero N), zpow_mul, zpow_natCast, (omega_primitive hN).pow_eq_one, one_zpow, mul_one]

theorem dft_period {N : Nat} (hN : N ≠ 0) (x : Nat → ℝ) (k : ℤ) : dft N x (k + N) = dft N x k := by
  unfold dft
  refine Finset.sum_congr rfl fun j _ => ?_
  congr 1
  rw [show -((k + N) * (j : ℤ)) = -(k * j) + N * (-j) by ring, omega_period hN]

/-- The inverse transform of a sum of exponentials. -/
theorem inverse_core {N : Nat} (hN : N ≠ 0) (c : Nat → Nat → ℂ) (e : Nat → Nat → ℤ) (n : ℤ) :
    (1 / (N : ℂ)) * ∑ k ∈ range N, (∑ j ∈ range N, ∑ l ∈ range N, c j l * omega N ^ (-((k : ℤ) * e j l))) *
      omega N ^ ((k : ℤ) * n) =
    ∑ j ∈ range N, ∑ l ∈ range N, if (N : ℤ) ∣ n - e j l then c j l else 0 := by
  have hN' : (N : ℂ) ≠ 0 := Nat.cast_ne_zero.mpr hN
  simp only [Finset.sum_mul]
  rw [Finset.sum_comm, Finset.mul_sum]
  refine Finset.sum_congr rfl fun j _ => ?_
  rw [Finset.sum_comm, Finset.mul_sum]
  refine Finset.sum_congr rfl fun l _ => ?_
  have : ∀ k : Nat, c j l * omega N ^ (-((k : ℤ) * e j l)) * omega N ^ ((k : ℤ) * n)
      = c j l * omega N ^ ((k : ℤ) * (n - e j l)) := by
    intro k
    rw [mul_assoc, ← zpow_add₀ (omega_ne_zero N)]
    congr 2
    ring
  simp only [this]
  rw [← Finset.mul_sum, sum_omega hN]
  split_ifs
  · field_simp
  · simp

/-- Exactly one index below `N` is congruent to `m`. -/
theorem sum_congruent {N : Nat} (hN : N ≠ 0) (m : ℤ) (g : Nat → ℂ) :
    (∑ l ∈ range N, if (N : ℤ) ∣ m - l then g l else 0) = g (m % N).toNat := by
  have h0 : 0 ≤ m % (N : ℤ) := Int.emod_nonneg _ (by omega)
  have h1 : m % (N : ℤ) < N := Int.emod_lt_of_pos _ (by omega)
  rw [Finset.sum_eq_single (m % N).toNat]
  · rw [if_pos]
    rw [Int.toNat_of_nonneg h0]
    exact Int.dvd_self_sub_emod
  · intro l hl hne
    rw [if_neg]
    intro hd
    apply hne
    rw [mem_range] at hl
    have : m % (N : ℤ) = l := by
      have h2 : (l : ℤ) % N = m % N := Int.modEq_iff_dvd.mpr hd
      rw [← h2, Int.emod_eq_of_lt (by omega) (by omega)]
    omega
  · intro h
    exfalso
    apply h
    rw [mem_range]
    omega

/-- The spectrum which `irfft` transforms back: the bins above the middle are the conjugates of those below
it, the imaginary parts of the first and of the middle bin are discarded. -/
noncomputable def hermitian (M : Nat) (X : Nat → ℂ) (k : Nat) : ℂ :=
  if k = 0 ∨ k = M then ((X k).re : ℂ) else if k < M then X k else (starRingEnd ℂ) (X (2 * M - k))

/-- If `X` is the first half of a spectrum `P` with hermitian symmetry, the whole spectrum is restored. -/
theorem hermitian_eq {M : Nat} (X : Nat → ℂ) (P : ℤ → ℂ) (hX : ∀ k, k ≤ M → X k = P k)
    (hconj : ∀ k, (starRingEnd ℂ) (P k) = P (-k)) (hper : ∀ k, P (k + (2 * M : Nat)) = P k) (k : Nat)
    (hk : k < 2 * M) : hermitian M X k = P k := by
  unfold hermitian
  split_ifs with h1 h2
  · have hr : (starRingEnd ℂ) (P k) = P k := by
      rw [hconj]
      rcases h1 with h | h
      · subst h; simp
      · rw [← hper (-k)]
        congr 1
        subst h
        push_cast
        ring
    rw [hX k (by omega), Complex.conj_eq_iff_re.mp hr]
  · exact hX k (by omega)
  · rw [hX _ (by omega), hconj, ← hper]
    congr 1
    rw [Nat.cast_sub (by omega)]
    ring

end Dft
end Verif
