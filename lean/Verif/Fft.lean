import Verif.NumpyLemmas
import Verif.Dft

/-
`numpy.fft.rfft` and `numpy.fft.irfft` (with the default length) for the rows of a two-dimensional array of
real numbers, in exact arithmetic.  Nothing in this file models SuMPF itself.
-/

namespace Verif
namespace Mat

open Finset Dft

/-- `numpy.fft.rfft(A)`: `A.cols // 2 + 1` bins; a `ValueError` is raised for empty rows. -/
noncomputable def rfft (A : Mat ℝ) : Py (Mat ℂ) :=
  if A.cols = 0 then .error .valueError
  else .ok
    { rows := A.rows
      cols := A.cols / 2 + 1
      get := fun i k => dft A.cols (A.get i) k }

/-- `numpy.fft.irfft(A)` with the default length `2 * (A.cols - 1)`; a `ValueError` is raised, if this is zero. -/
noncomputable def irfft (A : Mat ℂ) : Py (Mat ℝ) :=
  if A.cols ≤ 1 then .error .valueError
  else .ok
    { rows := A.rows
      cols := 2 * (A.cols - 1)
      get := fun i n => ((1 / ((2 * (A.cols - 1) : Nat) : ℂ)) * ∑ k ∈ range (2 * (A.cols - 1)),
        hermitian (A.cols - 1) (A.get i) k * omega (2 * (A.cols - 1)) ^ ((k : ℤ) * n)).re }

/-- `function(A, B)` for an element-wise `function` without an `out` parameter. -/
def zipBroadcast {α β γ : Type} (f : α → β → γ) (A : Mat α) (B : Mat β) : Py (Mat γ) :=
  let r := if A.rows = 1 then B.rows else A.rows
  let c := if A.cols = 1 then B.cols else A.cols
  match A.broadcastTo r c, B.broadcastTo r c with
  | .error e, _ => .error e
  | _, .error e => .error e
  | .ok A', .ok B' => .ok { rows := r, cols := c, get := fun i j => f (A'.get i j) (B'.get i j) }

/-- The result of multiplying spectrums and transforming back, for rows of the same even length:
`∑ j l, x j * y l` over the pairs of indices which are selected by `e`. -/
theorem irfft_product (A : Mat ℂ) (M : Nat) (hM : 0 < M) (hA : A.cols = M + 1) (i : Nat) (x y : Nat → ℝ) (σ : ℤ)
    (hσ : σ = 1 ∨ σ = -1)
    (hget : ∀ k, k ≤ M → A.get i k = dft (2 * M) x (σ * k) * dft (2 * M) y k) :
    ∃ B, A.irfft = .ok B ∧ B.rows = A.rows ∧ B.cols = 2 * M ∧
      ∀ n : Nat, B.get i n = ∑ j ∈ range (2 * M), x j * y (((n : ℤ) - σ * j) % (2 * M : Nat)).toNat := by
  unfold irfft
  rw [if_neg (by omega)]
  refine ⟨_, rfl, rfl, by simp only; omega, ?_⟩
  intro n
  simp only
  have hN : (2 * M) ≠ 0 := by omega
  rw [hA, Nat.add_sub_cancel]
  have key : ∀ k ∈ range (2 * M), hermitian M (A.get i) k * omega (2 * M) ^ ((k : ℤ) * n) =
      (∑ j ∈ range (2 * M), ∑ l ∈ range (2 * M), ((x j : ℂ) * y l) * omega (2 * M) ^ (-((k : ℤ) * (σ * j + l)))) *
        omega (2 * M) ^ ((k : ℤ) * n) := by
    intro k hk
    rw [mem_range] at hk
    congr 1
    rw [hermitian_eq (A.get i) (fun k => dft (2 * M) x (σ * k) * dft (2 * M) y k) hget ?_ ?_ k hk]
    · unfold dft
      rw [Finset.sum_mul]
      refine Finset.sum_congr rfl fun j _ => ?_
      rw [Finset.mul_sum]
      refine Finset.sum_congr rfl fun l _ => ?_
      rw [mul_mul_mul_comm, ← zpow_add₀ (omega_ne_zero _)]
      congr 2
      ring
    · intro k
      rw [map_mul, conj_dft, conj_dft, mul_neg]
    · intro k
      rw [dft_period hN y k]
      congr 1
      rcases hσ with h | h
      · subst h; rw [one_mul, one_mul, dft_period hN]
      · subst h
        rw [show -1 * (k + ((2 * M : Nat) : ℤ)) = -1 * k - ((2 * M : Nat) : ℤ) by ring,
          ← dft_period hN x (-1 * k - _), sub_add_cancel]
  rw [Finset.sum_congr rfl key, inverse_core hN (fun j l => (x j : ℂ) * y l) (fun j l => σ * j + l) n]
  rw [Complex.re_sum]
  refine Finset.sum_congr rfl fun j _ => ?_
  have : ∀ l : Nat, ((n : ℤ) - (σ * (j : ℤ) + (l : ℤ))) = ((n : ℤ) - σ * j) - l := by intro l; ring
  simp only [this]
  rw [sum_congruent hN ((n : ℤ) - σ * j) (fun l => (x j : ℂ) * y l)]
  rw [← Complex.ofReal_mul, Complex.ofReal_re]

end Mat
end Verif
