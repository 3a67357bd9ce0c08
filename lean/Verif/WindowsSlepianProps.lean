import Verif.WindowsSlepian
import Verif.WindowsScipyProps
import Mathlib.Tactic.LinearCombination
import Mathlib.Tactic.Positivity
import Mathlib.Tactic.IntervalCases
import Mathlib.Analysis.Real.Pi.Bounds
import Mathlib.Algebra.BigOperators.Field
import Mathlib.Topology.MetricSpace.ProperSpace
import Mathlib.Analysis.Normed.Group.Constructions

/-
C114: the samples of the Slepian window.
-/

namespace Verif
namespace Windows

open Finset

/-! ### Symmetric tridiagonal matrices with `N + 1` rows -/

/-- the product of a symmetric tridiagonal matrix and a vector -/
def triMul (M : Nat) (d e u : Nat → ℝ) (i : Nat) : ℝ :=
  d i * u i + (if i = 0 then 0 else e (i - 1) * u (i - 1)) + (if i + 1 < M then e i * u (i + 1) else 0)

/-- the contract of `eigh_tridiagonal`: a normalized eigenvector, whose eigenvalue is the largest one -/
def IsTop (M : Nat) (d e v : Nat → ℝ) : Prop :=
  ∑ i ∈ range M, v i ^ 2 = 1 ∧ ∃ μ : ℝ, (∀ i, i < M → triMul M d e v i = μ * v i) ∧
    ∀ u : Nat → ℝ, ∑ i ∈ range M, u i * triMul M d e u i ≤ μ * ∑ i ∈ range M, u i ^ 2

theorem tri_bilinear (N : Nat) (d e u w : Nat → ℝ) : ∑ i ∈ range (N + 1), u i * triMul (N + 1) d e w i =
    ∑ i ∈ range (N + 1), d i * (u i * w i) + ∑ i ∈ range N, e i * (u (i + 1) * w i + u i * w (i + 1)) := by
  unfold triMul
  simp only [mul_add, sum_add_distrib]
  have h1 : ∑ i ∈ range (N + 1), u i * (if i = 0 then 0 else e (i - 1) * w (i - 1)) =
      ∑ i ∈ range N, e i * (u (i + 1) * w i) := by
    rw [sum_range_succ']
    simp only [if_pos, mul_zero, add_zero, Nat.add_sub_cancel, Nat.succ_ne_zero, if_false]
    exact sum_congr rfl fun i _ => by ring
  have h2 : ∑ i ∈ range (N + 1), u i * (if i + 1 < N + 1 then e i * w (i + 1) else 0) =
      ∑ i ∈ range N, e i * (u i * w (i + 1)) := by
    rw [sum_range_succ, if_neg (by omega), mul_zero, add_zero]
    refine sum_congr rfl fun i hi => ?_
    rw [if_pos (by have := mem_range.mp hi; omega)]
    ring
  rw [h1, h2, add_assoc]
  congr 1
  exact sum_congr rfl fun i _ => by ring

/-- A vector, for which the largest value of the quadratic form is reached, is an eigenvector. -/
theorem tri_maximum (N : Nat) (d e w : Nat → ℝ) (μ : ℝ)
    (hm : ∀ u : Nat → ℝ, ∑ i ∈ range (N + 1), u i * triMul (N + 1) d e u i ≤ μ * ∑ i ∈ range (N + 1), u i ^ 2)
    (hw : ∑ i ∈ range (N + 1), w i * triMul (N + 1) d e w i = μ * ∑ i ∈ range (N + 1), w i ^ 2) (i : Nat) (hi : i < N + 1) :
    triMul (N + 1) d e w i = μ * w i := by
  set h : Nat → ℝ := fun i => triMul (N + 1) d e w i - μ * w i with hh
  set S := ∑ i ∈ range (N + 1), h i ^ 2 with hS
  set K := ∑ i ∈ range (N + 1), h i * triMul (N + 1) d e h i - μ * ∑ i ∈ range (N + 1), h i ^ 2 with hK
  have key : ∀ t : ℝ, 2 * t * S + t ^ 2 * K ≤ 0 := by
    intro t
    have := hm fun i => w i + t * h i
    have e1 : ∑ i ∈ range (N + 1), (w i + t * h i) * triMul (N + 1) d e (fun i => w i + t * h i) i =
        ∑ i ∈ range (N + 1), w i * triMul (N + 1) d e w i + 2 * t * ∑ i ∈ range (N + 1), h i * triMul (N + 1) d e w i +
          t ^ 2 * ∑ i ∈ range (N + 1), h i * triMul (N + 1) d e h i := by
      rw [tri_bilinear N d e (fun i => w i + t * h i), tri_bilinear N d e w w, tri_bilinear N d e h w, tri_bilinear N d e h h]
      simp only [mul_add, mul_sum]
      rw [show ∀ a b c d e f g k : ℝ, a = c + e + g → b = d + f + k → a + b = c + d + (e + f) + (g + k) by
        intros; linarith]
      · rw [← sum_add_distrib, ← sum_add_distrib]
        exact sum_congr rfl fun i _ => by ring
      · rw [← sum_add_distrib, ← sum_add_distrib]
        exact sum_congr rfl fun i _ => by ring
    have e2 : ∑ i ∈ range (N + 1), (w i + t * h i) ^ 2 = ∑ i ∈ range (N + 1), w i ^ 2 +
        2 * t * ∑ i ∈ range (N + 1), h i * w i + t ^ 2 * ∑ i ∈ range (N + 1), h i ^ 2 := by
      simp only [mul_sum]
      rw [← sum_add_distrib, ← sum_add_distrib]
      exact sum_congr rfl fun i _ => by ring
    have e3 : S = ∑ i ∈ range (N + 1), h i * triMul (N + 1) d e w i - μ * ∑ i ∈ range (N + 1), h i * w i := by
      rw [hS, mul_sum, ← sum_sub_distrib]
      exact sum_congr rfl fun i _ => by rw [hh]; ring
    rw [e1, e2, hw] at this
    rw [hK, e3]
    nlinarith
  have hS0 : S = 0 := by
    have hn : 0 ≤ S := sum_nonneg fun i _ => sq_nonneg _
    by_contra hne
    have hp : 0 < S := lt_of_le_of_ne hn (Ne.symm hne)
    have h1 := key (S / (|K| + 1))
    have hk : 0 < |K| + 1 := by positivity
    have h2 : (S / (|K| + 1)) ^ 2 * K ≥ -(S / (|K| + 1)) * S := by
      have : -(|K| + 1) ≤ K := by linarith [neg_abs_le K]
      have h3 : (S / (|K| + 1)) ^ 2 * (-(|K| + 1)) ≤ (S / (|K| + 1)) ^ 2 * K := mul_le_mul_of_nonneg_left this (sq_nonneg _)
      have h4 : (S / (|K| + 1)) ^ 2 * (-(|K| + 1)) = -(S / (|K| + 1)) * S := by field_simp
      linarith
    have h5 : 0 < S / (|K| + 1) * S := by positivity
    linarith
  have := (sum_eq_zero_iff_of_nonneg fun i _ => sq_nonneg (h i)).mp hS0 i (mem_range.mpr hi)
  have := pow_eq_zero_iff (two_ne_zero) |>.mp this
  rw [hh] at this
  linarith

theorem tri_nonzero (N : Nat) (d e v : Nat → ℝ) (μ : ℝ) (he : ∀ i, i < N → 0 < e i) (hv : ∀ i, 0 ≤ v i)
    (h : ∀ i, i < N + 1 → triMul (N + 1) d e v i = μ * v i) (i : Nat) (hi : i < N + 1) (h0 : v i = 0) :
    ∀ j, j < N + 1 → v j = 0 := by
  have hup : ∀ j, j < N + 1 → v j = 0 → (∀ k, k + 1 = j → v k = 0) ∧ (j + 1 < N + 1 → v (j + 1) = 0) := by
    intro j hj h0
    have := h j hj
    unfold triMul at this
    rw [h0, mul_zero, mul_zero, zero_add] at this
    have h1 : 0 ≤ (if j = 0 then 0 else e (j - 1) * v (j - 1)) := by
      split
      · exact le_rfl
      · exact mul_nonneg (he _ (by omega)).le (hv _)
    have h2 : 0 ≤ (if j + 1 < N + 1 then e j * v (j + 1) else 0) := by
      split
      · exact mul_nonneg (he _ (by omega)).le (hv _)
      · exact le_rfl
    constructor
    · rintro k rfl
      rw [if_neg (by omega)] at this h1
      have h3 : e k * v k = 0 := by
        rw [Nat.add_sub_cancel] at this h1
        linarith
      exact (mul_eq_zero.mp h3).resolve_left (he k (by omega)).ne'
    · intro hj'
      rw [if_pos hj'] at this h2
      have h3 : e j * v (j + 1) = 0 := by linarith
      exact (mul_eq_zero.mp h3).resolve_left (he j (by omega)).ne'
  have hdown : ∀ n, n ≤ i → v (i - n) = 0 := by
    intro n
    induction n with
    | zero => intro _; exact h0
    | succ n ih =>
      intro hn
      exact (hup (i - n) (by omega) (ih (by omega))).1 (i - (n + 1)) (by omega)
  have h00 : v 0 = 0 := by
    have := hdown i le_rfl
    rwa [Nat.sub_self] at this
  intro j
  induction j with
  | zero => intro _; exact h00
  | succ j ih => intro hj; exact (hup j (by omega) (ih (by omega))).2 hj

/-- The eigenvector of the largest eigenvalue of a matrix with a positive off-diagonal has no changes of its sign. -/
theorem tri_sign (N : Nat) (d e v : Nat → ℝ) (he : ∀ i, i < N → 0 < e i) (h : IsTop (N + 1) d e v) :
    (∀ i, i < N + 1 → 0 < v i) ∨ (∀ i, i < N + 1 → v i < 0) := by
  obtain ⟨h1, μ, h2, h3⟩ := h
  have hv : ∑ i ∈ range (N + 1), v i * triMul (N + 1) d e v i = μ * ∑ i ∈ range (N + 1), v i ^ 2 := by
    rw [mul_sum]
    exact sum_congr rfl fun i hi => by rw [h2 i (mem_range.mp hi)]; ring
  have ha := h3 fun i => |v i|
  simp only [sq_abs] at ha
  rw [← hv, tri_bilinear, tri_bilinear] at ha
  simp only [abs_mul_abs_self] at ha
  have hge : ∀ i ∈ range N, e i * (v (i + 1) * v i + v i * v (i + 1)) ≤ e i * (|v (i + 1)| * |v i| + |v i| * |v (i + 1)|) := by
    intro i hi
    refine mul_le_mul_of_nonneg_left ?_ (he i (mem_range.mp hi)).le
    rw [← abs_mul, ← abs_mul]
    exact add_le_add (le_abs_self _) (le_abs_self _)
  have heq : ∑ i ∈ range N, e i * (v (i + 1) * v i + v i * v (i + 1)) =
      ∑ i ∈ range N, e i * (|v (i + 1)| * |v i| + |v i| * |v (i + 1)|) := le_antisymm (sum_le_sum hge) (by linarith)
  have hpos : ∀ i, i < N → 0 ≤ v i * v (i + 1) := by
    intro i hi
    have := (sum_eq_sum_iff_of_le hge).mp heq i (mem_range.mpr hi)
    have := mul_left_cancel₀ (he i hi).ne' this
    have hp : 0 ≤ |v i| * |v (i + 1)| := by positivity
    nlinarith
  have hm : ∑ i ∈ range (N + 1), |v i| * triMul (N + 1) d e (fun i => |v i|) i = μ * ∑ i ∈ range (N + 1), |v i| ^ 2 := by
    simp only [sq_abs]
    rw [← hv, tri_bilinear, tri_bilinear, heq]
    simp only [abs_mul_abs_self]
  have hev := tri_maximum N d e (fun i => |v i|) μ h3 hm
  have hne : ∀ i, i < N + 1 → v i ≠ 0 := by
    intro i hi h0
    have := tri_nonzero N d e (fun i => |v i|) μ he (fun i => abs_nonneg _) hev i hi (abs_eq_zero.mpr h0)
    have h4 : ∑ i ∈ range (N + 1), v i ^ 2 = 0 := sum_eq_zero fun j hj => by
      rw [abs_eq_zero.mp (this j (mem_range.mp hj)), zero_pow two_ne_zero]
    rw [h4] at h1
    exact absurd h1 (by norm_num)
  have hpos' : ∀ i, i < N → 0 < v i * v (i + 1) := fun i hi =>
    lt_of_le_of_ne (hpos i hi) (mul_ne_zero (hne i (by omega)) (hne (i + 1) (by omega))).symm
  rcases lt_or_gt_of_ne (hne 0 (by omega)) with h0 | h0
  · right
    intro i
    induction i with
    | zero => intro _; exact h0
    | succ i ih =>
      intro hi
      have := hpos' i (by omega)
      have := ih (by omega)
      by_contra hc
      nlinarith
  · left
    intro i
    induction i with
    | zero => intro _; exact h0
    | succ i ih =>
      intro hi
      have := hpos' i (by omega)
      have := ih (by omega)
      by_contra hc
      nlinarith

/-- The eigenvectors for one eigenvalue are multiples of each other. -/
theorem tri_unique (N : Nat) (d e u v : Nat → ℝ) (μ : ℝ) (he : ∀ i, i < N → 0 < e i)
    (hu : ∀ i, i < N + 1 → triMul (N + 1) d e u i = μ * u i) (hv : ∀ i, i < N + 1 → triMul (N + 1) d e v i = μ * v i) :
    ∀ i, i < N + 1 → v 0 * u i = u 0 * v i := by
  intro i
  induction i using Nat.strong_induction_on with
  | _ i ih =>
    intro hi
    match i, ih, hi with
    | 0, _, _ => ring
    | i + 1, ih, hi =>
      have h1 := hu i (by omega)
      have h2 := hv i (by omega)
      have h3 := ih i (by omega) (by omega)
      unfold triMul at h1 h2
      rw [if_pos (show i + 1 < N + 1 by omega)] at h1 h2
      have h4 : v 0 * (if i = 0 then 0 else e (i - 1) * u (i - 1)) = u 0 * (if i = 0 then 0 else e (i - 1) * v (i - 1)) := by
        split
        · ring
        · linear_combination e (i - 1) * ih (i - 1) (by omega) (by omega)
      refine mul_left_cancel₀ (he i (by omega)).ne' ?_
      linear_combination v 0 * h1 - u 0 * h2 - h4 + (μ - d i) * h3

/-- The eigenvectors of a matrix, that does not change, when the order of its rows and columns is reversed, are reversed, too. -/
theorem tri_reverse (N : Nat) (d e v : Nat → ℝ) (μ : ℝ) (hd : ∀ i, i < N + 1 → d (N - i) = d i)
    (he : ∀ i, i < N → e (N - 1 - i) = e i) (hv : ∀ i, i < N + 1 → triMul (N + 1) d e v i = μ * v i) (i : Nat)
    (hi : i < N + 1) : triMul (N + 1) d e (fun i => v (N - i)) i = μ * v (N - i) := by
  rw [← hv (N - i) (by omega)]
  unfold triMul
  dsimp only
  rw [hd i hi, add_assoc, add_assoc]
  congr 1
  rw [add_comm]
  congr 1
  · by_cases h : i + 1 < N + 1
    · rw [if_pos h, if_neg (by omega), ← he i (by omega), show N - (i + 1) = N - i - 1 by omega,
        show N - 1 - i = N - i - 1 by omega]
    · rw [if_neg h, if_pos (by omega)]
  · by_cases h : i = 0
    · rw [if_pos h, if_neg (by omega)]
    · rw [if_neg h, if_pos (by omega), ← he (i - 1) (by omega), show N - (i - 1) = N - i + 1 by omega,
        show N - 1 - (i - 1) = N - i by omega]

/-! ### The sequence in `dpss` -/

/-- the contract of the parameter `eigh` for matrices with a given size -/
def Solves (eigh : Eigh) (M : Nat) : Prop := ∀ d e : Nat → ℝ, IsTop M d e (eigh M d e)

theorem triMul_neg (M : Nat) (d e v : Nat → ℝ) (i : Nat) : triMul M d e (fun n => -v n) i = -triMul M d e v i := by
  unfold triMul
  split <;> split <;> ring

theorem off_pos (N i : Nat) (hi : i < N) : 0 < dpssOffDiagonal (N + 1) i := by
  unfold dpssOffDiagonal
  have : (i : ℝ) < N := by exact_mod_cast hi
  have : (0 : ℝ) < ((N + 1 : Nat) : ℝ) - (i + 1) := by push_cast; linarith
  positivity

/-- The sequence is a positive eigenvector for the largest eigenvalue. -/
theorem dpss_positive (eigh : Eigh) (N : Nat) (NW : ℝ) (h : Solves eigh (N + 1)) :
    (∀ i, i < N + 1 → 0 < dpssSequence eigh (N + 1) NW i) ∧
    IsTop (N + 1) (dpssDiagonal (N + 1) (NW / (N + 1 : Nat))) (dpssOffDiagonal (N + 1)) (dpssSequence eigh (N + 1) NW) := by
  have ht := h (dpssDiagonal (N + 1) (NW / (N + 1 : Nat))) (dpssOffDiagonal (N + 1))
  have hs := tri_sign N _ _ _ (fun i hi => off_pos N i hi) ht
  unfold dpssSequence
  dsimp only
  split
  · rename_i hn
    have hneg : ∀ i, i < N + 1 → eigh (N + 1) (dpssDiagonal (N + 1) (NW / (N + 1 : Nat))) (dpssOffDiagonal (N + 1)) i < 0 := by
      rcases hs with hs | hs
      · exact absurd hn (not_lt.mpr (sum_nonneg fun i hi => (hs i (mem_range.mp hi)).le))
      · exact hs
    refine ⟨fun i hi => by have := hneg i hi; linarith, ?_⟩
    obtain ⟨h1, μ, h2, h3⟩ := ht
    refine ⟨?_, μ, ?_, h3⟩
    · simp only [neg_sq]
      exact h1
    · intro i hi
      rw [triMul_neg, h2 i hi]
      ring
  · rename_i hn
    refine ⟨?_, ht⟩
    rcases hs with hs | hs
    · exact hs
    · exact absurd (sum_neg (fun i hi => hs i (mem_range.mp hi)) ⟨0, mem_range.mpr (by omega)⟩) hn

theorem diagonal_symm (N : Nat) (W : ℝ) (i : Nat) (hi : i < N + 1) :
    dpssDiagonal (N + 1) W (N - i) = dpssDiagonal (N + 1) W i := by
  unfold dpssDiagonal
  push_cast [Nat.cast_sub (show i ≤ N by omega)]
  ring

theorem off_symm (N i : Nat) (hi : i < N) : dpssOffDiagonal (N + 1) (N - 1 - i) = dpssOffDiagonal (N + 1) i := by
  unfold dpssOffDiagonal
  rw [Nat.sub_sub, Nat.cast_sub (show 1 + i ≤ N by omega)]
  push_cast
  ring

/-- A positive eigenvector is a palindrome. -/
theorem dpss_palindrome (N : Nat) (W : ℝ) (v : Nat → ℝ) (μ : ℝ) (hp : ∀ i, i < N + 1 → 0 < v i)
    (hv : ∀ i, i < N + 1 → triMul (N + 1) (dpssDiagonal (N + 1) W) (dpssOffDiagonal (N + 1)) v i = μ * v i) (i : Nat)
    (hi : i < N + 1) : v (N - i) = v i := by
  have hr := tri_reverse N _ _ v μ (diagonal_symm N W) (off_symm N) hv
  have hu := tri_unique N _ _ (fun i => v (N - i)) v μ (fun i hi => off_pos N i hi) hr hv
  have h0 := hu N (by omega)
  rw [Nat.sub_self, Nat.sub_zero] at h0
  have hpN := hp N (by omega)
  have hp0 := hp 0 (by omega)
  have : v 0 = v N := by nlinarith
  have h1 := hu i hi
  rw [Nat.sub_zero, ← this] at h1
  exact mul_left_cancel₀ hp0.ne' h1

/-- A positive eigenvector increases up to its centre. -/
theorem dpss_unimodal (N : Nat) (W : ℝ) (v : Nat → ℝ) (μ : ℝ) (hp : ∀ i, i < N + 1 → 0 < v i)
    (hv : ∀ i, i < N + 1 → triMul (N + 1) (dpssDiagonal (N + 1) W) (dpssOffDiagonal (N + 1)) v i = μ * v i) (i : Nat)
    (hi : 2 * (i + 1) ≤ N + 1) : v i ≤ v (i + 1) := by
  set κ : Nat → ℝ := fun i => μ - (N * (N + 2)) / 4 + ((N : ℝ) - 2 * i) ^ 2 * (1 - Real.cos (2 * Real.pi * W)) / 4 with hκ
  set F : Nat → ℝ := fun i => (i : ℝ) * (N + 1 - i) / 2 * (v i - v (i - 1)) with hF
  have step : ∀ i, i < N + 1 → F (i + 1) - F i = κ i * v i := by
    intro i hi
    have h := hv i hi
    unfold triMul dpssDiagonal dpssOffDiagonal at h
    rw [hF, hκ]
    dsimp only
    rw [Nat.add_sub_cancel]
    have a1 : (if i = 0 then (0 : ℝ) else (((i - 1 : Nat) : ℝ) + 1) * (((N + 1 : Nat) : ℝ) - (((i - 1 : Nat) : ℝ) + 1)) / 2 * v (i - 1)) =
        (i : ℝ) * (N + 1 - i) / 2 * v (i - 1) := by
      split
      · rename_i h0
        rw [h0]
        push_cast
        ring
      · rw [Nat.cast_sub (show 1 ≤ i by omega)]
        push_cast
        ring
    have a2 : (if i + 1 < N + 1 then ((i : ℝ) + 1) * (((N + 1 : Nat) : ℝ) - (i + 1)) / 2 * v (i + 1) else 0) =
        ((i : ℝ) + 1) * (N - i) / 2 * v (i + 1) := by
      split
      · push_cast
        ring
      · rw [show i = N by omega, sub_self]
        ring
    rw [a1, a2] at h
    push_cast at h ⊢
    linear_combination h
  have mono : ∀ j k, j ≤ k → k ≤ N - j → κ k ≤ κ j := by
    intro j k h1 h2
    rw [hκ]
    dsimp only
    have hc : 0 ≤ 1 - Real.cos (2 * Real.pi * W) := by linarith [Real.cos_le_one (2 * Real.pi * W)]
    have hsq : ((N : ℝ) - 2 * k) ^ 2 ≤ ((N : ℝ) - 2 * j) ^ 2 := by
      apply sq_le_sq'
      · have : (j : ℝ) + k ≤ N := by exact_mod_cast (show j + k ≤ N by omega)
        linarith
      · have : (j : ℝ) ≤ k := by exact_mod_cast h1
        linarith
    have := mul_le_mul_of_nonneg_right hsq hc
    linarith
  have anti : ∀ i, i ≤ N + 1 → 0 < i → F (N + 1 - i) = -F i ∨ i = N + 1 := by
    intro i h1 h2
    by_cases h : i = N + 1
    · exact Or.inr h
    · left
      rw [hF]
      dsimp only
      have e1 := dpss_palindrome N W v μ hp hv (i - 1) (by omega)
      have e2 := dpss_palindrome N W v μ hp hv i (by omega)
      rw [show N + 1 - i - 1 = N - i by omega, e2, show N + 1 - i = N - (i - 1) by omega, e1,
        Nat.cast_sub (show i - 1 ≤ N by omega), Nat.cast_sub (show 1 ≤ i by omega)]
      push_cast
      ring
  have hFi : 0 ≤ F (i + 1) := by
    by_contra hneg
    rw [not_le] at hneg
    have hF0 : F 0 = 0 := by
      rw [hF]
      simp
    obtain ⟨j, hj1, hj2⟩ : ∃ j, j < i + 1 ∧ κ j < 0 := by
      by_contra hc
      simp only [not_exists, not_and, not_lt] at hc
      have : ∀ n, n ≤ i + 1 → 0 ≤ F n := by
        intro n
        induction n with
        | zero => intro _; rw [hF0]
        | succ n ih =>
          intro hn
          have := step n (by omega)
          have := mul_nonneg (hc n (by omega)) (hp n (by omega)).le
          have := ih (by omega)
          linarith
      exact absurd (this (i + 1) le_rfl) (not_le.mpr hneg)
    have dec : ∀ n, i + 1 + n ≤ N + 1 - (i + 1) → F (i + 1 + n) ≤ F (i + 1) := by
      intro n
      induction n with
      | zero => intro _; exact le_rfl
      | succ n ih =>
        intro hn
        have := step (i + 1 + n) (by omega)
        have hk : κ (i + 1 + n) < 0 := lt_of_le_of_lt (mono j (i + 1 + n) (by omega) (by omega)) hj2
        have := mul_neg_of_neg_of_pos hk (hp (i + 1 + n) (by omega))
        have := ih (by omega)
        rw [← add_assoc]
        linarith
    have hd := dec (N + 1 - (i + 1) - (i + 1)) (by omega)
    rw [show i + 1 + (N + 1 - (i + 1) - (i + 1)) = N + 1 - (i + 1) by omega] at hd
    rcases anti (i + 1) (by omega) (by omega) with ha | ha
    · rw [ha] at hd
      linarith
    · omega
  rw [hF] at hFi
  dsimp only at hFi
  rw [Nat.add_sub_cancel] at hFi
  have hc : (0 : ℝ) < ((i + 1 : Nat) : ℝ) * (N + 1 - ((i + 1 : Nat) : ℝ)) / 2 := by
    have : ((i + 1 : Nat) : ℝ) < N + 1 := by exact_mod_cast (show i + 1 < N + 1 by omega)
    have : 0 < (N : ℝ) + 1 - ((i + 1 : Nat) : ℝ) := by linarith
    positivity
  have := nonneg_of_mul_nonneg_right hFi hc
  linarith

theorem dpss_maximum (N : Nat) (W : ℝ) (v : Nat → ℝ) (μ : ℝ) (hp : ∀ i, i < N + 1 → 0 < v i)
    (hv : ∀ i, i < N + 1 → triMul (N + 1) (dpssDiagonal (N + 1) W) (dpssOffDiagonal (N + 1)) v i = μ * v i) (i : Nat)
    (hi : i < N + 1) : v i ≤ v ((N + 1) / 2) := by
  have key : ∀ n i, i + n = (N + 1) / 2 → v i ≤ v ((N + 1) / 2) := by
    intro n
    induction n with
    | zero => intro i h; rw [← h, add_zero]
    | succ n ih =>
      intro i h
      exact le_trans (dpss_unimodal N W v μ hp hv i (by omega)) (ih (i + 1) (by omega))
  by_cases h : i ≤ (N + 1) / 2
  · exact key ((N + 1) / 2 - i) i (by omega)
  · rw [← dpss_palindrome N W v μ hp hv i hi]
    exact key ((N + 1) / 2 - (N - i)) (N - i) (by omega)

theorem listMax_eq (l : List ℝ) (x : ℝ) (hx : x ∈ l) (h : ∀ y ∈ l, y ≤ x) : listMax l = x := by
  have key : ∀ (l : List ℝ) (a : ℝ), a ≤ x → (∀ y ∈ l, y ≤ x) → (a = x ∨ x ∈ l) → l.foldl max a = x := by
    intro l
    induction l with
    | nil =>
      intro a _ _ h
      rcases h with h | h
      · exact h
      · exact absurd h List.not_mem_nil
    | cons b l ih =>
      intro a ha hl h
      rw [List.foldl_cons]
      have hb := hl b List.mem_cons_self
      refine ih (max a b) (max_le ha hb) (fun y hy => hl y (List.mem_cons_of_mem _ hy)) ?_
      rcases h with h | h
      · left
        rw [h]
        exact max_eq_left hb
      · rcases List.mem_cons.mp h with h | h
        · left
          rw [← h]
          exact max_eq_right ha
        · exact Or.inr h
  cases l with
  | nil => exact absurd hx List.not_mem_nil
  | cons a l =>
    refine key l a (h a List.mem_cons_self) (fun y hy => h y (List.mem_cons_of_mem _ hy)) ?_
    rcases List.mem_cons.mp hx with h | h
    · exact Or.inl h.symm
    · exact Or.inr h

/-! ### The correction for even lengths -/

/-- a trigonometric polynomial with the period `M`, that is symmetric about the centre `(M - 1) / 2` of a sequence with `M`
samples; there are no frequencies from half of the sampling rate -/
noncomputable def cosineSeries (c : Nat → ℝ) (M : Nat) (t : ℝ) : ℝ :=
  ∑ k ∈ range (M / 2), c k * Real.cos (2 * Real.pi * k * (t - ((M : ℝ) - 1) / 2) / M)

theorem dirichlet (a : ℝ) (h : Nat) : Real.sin (a / 2) * (1 + 2 * ∑ k ∈ range h, Real.cos (((k + 1 : Nat) : ℝ) * a)) =
    Real.sin ((h + 1 / 2) * a) := by
  induction h with
  | zero =>
    rw [sum_range_zero, mul_zero, add_zero, mul_one]
    congr 1
    push_cast
    ring
  | succ h ih =>
    rw [sum_range_succ, mul_add 2, ← add_assoc, mul_add, ih]
    have e1 : ((h : ℝ) + 1 / 2) * a = ((h + 1 : Nat) : ℝ) * a - a / 2 := by push_cast; ring
    have e2 : (((h + 1 : Nat) : ℝ) + 1 / 2) * a = ((h + 1 : Nat) : ℝ) * a + a / 2 := by ring
    rw [e1, e2, Real.sin_sub, Real.sin_add]
    ring

/-- the angle, by which the spectrum is shifted in `dpss`, combined with that of the transform -/
noncomputable def dpssAngle (M n : Nat) : ℝ := Real.pi * (2 * n + 1 - M) / M

theorem correction_eq (M : Nat) (hM : 0 < M) (w : Nat → ℝ) :
    dpssCorrection M w = M / ∑ n ∈ range M, w n * (1 + 2 * ∑ k ∈ range (M / 2), Real.cos (((k + 1 : Nat) : ℝ) * dpssAngle M n)) := by
  have hM' : (M : ℂ) ≠ 0 := by exact_mod_cast hM.ne'
  unfold dpssCorrection
  dsimp only
  congr 1
  rw [Complex.add_re]
  have h0 : (∑ n ∈ range M, (w n : ℂ) * Complex.exp (-2 * Real.pi * Complex.I * ((0 : Nat) : ℂ) * n / M)).re = ∑ n ∈ range M, w n := by
    rw [Complex.re_sum]
    refine sum_congr rfl fun n _ => ?_
    rw [Nat.cast_zero, mul_zero, zero_mul, zero_div, Complex.exp_zero, mul_one, Complex.ofReal_re]
  rw [h0, Complex.re_sum]
  have hk : ∀ k, ((∑ n ∈ range M, (w n : ℂ) * Complex.exp (-2 * Real.pi * Complex.I * ((k : Nat) : ℂ) * n / M)) *
      (2 * Complex.exp (-Complex.I * Real.pi * ((-(1 - 1 / (M : ℝ)) * (k : ℝ) : ℝ) : ℂ)))).re =
      ∑ n ∈ range M, w n * (2 * Real.cos ((k : ℝ) * dpssAngle M n)) := by
    intro k
    rw [sum_mul, Complex.re_sum]
    refine sum_congr rfl fun n _ => ?_
    rw [mul_assoc, mul_left_comm _ (2 : ℂ), ← Complex.exp_add, Complex.re_ofReal_mul,
      show (-2 * (Real.pi : ℂ) * Complex.I * (k : ℂ) * (n : ℂ) / (M : ℂ) +
        -Complex.I * (Real.pi : ℂ) * ((-(1 - 1 / (M : ℝ)) * (k : ℝ) : ℝ) : ℂ)) =
        ((-((k : ℝ) * dpssAngle M n) : ℝ) : ℂ) * Complex.I by
          unfold dpssAngle
          push_cast
          field_simp
          ring]
    rw [show (2 : ℂ) = ((2 : ℝ) : ℂ) by norm_num, Complex.re_ofReal_mul, Complex.exp_ofReal_mul_I_re, Real.cos_neg]
  rw [sum_congr rfl fun k _ => hk (k + 1), sum_comm, ← sum_add_distrib]
  refine sum_congr rfl fun n _ => ?_
  rw [← mul_sum, ← mul_sum]
  ring

theorem alternating (n : Nat) (g : Nat → ℝ) (h0 : ∀ m, 0 ≤ g m) (h : ∀ m, m + 1 < n → g (m + 1) ≤ g m) :
    0 ≤ ∑ m ∈ range n, (-1) ^ m * g m ∧ ∑ m ∈ range n, (-1) ^ m * g m ≤ g 0 := by
  induction n generalizing g with
  | zero => exact ⟨le_of_eq (sum_range_zero _).symm, by rw [sum_range_zero]; exact h0 0⟩
  | succ n ih =>
    obtain ⟨i1, i2⟩ := ih (fun m => g (m + 1)) (fun m => h0 _) fun m hm => h (m + 1) (by omega)
    have e : ∑ m ∈ range (n + 1), (-1) ^ m * g m = g 0 - ∑ m ∈ range n, (-1) ^ m * g (m + 1) := by
      rw [sum_range_succ', pow_zero, one_mul, add_comm, sub_eq_add_neg, ← sum_neg_distrib]
      congr 1
      exact sum_congr rfl fun m _ => by rw [pow_succ]; ring
    rw [e]
    by_cases hn : n = 0
    · subst hn
      rw [sum_range_zero, sub_zero]
      exact ⟨h0 0, le_rfl⟩
    · have := h 0 (by omega)
      exact ⟨by linarith, by linarith⟩

/-- The sum, by which the length is divided, is positive. -/
theorem correction_pos (h : Nat) (hh : 2 ≤ h) (w : Nat → ℝ) (hp : ∀ n, n < 2 * h → 0 < w n)
    (hs : ∀ n, n < 2 * h → w (2 * h - 1 - n) = w n) (hm' : ∀ n, n + 1 ≤ h → w n ≤ w (n + 1)) :
    0 < ∑ n ∈ range (2 * h), w n * (1 + 2 * ∑ k ∈ range h, Real.cos (((k + 1 : Nat) : ℝ) * dpssAngle (2 * h) n)) := by
  have hh' : (0 : ℝ) < h := by exact_mod_cast (by omega : 0 < h)
  set D : Nat → ℝ := fun n => 1 + 2 * ∑ k ∈ range h, Real.cos (((k + 1 : Nat) : ℝ) * dpssAngle (2 * h) n) with hD
  set α : Nat → ℝ := fun m => Real.pi * (2 * m + 1) / (4 * h) with hα
  have hα0 : ∀ m, 0 < α m := fun m => by rw [hα]; positivity
  have hα1 : ∀ m, m < h → α m < Real.pi / 2 := by
    intro m hm
    rw [hα]
    dsimp only
    have : (m : ℝ) + 1 ≤ h := by exact_mod_cast hm
    rw [div_lt_div_iff₀ (by positivity) (by norm_num)]
    nlinarith [Real.pi_pos]
  have hsin : ∀ m, m < h → 0 < Real.sin (α m) := fun m hm =>
    Real.sin_pos_of_pos_of_lt_pi (hα0 m) (by linarith [hα1 m hm, Real.pi_pos])
  have hcos : ∀ m, m < h → 0 < Real.cos (α m) := fun m hm =>
    Real.cos_pos_of_mem_Ioo ⟨by linarith [hα0 m, Real.pi_pos], hα1 m hm⟩
  have hD1 : ∀ m, m < h → D (h + m) = (-1) ^ m * (Real.cos (α m) / Real.sin (α m)) := by
    intro m hm
    have ha : dpssAngle (2 * h) (h + m) = 2 * α m := by
      unfold dpssAngle
      rw [hα]
      push_cast
      field_simp
      ring
    have hd := dirichlet (dpssAngle (2 * h) (h + m)) h
    rw [ha, mul_div_cancel_left₀ _ (two_ne_zero)] at hd
    have e : ((h : ℝ) + 1 / 2) * (2 * α m) = (α m + Real.pi / 2) + m * Real.pi := by
      rw [hα]
      dsimp only
      field_simp
      ring
    rw [e, Real.sin_add_nat_mul_pi, Real.sin_add_pi_div_two] at hd
    rw [hD]
    dsimp only
    rw [ha, ← mul_div_assoc ((-1 : ℝ) ^ m), eq_div_iff (hsin m hm).ne', mul_comm]
    exact hd
  have hD2 : ∀ m, m < h → D (h - 1 - m) = D (h + m) := by
    intro m hm
    rw [hD]
    dsimp only
    congr 2
    refine sum_congr rfl fun k _ => ?_
    rw [← Real.cos_neg]
    congr 1
    unfold dpssAngle
    rw [Nat.sub_sub, Nat.cast_sub (show 1 + m ≤ h by omega)]
    push_cast
    field_simp
    ring
  have hsum : ∑ n ∈ range (2 * h), w n * D n = 2 * ∑ m ∈ range h, (-1) ^ m * (w (h + m) * (Real.cos (α m) / Real.sin (α m))) := by
    rw [two_mul h, sum_range_add, ← sum_range_reflect (fun n => w n * D n) h, ← sum_add_distrib, mul_sum]
    refine sum_congr rfl fun m hm => ?_
    have hm' := mem_range.mp hm
    have := hs (h + m) (by omega)
    rw [show 2 * h - 1 - (h + m) = h - 1 - m by omega] at this
    rw [this, hD2 m hm', hD1 m hm']
    ring
  rw [hsum]
  obtain ⟨n, rfl⟩ : ∃ n, h = n + 1 := ⟨h - 1, by omega⟩
  set g : Nat → ℝ := fun m => if m < n + 1 then w (n + 1 + m) * (Real.cos (α m) / Real.sin (α m)) else 0 with hg
  have hgpos : ∀ m, m < n + 1 → 0 < w (n + 1 + m) * (Real.cos (α m) / Real.sin (α m)) := fun m hm =>
    mul_pos (hp _ (by omega)) (div_pos (hcos m hm) (hsin m hm))
  have hg0 : ∀ m, 0 ≤ g m := by
    intro m
    rw [hg]
    dsimp only
    split
    · exact (hgpos m (by assumption)).le
    · exact le_rfl
  have hlt : ∀ m, m + 1 < n + 1 → g (m + 1) < g m := by
    intro m hm
    rw [hg]
    dsimp only
    rw [if_pos hm, if_pos (show m < n + 1 by omega)]
    have hw : w (n + 1 + (m + 1)) ≤ w (n + 1 + m) := by
      rw [← hs (n + 1 + (m + 1)) (by omega), ← hs (n + 1 + m) (by omega),
        show 2 * (n + 1) - 1 - (n + 1 + m) = 2 * (n + 1) - 1 - (n + 1 + (m + 1)) + 1 by omega]
      exact hm' _ (by omega)
    have hαlt : α m < α (m + 1) := by
      rw [hα]
      dsimp only
      push_cast
      have := Real.pi_pos
      rw [div_lt_div_iff_of_pos_right (by positivity)]
      nlinarith
    have hc : Real.cos (α (m + 1)) < Real.cos (α m) :=
      Real.cos_lt_cos_of_nonneg_of_le_pi (hα0 m).le (by linarith [hα1 (m + 1) hm, Real.pi_pos]) hαlt
    have hsn : Real.sin (α m) ≤ Real.sin (α (m + 1)) :=
      Real.sin_le_sin_of_le_of_le_pi_div_two (by linarith [hα0 m, Real.pi_pos]) (hα1 (m + 1) hm).le hαlt.le
    have hq : Real.cos (α (m + 1)) / Real.sin (α (m + 1)) < Real.cos (α m) / Real.sin (α m) := by
      rw [div_lt_div_iff₀ (hsin _ hm) (hsin _ (by omega))]
      have := hsin m (by omega)
      have := hcos (m + 1) hm
      nlinarith
    have hw0 := hp (n + 1 + m) (by omega)
    have := div_pos (hcos (m + 1) hm) (hsin (m + 1) hm)
    calc w (n + 1 + (m + 1)) * (Real.cos (α (m + 1)) / Real.sin (α (m + 1)))
        ≤ w (n + 1 + m) * (Real.cos (α (m + 1)) / Real.sin (α (m + 1))) := mul_le_mul_of_nonneg_right hw this.le
      _ < _ := mul_lt_mul_of_pos_left hq hw0
  have hsg : ∑ m ∈ range (n + 1), (-1) ^ m * (w (n + 1 + m) * (Real.cos (α m) / Real.sin (α m))) =
      ∑ m ∈ range (n + 1), (-1) ^ m * g m := by
    refine sum_congr rfl fun m hm => ?_
    rw [hg]
    dsimp only
    rw [if_pos (mem_range.mp hm)]
  rw [hsg]
  have e : ∑ m ∈ range (n + 1), (-1) ^ m * g m = g 0 - ∑ m ∈ range n, (-1) ^ m * g (m + 1) := by
    rw [sum_range_succ', pow_zero, one_mul, add_comm, sub_eq_add_neg, ← sum_neg_distrib]
    congr 1
    exact sum_congr rfl fun m _ => by rw [pow_succ]; ring
  have h2 := (alternating n (fun m => g (m + 1)) (fun m => hg0 _) fun m hm => (hlt (m + 1) (by omega)).le).2
  have h3 := hlt 0 (by omega)
  rw [e]
  linarith

theorem kernel_eq (g : Nat) (r : ℤ) (h1 : -(2 * ((g : ℤ) + 1)) < r) (h2 : r < 2 * ((g : ℤ) + 1)) :
    1 + 2 * ∑ k ∈ range g, Real.cos (((k + 1 : Nat) : ℝ) * (Real.pi * r / (g + 1))) =
      (if r = 0 then 2 * ((g : ℝ) + 1) else 0) - (-1) ^ r := by
  have hg : (0 : ℝ) < (g : ℝ) + 1 := by positivity
  by_cases hr : r = 0
  · subst hr
    rw [if_pos rfl]
    simp only [Int.cast_zero, mul_zero, zero_div, Real.cos_zero, sum_const, card_range, nsmul_eq_mul, mul_one, zpow_zero]
    ring
  · rw [if_neg hr, zero_sub]
    have hd := dirichlet (Real.pi * r / (g + 1)) g
    have e : ((g : ℝ) + 1 / 2) * (Real.pi * r / (g + 1)) = r * Real.pi - Real.pi * r / (g + 1) / 2 := by
      field_simp
      ring
    rw [e, Real.sin_sub, Real.sin_int_mul_pi, Real.cos_int_mul_pi, zero_mul, zero_sub] at hd
    have hs : Real.sin (Real.pi * r / (g + 1) / 2) ≠ 0 := by
      intro h0
      rcases lt_or_gt_of_ne hr with h | h
      · refine absurd h0 (Real.sin_neg_of_neg_of_neg_pi_lt ?_ ?_).ne
        · have : (r : ℝ) < 0 := by exact_mod_cast h
          have := mul_neg_of_pos_of_neg Real.pi_pos this
          have := div_neg_of_neg_of_pos this hg
          linarith
        · have : -(2 * ((g : ℝ) + 1)) < r := by exact_mod_cast h1
          rw [div_div, lt_div_iff₀ (by positivity)]
          nlinarith [Real.pi_pos]
      · refine absurd h0 (Real.sin_pos_of_pos_of_lt_pi ?_ ?_).ne'
        · have : (0 : ℝ) < r := by exact_mod_cast h
          have := Real.pi_pos
          positivity
        · have : (r : ℝ) < 2 * ((g : ℝ) + 1) := by exact_mod_cast h2
          rw [div_div, div_lt_iff₀ (by positivity)]
          nlinarith [Real.pi_pos]
    refine mul_left_cancel₀ hs ?_
    rw [hd]
    ring

/-- The symmetric sequences with an even length are interpolated by a trigonometric polynomial. Its value in the centre is the one,
that is computed by `dpss`. -/
theorem interpolation (g : Nat) (x : Nat → ℝ) (hs : ∀ n, n < 2 * (g + 1) → x (2 * (g + 1) - 1 - n) = x n) :
    ∃ c : Nat → ℝ, (∀ n, n < 2 * (g + 1) → cosineSeries c (2 * (g + 1)) n = x n) ∧
      cosineSeries c (2 * (g + 1)) ((((2 * (g + 1) : Nat) : ℝ) - 1) / 2) = (∑ n ∈ range (2 * (g + 1)),
        x n * (1 + 2 * ∑ k ∈ range (g + 1), Real.cos (((k + 1 : Nat) : ℝ) * dpssAngle (2 * (g + 1)) n))) / (2 * (g + 1) : Nat) := by
  have hg : (0 : ℝ) < (g : ℝ) + 1 := by positivity
  set M := 2 * (g + 1) with hM
  have hMr : (M : ℝ) = 2 * ((g : ℝ) + 1) := by rw [hM]; push_cast; ring
  have hM0 : (M : ℝ) ≠ 0 := by rw [hMr]; positivity
  set c : Nat → ℝ := fun k => (if k = 0 then 1 else 2) / (M : ℝ) * ∑ j ∈ range M, x j * Real.cos ((k : ℝ) * dpssAngle M j) with hc
  have hser : ∀ t : ℝ, cosineSeries c M t = (∑ j ∈ range M, x j * (1 + 2 * ∑ k ∈ range g,
      Real.cos (((k + 1 : Nat) : ℝ) * dpssAngle M j) *
        Real.cos (2 * Real.pi * ((k + 1 : Nat) : ℝ) * (t - ((M : ℝ) - 1) / 2) / M))) / M := by
    intro t
    unfold cosineSeries
    rw [show M / 2 = g + 1 by omega, sum_range_succ']
    rw [hc]
    dsimp only
    rw [if_pos rfl]
    simp only [Nat.cast_zero, zero_mul, mul_zero, zero_div, Real.cos_zero, mul_one, Nat.succ_ne_zero, if_false]
    simp only [mul_add, mul_one, sum_add_distrib, add_div]
    rw [add_comm, one_div_mul_eq_div]
    congr 1
    simp only [mul_sum, sum_mul]
    rw [sum_comm, Finset.sum_div]
    refine sum_congr rfl fun j _ => ?_
    rw [Finset.sum_div]
    refine sum_congr rfl fun k _ => ?_
    ring
  refine ⟨c, fun n hn => ?_, ?_⟩
  · rw [hser, div_eq_iff hM0]
    have hterm : ∀ j ∈ range M, x j * (1 + 2 * ∑ k ∈ range g, Real.cos (((k + 1 : Nat) : ℝ) * dpssAngle M j) *
        Real.cos (2 * Real.pi * ((k + 1 : Nat) : ℝ) * ((n : ℝ) - ((M : ℝ) - 1) / 2) / M)) =
        (if j = n then (M : ℝ) / 2 * x j else 0) + (if j = M - 1 - n then (M : ℝ) / 2 * x j else 0) := by
      intro j hj
      have hj' := mem_range.mp hj
      have k1 := kernel_eq g ((j : ℤ) - n) (by omega) (by omega)
      have k2 := kernel_eq g ((j : ℤ) + n + 1 - M) (by omega) (by omega)
      have hodd : (-1 : ℝ) ^ ((j : ℤ) + n + 1 - M) = -(-1 : ℝ) ^ ((j : ℤ) - n) := by
        rw [show (j : ℤ) + n + 1 - M = ((j : ℤ) - n) + (2 * ((n : ℤ) - g - 1) + 1) by rw [hM]; push_cast; ring,
          zpow_add₀ (by norm_num), zpow_add₀ (by norm_num), zpow_mul]
        norm_num
      rw [hodd] at k2
      have hprod : 1 + 2 * ∑ k ∈ range g, Real.cos (((k + 1 : Nat) : ℝ) * dpssAngle M j) *
          Real.cos (2 * Real.pi * ((k + 1 : Nat) : ℝ) * ((n : ℝ) - ((M : ℝ) - 1) / 2) / M) =
          ((1 + 2 * ∑ k ∈ range g, Real.cos (((k + 1 : Nat) : ℝ) * (Real.pi * (((j : ℤ) - n : ℤ) : ℝ) / (g + 1)))) +
            (1 + 2 * ∑ k ∈ range g, Real.cos (((k + 1 : Nat) : ℝ) * (Real.pi * (((j : ℤ) + n + 1 - M : ℤ) : ℝ) / (g + 1))))) / 2 := by
        have : ∀ k ∈ range g, Real.cos (((k + 1 : Nat) : ℝ) * dpssAngle M j) *
            Real.cos (2 * Real.pi * ((k + 1 : Nat) : ℝ) * ((n : ℝ) - ((M : ℝ) - 1) / 2) / M) =
            (Real.cos (((k + 1 : Nat) : ℝ) * (Real.pi * (((j : ℤ) - n : ℤ) : ℝ) / (g + 1))) +
              Real.cos (((k + 1 : Nat) : ℝ) * (Real.pi * (((j : ℤ) + n + 1 - M : ℤ) : ℝ) / (g + 1)))) / 2 := by
          intro k _
          have e1 : ((k + 1 : Nat) : ℝ) * (Real.pi * (((j : ℤ) - n : ℤ) : ℝ) / (g + 1)) =
              ((k + 1 : Nat) : ℝ) * dpssAngle M j - 2 * Real.pi * ((k + 1 : Nat) : ℝ) * ((n : ℝ) - ((M : ℝ) - 1) / 2) / M := by
            unfold dpssAngle
            rw [hMr]
            push_cast
            field_simp
            ring
          have e2 : ((k + 1 : Nat) : ℝ) * (Real.pi * (((j : ℤ) + n + 1 - M : ℤ) : ℝ) / (g + 1)) =
              ((k + 1 : Nat) : ℝ) * dpssAngle M j + 2 * Real.pi * ((k + 1 : Nat) : ℝ) * ((n : ℝ) - ((M : ℝ) - 1) / 2) / M := by
            unfold dpssAngle
            push_cast
            rw [hMr]
            field_simp
            ring
          rw [e1, e2, Real.cos_sub, Real.cos_add]
          ring
        rw [sum_congr rfl this, ← Finset.sum_div, sum_add_distrib]
        ring
      rw [hprod, k1, k2]
      have c1 : ((j : ℤ) - n = 0) ↔ j = n := by omega
      have c2 : ((j : ℤ) + n + 1 - M = 0) ↔ j = M - 1 - n := by omega
      simp only [c1, c2, ← hMr]
      split <;> split <;> ring
    rw [sum_congr rfl hterm, sum_add_distrib, sum_ite_eq' (range M) n, sum_ite_eq' (range M) (M - 1 - n),
      if_pos (mem_range.mpr hn), if_pos (mem_range.mpr (by omega)), hs n hn]
    ring
  · rw [hser]
    congr 1
    refine sum_congr rfl fun j hj => ?_
    congr 2
    rw [sum_range_succ]
    have hz : Real.cos (((g + 1 : Nat) : ℝ) * dpssAngle M j) = 0 := by
      have e : ((g + 1 : Nat) : ℝ) * dpssAngle M j = (((j : ℤ) - (g + 1) : ℤ) : ℝ) * Real.pi + Real.pi / 2 := by
        unfold dpssAngle
        rw [hMr]
        push_cast
        field_simp
        ring
      rw [e, Real.cos_add_pi_div_two, Real.sin_int_mul_pi, neg_zero]
    rw [hz, add_zero]
    congr 1
    refine sum_congr rfl fun k _ => ?_
    rw [sub_self, mul_zero, zero_div, Real.cos_zero, mul_one]

/-! ### The contract can be met -/

theorem triMul_congr (M : Nat) (d e u w : Nat → ℝ) (h : ∀ i, i < M → u i = w i) (i : Nat) (hi : i < M) :
    triMul M d e u i = triMul M d e w i := by
  unfold triMul
  rw [h i hi]
  congr 1
  · congr 1
    split
    · rfl
    · rw [h (i - 1) (by omega)]
  · split
    · rw [h (i + 1) (by omega)]
    · rfl

theorem exists_top (N : Nat) (d e : Nat → ℝ) : ∃ v, IsTop (N + 1) d e v := by
  set ext : (Fin (N + 1) → ℝ) → Nat → ℝ := fun x i => if h : i < N + 1 then x ⟨i, h⟩ else 0 with hext
  set K : Set (Fin (N + 1) → ℝ) := {x | ∑ i ∈ range (N + 1), ext x i ^ 2 = 1} with hK
  have hcont : ∀ i, Continuous fun x => ext x i := by
    intro i
    rw [hext]
    dsimp only
    by_cases h : i < N + 1
    · simp only [dif_pos h]
      exact continuous_apply _
    · simp only [dif_neg h]
      exact continuous_const
  have hf : Continuous fun x => ∑ i ∈ range (N + 1), ext x i * triMul (N + 1) d e (ext x) i := by
    simp only [tri_bilinear]
    fun_prop
  have hclosed : IsClosed K := by
    refine isClosed_eq ?_ continuous_const
    fun_prop
  have hbdd : Bornology.IsBounded K := by
    refine (Metric.isBounded_closedBall (x := (0 : Fin (N + 1) → ℝ)) (r := 1)).subset fun x hx => ?_
    rw [mem_closedBall_zero_iff, pi_norm_le_iff_of_nonneg zero_le_one]
    intro i
    have h1 : ext x i ^ 2 ≤ 1 := by
      have : ∑ i ∈ range (N + 1), ext x i ^ 2 = 1 := hx
      rw [← this]
      exact single_le_sum (f := fun i => ext x i ^ 2) (fun i _ => sq_nonneg _) (mem_range.mpr i.2)
    have h2 : ext x i = x i := by
      rw [hext]
      dsimp only
      rw [dif_pos i.2]
    rw [h2] at h1
    rw [Real.norm_eq_abs]
    exact (sq_le_one_iff_abs_le_one _).mp h1
  have hne : K.Nonempty := by
    refine ⟨fun i => if i = 0 then 1 else 0, ?_⟩
    show ∑ i ∈ range (N + 1), _ = (1 : ℝ)
    rw [sum_eq_single 0]
    · rw [hext]
      simp
    · intro i hi h0
      rw [hext]
      dsimp only
      rw [dif_pos (mem_range.mp hi), if_neg (by intro h; exact h0 (congrArg Fin.val h)), zero_pow two_ne_zero]
    · intro h
      exact absurd (mem_range.mpr (by omega)) h
  obtain ⟨x, hx, hmax⟩ := (Metric.isCompact_of_isClosed_isBounded hclosed hbdd).exists_isMaxOn hne hf.continuousOn
  set μ := ∑ i ∈ range (N + 1), ext x i * triMul (N + 1) d e (ext x) i with hμ
  have hx1 : ∑ i ∈ range (N + 1), ext x i ^ 2 = 1 := hx
  have hall : ∀ u : Nat → ℝ, ∑ i ∈ range (N + 1), u i * triMul (N + 1) d e u i ≤ μ * ∑ i ∈ range (N + 1), u i ^ 2 := by
    intro u
    set S := ∑ i ∈ range (N + 1), u i ^ 2 with hS
    have hS0 : 0 ≤ S := sum_nonneg fun i _ => sq_nonneg _
    by_cases h0 : S = 0
    · have hu : ∀ i ∈ range (N + 1), u i = 0 := fun i hi =>
        pow_eq_zero_iff two_ne_zero |>.mp ((sum_eq_zero_iff_of_nonneg fun i _ => sq_nonneg (u i)).mp h0 i hi)
      rw [h0, mul_zero]
      exact le_of_eq (sum_eq_zero fun i hi => by rw [hu i hi, zero_mul])
    · have hSp : 0 < S := lt_of_le_of_ne hS0 (Ne.symm h0)
      set y : Fin (N + 1) → ℝ := fun i => u i / Real.sqrt S with hy
      have hext' : ∀ i, i < N + 1 → ext y i = u i / Real.sqrt S := by
        intro i hi
        rw [hext]
        dsimp only
        rw [dif_pos hi]
      have hyK : y ∈ K := by
        show ∑ i ∈ range (N + 1), ext y i ^ 2 = 1
        rw [sum_congr rfl fun i hi => by rw [hext' i (mem_range.mp hi), div_pow, Real.sq_sqrt hS0], ← Finset.sum_div,
          ← hS, div_self h0]
      have hm : ∑ i ∈ range (N + 1), ext y i * triMul (N + 1) d e (ext y) i ≤ μ := hmax hyK
      have : ∑ i ∈ range (N + 1), ext y i * triMul (N + 1) d e (ext y) i =
          (∑ i ∈ range (N + 1), u i * triMul (N + 1) d e u i) / S := by
        rw [Finset.sum_div]
        refine sum_congr rfl fun i hi => ?_
        have hi' := mem_range.mp hi
        rw [triMul_congr (N + 1) d e (ext y) (fun i => u i / Real.sqrt S) hext' i hi', hext' i hi']
        have h2 : triMul (N + 1) d e (fun i => u i / Real.sqrt S) i = triMul (N + 1) d e u i / Real.sqrt S := by
          unfold triMul
          split <;> split <;> ring
        rw [h2, div_mul_div_comm, Real.mul_self_sqrt hS0]
      rw [this, div_le_iff₀ hSp] at hm
      exact hm
  refine ⟨ext x, hx1, μ, ?_, hall⟩
  exact tri_maximum N d e (ext x) μ hall (by rw [hx1, mul_one])

theorem exists_eigh : ∃ eigh : Eigh, ∀ M, 0 < M → Solves eigh M := by
  classical
  refine ⟨fun M d e => if h : 0 < M then Classical.choose (exists_top (M - 1) d e) else fun _ => 0, fun M hM d e => ?_⟩
  obtain ⟨N, rfl⟩ : ∃ N, M = N + 1 := ⟨M - 1, by omega⟩
  dsimp only
  rw [dif_pos hM]
  exact Classical.choose_spec (exists_top N d e)

/-! ### C114 -/

theorem dpss_ok (eigh : Eigh) (N : Nat) (NW : ℝ) (hN : 2 ≤ N) (h : Solves eigh (N + 1)) (h0 : 0 < NW)
    (h1 : NW < (N + 1 : Nat) / 2) :
    ∃ w : Nat → ℝ, dpss eigh (N + 1) NW = .ok w ∧ (∃ c : ℝ, 0 < c ∧ ∀ i, w i = c * dpssSequence eigh (N + 1) NW i) ∧
      ((N + 1) % 2 = 1 → w ((N + 1) / 2) = 1) ∧
      ((N + 1) % 2 = 0 → ∑ n ∈ range (N + 1), w n * (1 + 2 * ∑ k ∈ range ((N + 1) / 2),
        Real.cos (((k + 1 : Nat) : ℝ) * dpssAngle (N + 1) n)) = (N + 1 : Nat)) := by
  obtain ⟨hp, _, μ, hv, _⟩ := dpss_positive eigh N NW h
  set v := dpssSequence eigh (N + 1) NW with hvd
  have hc : 0 < v ((N + 1) / 2) := hp _ (by omega)
  have hmax : listMax ((List.range (N + 1)).map v) = v ((N + 1) / 2) := by
    refine listMax_eq _ _ (List.mem_map.mpr ⟨_, List.mem_range.mpr (by omega), rfl⟩) fun y hy => ?_
    obtain ⟨i, hi, rfl⟩ := List.mem_map.mp hy
    exact dpss_maximum N _ v μ hp hv i (List.mem_range.mp hi)
  unfold dpss
  rw [if_neg (by omega), if_neg (not_le.mpr h1), if_neg (not_le.mpr h0)]
  dsimp only
  rw [← hvd, hmax]
  by_cases heven : (N + 1) % 2 = 0
  · rw [if_pos heven]
    set w : Nat → ℝ := fun n => v n / v ((N + 1) / 2) with hw
    have hS : 0 < ∑ n ∈ range (N + 1), w n * (1 + 2 * ∑ k ∈ range ((N + 1) / 2),
        Real.cos (((k + 1 : Nat) : ℝ) * dpssAngle (N + 1) n)) := by
      have := correction_pos ((N + 1) / 2) (by omega) w
        (fun n hn => div_pos (hp n (by omega)) hc)
        (fun n hn => by
          rw [hw]
          dsimp only
          rw [show 2 * ((N + 1) / 2) - 1 - n = N - n by omega, dpss_palindrome N _ v μ hp hv n (by omega)])
        (fun n hn => by
          rw [hw]
          exact div_le_div_of_nonneg_right (dpss_unimodal N _ v μ hp hv n (by omega)) hc.le)
      rwa [show 2 * ((N + 1) / 2) = N + 1 by omega] at this
    set S := ∑ n ∈ range (N + 1), w n * (1 + 2 * ∑ k ∈ range ((N + 1) / 2),
        Real.cos (((k + 1 : Nat) : ℝ) * dpssAngle (N + 1) n)) with hSd
    rw [correction_eq (N + 1) (by omega), ← hSd]
    refine ⟨_, rfl, ⟨1 / v ((N + 1) / 2) * (((N + 1 : Nat) : ℝ) / S), by positivity, fun i => by ring⟩, ?_, ?_⟩
    · omega
    · intro _
      rw [sum_congr rfl fun n _ => mul_right_comm (w n) (((N + 1 : Nat) : ℝ) / S) _, ← sum_mul, ← hSd, mul_div_cancel₀ _ hS.ne']
  · rw [if_neg heven]
    refine ⟨_, rfl, ⟨1 / v ((N + 1) / 2), by positivity, fun i => by ring⟩, ?_, ?_⟩
    · intro _
      exact div_self hc.ne'
    · intro h
      exact absurd h heven

theorem functionLength_zero (L : Nat) (symmetric : Bool) (hL : 0 < L) :
    (functionLength 0 L symmetric).toNat = steps L symmetric + 1 := by
  unfold functionLength steps
  rw [if_pos rfl]
  cases symmetric
  · simp
  · simp
    omega

/-- the window and the sequence in `dpss`, of which it is a multiple -/
theorem window_ok {R : Type} (mem : Nat → Nat → ℝ) (eigh : Eigh) (beta : ℝ) (plateau : Indexing.Idx) (rate : R) (L : Nat)
    (symmetric : Bool) (hi : Indexing.index L plateau = some 0) (hL : 2 ≤ steps L symmetric)
    (he : Solves eigh (steps L symmetric + 1)) (hb0 : 0 < beta) (hb1 : beta / Real.pi < (steps L symmetric + 1 : Nat) / 2) :
    ∃ s : Signal ℝ R, slepianWindow mem eigh beta plateau rate L symmetric = some (.ok (s, 0)) ∧ s.rate = rate ∧ s.offset = 0 ∧
      s.labels = ["Slepian window"] ∧ s.channels.rows = 1 ∧ s.channels.cols = L ∧
      ∃ w : Nat → ℝ, (∀ i, i < L → s.channels.get 0 i = w i) ∧
        (∃ c : ℝ, 0 < c ∧ ∀ i, w i = c * dpssSequence eigh (steps L symmetric + 1) (beta / Real.pi) i) ∧
        ((steps L symmetric + 1) % 2 = 1 → w ((steps L symmetric + 1) / 2) = 1) ∧
        ((steps L symmetric + 1) % 2 = 0 → ∑ n ∈ range (steps L symmetric + 1), w n *
          (1 + 2 * ∑ k ∈ range ((steps L symmetric + 1) / 2),
            Real.cos (((k + 1 : Nat) : ℝ) * dpssAngle (steps L symmetric + 1) n)) = (steps L symmetric + 1 : Nat)) := by
  obtain ⟨w, w1, w2, w3, w4⟩ := dpss_ok eigh (steps L symmetric) (beta / Real.pi) hL he (div_pos hb0 Real.pi_pos) hb1
  obtain ⟨s, h1, h2, h3, h4, h5, h6, h7⟩ := new_ok mem (fun _ => w) "Slepian window" plateau rate L symmetric hi (by omega)
  refine ⟨s, ?_, h2, h3, h4, h5, h6, w, h7, w2, w3, w4⟩
  unfold slepianWindow
  rw [hi]
  have hL0 : 0 < L := by unfold steps at hL; split at hL <;> omega
  show (match slepian eigh beta (functionLength 0 L symmetric).toNat with
    | .error e => some (Except.error e)
    | .ok w => new mem (fun _ => w) "Slepian window" plateau rate L symmetric) = _
  rw [functionLength_zero L symmetric hL0]
  unfold slepian
  rw [if_neg (by omega), w1]
  exact h1

/-- C114: A Slepian window without a plateau has positive samples, that increase up to its centre. A symmetric one is a palindrome.
(Missing: The window can be created, even if beta is not less than the product of pi and half of its length.) -/
theorem C114_samples_partial {R : Type} (mem : Nat → Nat → ℝ) (eigh : Eigh) (beta : ℝ) (plateau : Indexing.Idx) (rate : R) (L : Nat)
    (symmetric : Bool) (hi : Indexing.index L plateau = some 0) (hL : 2 ≤ steps L symmetric)
    (he : Solves eigh (steps L symmetric + 1)) (hb0 : 0 < beta) (hb1 : beta / Real.pi < (steps L symmetric + 1 : Nat) / 2) :
    ∃ s : Signal ℝ R, slepianWindow mem eigh beta plateau rate L symmetric = some (.ok (s, 0)) ∧ s.rate = rate ∧ s.offset = 0 ∧
      s.labels = ["Slepian window"] ∧ s.channels.rows = 1 ∧ s.channels.cols = L ∧ (∀ i, i < L → 0 < s.channels.get 0 i) ∧
      (∀ i, 2 * (i + 1) ≤ steps L symmetric + 1 → s.channels.get 0 i ≤ s.channels.get 0 (i + 1)) ∧
      (symmetric = true → ∀ i, i < L → s.channels.get 0 (L - 1 - i) = s.channels.get 0 i) ∧
      (symmetric = false → ∀ i, i + 1 < L → s.channels.get 0 (L - 1 - i) = s.channels.get 0 (i + 1)) := by
  obtain ⟨s, h1, h2, h3, h4, h5, h6, w, h7, ⟨c, hc, h8⟩, _, _⟩ :=
    window_ok mem eigh beta plateau rate L symmetric hi hL he hb0 hb1
  obtain ⟨hp, _, μ, hv, _⟩ := dpss_positive eigh (steps L symmetric) (beta / Real.pi) he
  have hLs : L ≤ steps L symmetric + 1 ∧ steps L symmetric ≤ L := by unfold steps; split <;> omega
  have hpal := dpss_palindrome (steps L symmetric) _ _ μ hp hv
  refine ⟨s, h1, h2, h3, h4, h5, h6, ?_, ?_, ?_, ?_⟩
  · intro i hi
    rw [h7 i hi, h8]
    exact mul_pos hc (hp i (by omega))
  · intro i hi
    rw [h7 i (by omega), h7 (i + 1) (by omega), h8, h8]
    exact mul_le_mul_of_nonneg_left (dpss_unimodal _ _ _ μ hp hv i hi) hc.le
  · intro hs i hi
    have hst : steps L symmetric = L - 1 := by unfold steps; rw [if_pos hs]
    rw [h7 i hi, h7 _ (by omega), h8, h8, ← hpal i (by omega), hst]
  · intro hs i hi
    have hst : steps L symmetric = L := by unfold steps; rw [if_neg (by rw [hs]; decide)]
    rw [h7 (i + 1) hi, h7 _ (by omega), h8, h8, ← hpal (i + 1) (by omega), hst, show L - (i + 1) = L - 1 - i by omega]

/-- C114: The window is normalized: if there is a sample in its centre, this sample is one and all others do not exceed it.
Otherwise, this is the case for the value in the centre, when the sequence is interpolated with a trigonometric polynomial.
(Missing: The window can be created, even if beta is not less than the product of pi and half of its length.) -/
theorem C114_normalized_partial {R : Type} (mem : Nat → Nat → ℝ) (eigh : Eigh) (beta : ℝ) (plateau : Indexing.Idx) (rate : R)
    (L : Nat) (hi : Indexing.index L plateau = some 0) (hL : 3 ≤ L) (he : Solves eigh L) (hb0 : 0 < beta)
    (hb1 : beta / Real.pi < (L : ℝ) / 2) :
    ∃ s : Signal ℝ R, slepianWindow mem eigh beta plateau rate L true = some (.ok (s, 0)) ∧
      (L % 2 = 1 → s.channels.get 0 (L / 2) = 1 ∧ ∀ i, i < L → s.channels.get 0 i ≤ 1) ∧
      (L % 2 = 0 → ∃ c : Nat → ℝ, (∀ i, i < L → cosineSeries c L i = s.channels.get 0 i) ∧
        cosineSeries c L (((L : ℝ) - 1) / 2) = 1) := by
  obtain ⟨N, rfl⟩ : ∃ N, L = N + 1 := ⟨L - 1, by omega⟩
  obtain ⟨s, h1, _, _, _, _, h6, w, h7, ⟨c, hc, h8⟩, h9, h10⟩ :=
    window_ok mem eigh beta plateau rate (N + 1) true hi (by show 2 ≤ N + 1 - 1; omega) he hb0 hb1
  obtain ⟨hp, _, μ, hv, _⟩ := dpss_positive eigh N (beta / Real.pi) he
  rw [show steps (N + 1) true = N from rfl] at h8 h9 h10
  refine ⟨s, h1, ?_, ?_⟩
  · intro hodd
    have hm := h9 hodd
    refine ⟨(h7 _ (by omega)).trans hm, fun i hi => ?_⟩
    rw [h7 i hi, ← hm, h8, h8]
    exact mul_le_mul_of_nonneg_left (dpss_maximum N _ _ μ hp hv i hi) hc.le
  · intro heven
    obtain ⟨g, rfl⟩ : ∃ g, N = 2 * (g + 1) - 1 := ⟨(N + 1) / 2 - 1, by omega⟩
    have hM : 2 * (g + 1) - 1 + 1 = 2 * (g + 1) := by omega
    obtain ⟨c', c1, c2⟩ := interpolation g w (fun n hn => by
      rw [h8, h8, dpss_palindrome _ _ _ μ hp hv n (by omega)])
    have hS := h10 heven
    rw [hM] at hS ⊢
    rw [show 2 * (g + 1) / 2 = g + 1 by omega] at hS
    refine ⟨c', fun i hi => ?_, ?_⟩
    · rw [c1 i hi, h7 i (by omega)]
    · rw [c2, hS]
      exact div_self (by positivity)

/-- C114: The sequence does not depend on which of the normalized eigenvectors is returned by the solver. -/
theorem C114_unique (eigh eigh' : Eigh) (M : Nat) (hM : 0 < M) (h : Solves eigh M) (h' : Solves eigh' M) (NW : ℝ) (i : Nat)
    (hi : i < M) : dpssSequence eigh M NW i = dpssSequence eigh' M NW i := by
  obtain ⟨N, rfl⟩ : ∃ N, M = N + 1 := ⟨M - 1, by omega⟩
  obtain ⟨hp, h1, μ, hv, hm⟩ := dpss_positive eigh N NW h
  obtain ⟨hp', h1', μ', hv', hm'⟩ := dpss_positive eigh' N NW h'
  set v := dpssSequence eigh (N + 1) NW
  set v' := dpssSequence eigh' (N + 1) NW
  have e1 : ∑ i ∈ range (N + 1), v i * triMul (N + 1) (dpssDiagonal (N + 1) (NW / (N + 1 : Nat))) (dpssOffDiagonal (N + 1)) v i =
      μ := by
    rw [sum_congr rfl fun i hi => by rw [hv i (mem_range.mp hi), show v i * (μ * v i) = μ * v i ^ 2 by ring], ← mul_sum, h1, mul_one]
  have e2 : ∑ i ∈ range (N + 1), v' i * triMul (N + 1) (dpssDiagonal (N + 1) (NW / (N + 1 : Nat))) (dpssOffDiagonal (N + 1)) v' i =
      μ' := by
    rw [sum_congr rfl fun i hi => by rw [hv' i (mem_range.mp hi), show v' i * (μ' * v' i) = μ' * v' i ^ 2 by ring], ← mul_sum, h1',
      mul_one]
  have hμ : μ' = μ := by
    have a := hm v'
    have b := hm' v
    rw [e2, h1', mul_one] at a
    rw [e1, h1, mul_one] at b
    exact le_antisymm a b
  rw [hμ] at hv'
  have hu := tri_unique N _ _ v v' μ (fun i hi => off_pos N i hi) hv hv'
  have p0 := hp 0 (by omega)
  have p0' := hp' 0 (by omega)
  have hsq : v' 0 ^ 2 = v 0 ^ 2 := by
    have : v' 0 ^ 2 * ∑ i ∈ range (N + 1), v i ^ 2 = v 0 ^ 2 * ∑ i ∈ range (N + 1), v' i ^ 2 := by
      rw [mul_sum, mul_sum]
      exact sum_congr rfl fun i hi => by rw [← mul_pow, ← mul_pow, hu i (mem_range.mp hi)]
    rwa [h1, h1', mul_one, mul_one] at this
  have h00 : v' 0 = v 0 := by
    rw [← abs_of_pos p0, ← abs_of_pos p0']
    exact (sq_eq_sq_iff_abs_eq_abs _ _).mp hsq
  have := hu i hi
  rw [h00] at this
  exact mul_left_cancel₀ p0.ne' this

/-- C114: Windows with one or two samples are rectangular for every value of beta. -/
theorem C114_short (eigh : Eigh) (beta : ℝ) (L : Nat) (hL : L ≤ 2) : slepian eigh beta L = .ok fun _ => 1 := by
  unfold slepian
  rw [if_pos hL]
  rfl

/-- C114: All other windows without a plateau are refused, if beta is not positive or too large for the length. -/
theorem C114_refused {R : Type} (mem : Nat → Nat → ℝ) (eigh : Eigh) (beta : ℝ) (plateau : Indexing.Idx) (rate : R) (L : Nat)
    (symmetric : Bool) (hi : Indexing.index L plateau = some 0) (hL : 2 ≤ steps L symmetric)
    (hb : beta ≤ 0 ∨ ((steps L symmetric + 1 : Nat) : ℝ) / 2 ≤ beta / Real.pi) :
    slepianWindow mem eigh beta plateau rate L symmetric = some (.error .valueError) := by
  unfold slepianWindow
  rw [hi]
  have hL0 : 0 < L := by unfold steps at hL; split at hL <;> omega
  show (match slepian eigh beta (functionLength 0 L symmetric).toNat with
    | .error e => some (Except.error e)
    | .ok w => new mem (fun _ => w) "Slepian window" plateau rate L symmetric) = _
  rw [functionLength_zero L symmetric hL0]
  unfold slepian dpss
  rw [if_neg (by omega), if_neg (by omega)]
  by_cases h : beta / Real.pi ≥ ((steps L symmetric + 1 : Nat) : ℝ) / 2
  · rw [if_pos h]
    rfl
  · rw [if_neg h, if_pos]
    · rfl
    · rcases hb with hb | hb
      · exact div_nonpos_of_nonpos_of_nonneg hb Real.pi_pos.le
      · exact absurd hb h

/-- C114 is violated: With the default value of beta, a `ValueError` is raised for all symmetric windows with three to six samples,
although shorter and longer windows can be created. -/
theorem C114_created_violated : ∀ L : Nat, 3 ≤ L → L ≤ 6 → ∀ eigh : Eigh,
    slepianWindow (fun _ _ => 0) eigh 9.4248 (.int 0) (48000 : ℝ) L true = some (.error .valueError) := by
  intro L h3 h6 eigh
  refine C114_refused _ eigh _ _ _ L true ?_ (by show 2 ≤ L - 1; omega) (Or.inr ?_)
  · interval_cases L <;> decide
  · rw [show steps L true + 1 = L by show L - 1 + 1 = L; omega]
    have hpi := Real.pi_lt_d4
    have hL : (L : ℝ) ≤ 6 := by exact_mod_cast h6
    rw [div_le_div_iff₀ (by norm_num) Real.pi_pos]
    have := Real.pi_pos
    nlinarith

/-- The hypotheses are met by the default value of beta for windows with seven samples and the solver exists. -/
example : ∃ eigh : Eigh, Solves eigh (steps 7 true + 1) ∧ Solves eigh (steps 8 true + 1) ∧ Indexing.index 7 (.int 0) = some 0 ∧
    2 ≤ steps 7 true ∧ (0 : ℝ) < 9.4248 ∧ (9.4248 : ℝ) / Real.pi < (steps 7 true + 1 : Nat) / 2 := by
  obtain ⟨eigh, h⟩ := exists_eigh
  refine ⟨eigh, h _ (by omega), h _ (by omega), by decide, by decide, by norm_num, ?_⟩
  rw [div_lt_div_iff₀ Real.pi_pos (by norm_num), show ((steps 7 true + 1 : Nat) : ℝ) = 7 by norm_num [steps]]
  linarith [Real.pi_gt_three]

end Windows
end Verif
