import Verif.WindowsShapeProps
import Verif.FadeProps

/-
C118: the windows, except for the flat top windows and the Dolph-Chebyshev window, rise up to their centre and fall after
it, and so do the fades, that are made of them.
-/

namespace Verif
namespace Windows

open Indexing Finset

variable {R : Type}

/-! ### Specification -/

/-- the function does not fall up to the centre of the window and does not rise after it -/
def Unimodal (function : Nat → Nat → ℝ) : Prop := ∀ M i j, i ≤ j → j < M →
  (2 * j ≤ M - 1 → function M i ≤ function M j) ∧ (M - 1 ≤ 2 * i → function M j ≤ function M i)

/-- the values of the function are between zero and one -/
def InUnit (function : Nat → Nat → ℝ) : Prop := ∀ M i, i < M → 0 ≤ function M i ∧ function M i ≤ 1

/-- the functions of the windows, for which the property is proved: numpy's rectangular, Bartlett, Hann, Hamming, Blackman
and Kaiser windows and scipy's Bartlett-Hann, Blackman-Harris, Bohman, exponential, Gaussian, Nuttall and Parzen windows -/
def Bell (function : Nat → Nat → ℝ) : Prop :=
  function = rectangular ∨ function = bartlett ∨ function = hanning ∨ function = hamming ∨ function = blackman ∨
  (∃ (i0 : ℝ → ℝ) (beta : ℝ), 0 ≤ beta ∧ (∀ x y, 0 ≤ x → x ≤ y → i0 x ≤ i0 y) ∧ 0 < i0 0 ∧ function = kaiser i0 beta) ∨
  function = barthann ∨ function = blackmanHarris ∨ function = bohman ∨
  (∃ decay : ℝ, 0 ≤ decay ∧ function = exponential decay) ∨ (∃ sd : ℝ, sd ≠ 0 ∧ function = gaussian sd) ∨
  (∃ f : Nuttall, function = f.function) ∨ function = parzen

/-! ### Shapes -/

theorem shape_bounds (N i : Nat) (hN : 0 < N) (hi : i ≤ N) : |(i : ℝ) / N - 1 / 2| ≤ 1 / 2 := by
  have hN' : (0 : ℝ) < N := by exact_mod_cast hN
  have h1 : (i : ℝ) / N ≤ 1 := by
    rw [div_le_one hN']
    exact_mod_cast hi
  have h0 : 0 ≤ (i : ℝ) / N := by positivity
  rw [abs_le]
  constructor <;> linarith

/-- windows, whose shape falls with the distance from the centre -/
theorem unimodal_of_shape {function : Nat → Nat → ℝ} {w : ℝ → ℝ} (h : HasShape function w)
    (hw : ∀ s t, |s| ≤ |t| → |t| ≤ 1 / 2 → w t ≤ w s) : Unimodal function := by
  intro M i j hij hj
  by_cases h1 : M = 1
  · obtain rfl : i = j := by omega
    exact ⟨fun _ => le_rfl, fun _ => le_rfl⟩
  obtain ⟨N, rfl⟩ : ∃ N, M = N + 1 := ⟨M - 1, by omega⟩
  have hN : 0 < N := by omega
  have hN' : (0 : ℝ) < N := by exact_mod_cast hN
  rw [h N i hN (by omega), h N j hN (by omega)]
  have e : (i : ℝ) / N ≤ j / N := by
    gcongr
  constructor
  · intro h2
    refine hw _ _ ?_ (shape_bounds N i hN (by omega))
    have : (j : ℝ) / N ≤ 1 / 2 := by
      rw [div_le_iff₀ hN']
      have : ((2 * j : Nat) : ℝ) ≤ N := by exact_mod_cast (by omega : 2 * j ≤ N)
      push_cast at this
      linarith
    rw [abs_of_nonpos (by linarith), abs_of_nonpos (by linarith)]
    linarith
  · intro h2
    refine hw _ _ ?_ (shape_bounds N j hN (by omega))
    have : 1 / 2 ≤ (i : ℝ) / N := by
      rw [le_div_iff₀ hN']
      have : ((N : Nat) : ℝ) ≤ (2 * i : Nat) := by exact_mod_cast (by omega : N ≤ 2 * i)
      push_cast at this
      linarith
    rw [abs_of_nonneg (by linarith), abs_of_nonneg (by linarith)]
    linarith

theorem inUnit_of_shape {function : Nat → Nat → ℝ} {w : ℝ → ℝ} (h : HasShape function w)
    (hw : ∀ s t, |s| ≤ |t| → |t| ≤ 1 / 2 → w t ≤ w s) (h0 : w 0 ≤ 1) (h1 : 0 ≤ w (1 / 2))
    (hone : ∀ i, i < 1 → 0 ≤ function 1 i ∧ function 1 i ≤ 1) : InUnit function := by
  intro M i hi
  by_cases hM : M = 1
  · subst hM
    exact hone i hi
  obtain ⟨N, rfl⟩ : ∃ N, M = N + 1 := ⟨M - 1, by omega⟩
  have hN : 0 < N := by omega
  rw [h N i hN (by omega)]
  have b := shape_bounds N i hN (by omega)
  refine ⟨h1.trans (hw _ _ ?_ ?_), (hw 0 _ ?_ b).trans h0⟩
  · rwa [abs_of_nonneg (show (0 : ℝ) ≤ 1 / 2 by norm_num)]
  · rw [abs_of_nonneg (show (0 : ℝ) ≤ 1 / 2 by norm_num)]
  · rw [abs_zero]
    exact abs_nonneg _

theorem cos_decreasing (s t : ℝ) (h : |s| ≤ |t|) (h2 : |t| ≤ 1 / 2) :
    Real.cos (2 * Real.pi * t) ≤ Real.cos (2 * Real.pi * s) := by
  have e : ∀ x : ℝ, |2 * Real.pi * x| = 2 * Real.pi * |x| := by
    intro x
    rw [abs_mul, abs_of_pos (show 0 < 2 * Real.pi by positivity)]
  rw [← Real.cos_abs (2 * Real.pi * t), ← Real.cos_abs (2 * Real.pi * s), e, e]
  have := Real.pi_pos
  refine Real.cos_le_cos_of_nonneg_of_le_pi (by positivity) ?_ (by gcongr)
  nlinarith

/-- sums of two cosines -/
theorem cosineSum_two (a b : ℚ) (t : ℝ) : cosineSum [a, b] t = a + b * Real.cos (2 * Real.pi * t) := by
  unfold cosineSum
  simp [Finset.sum_range_succ]

theorem cosineSum_three (a b c : ℚ) (t : ℝ) : cosineSum [a, b, c] t =
    a + b * Real.cos (2 * Real.pi * t) + c * (2 * Real.cos (2 * Real.pi * t) ^ 2 - 1) := by
  unfold cosineSum
  rw [← Real.cos_two_mul]
  simp [Finset.sum_range_succ]
  left
  congr 1
  ring

theorem cosineSum_four (a b c d : ℚ) (t : ℝ) : cosineSum [a, b, c, d] t =
    a + b * Real.cos (2 * Real.pi * t) + c * (2 * Real.cos (2 * Real.pi * t) ^ 2 - 1)
      + d * (4 * Real.cos (2 * Real.pi * t) ^ 3 - 3 * Real.cos (2 * Real.pi * t)) := by
  unfold cosineSum
  rw [← Real.cos_two_mul, ← Real.cos_three_mul]
  simp [Finset.sum_range_succ]
  rw [show 2 * Real.pi * 2 * t = 2 * (2 * Real.pi * t) by ring, show 2 * Real.pi * 3 * t = 3 * (2 * Real.pi * t) by ring]

/-- the conditions for the coefficients, with which a sum of cosines falls with the distance from the centre -/
theorem cosineSum_falls (a b c d : ℚ) (hd : 0 ≤ d) (h2 : 24 * d ≤ 4 * c)
    (h3 : 0 ≤ b - 3 * d - 4 * c + 12 * d) (s t : ℝ) (h : |s| ≤ |t|) (ht : |t| ≤ 1 / 2) :
    cosineSum [a, b, c, d] t ≤ cosineSum [a, b, c, d] s := by
  rw [cosineSum_four, cosineSum_four]
  have hc := cos_decreasing s t h ht
  have l1 := Real.neg_one_le_cos (2 * Real.pi * t)
  generalize Real.cos (2 * Real.pi * t) = x at *
  generalize Real.cos (2 * Real.pi * s) = y at *
  have hd' : (0 : ℝ) ≤ d := by exact_mod_cast hd
  have h2' : (0 : ℝ) ≤ 4 * c - 24 * d := by
    have : (24 : ℝ) * d ≤ 4 * c := by exact_mod_cast h2
    linarith
  have h3' : (0 : ℝ) ≤ b - 3 * d - 4 * c + 12 * d := by exact_mod_cast h3
  obtain ⟨u, rfl⟩ : ∃ u, x = u - 1 := ⟨x + 1, by ring⟩
  obtain ⟨v, rfl⟩ : ∃ v, y = v + u - 1 := ⟨y - u + 1, by ring⟩
  have hu : 0 ≤ u := by linarith
  have hv : 0 ≤ v := by linarith
  rw [← sub_nonneg]
  have e : (a + b * (v + u - 1) + c * (2 * (v + u - 1) ^ 2 - 1) + d * (4 * (v + u - 1) ^ 3 - 3 * (v + u - 1)) : ℝ)
      - (a + b * (u - 1) + c * (2 * (u - 1) ^ 2 - 1) + d * (4 * (u - 1) ^ 3 - 3 * (u - 1)))
      = (b - 3 * d - 4 * c + 12 * d) * v + (4 * c - 24 * d) * (v * (2 * u + v) / 2)
        + d * (4 * (v * (3 * u ^ 2 + 3 * u * v + v ^ 2))) := by
    ring
  rw [e]
  positivity

theorem cosineSum_pad_two (a b : ℚ) (t : ℝ) : cosineSum [a, b] t = cosineSum [a, b, 0, 0] t := by
  rw [cosineSum_two, cosineSum_four]
  push_cast
  ring

theorem cosineSum_pad_three (a b c : ℚ) (t : ℝ) : cosineSum [a, b, c] t = cosineSum [a, b, c, 0] t := by
  rw [cosineSum_three, cosineSum_four]
  push_cast
  ring

theorem cosineSum_centre (a b c d : ℚ) : cosineSum [a, b, c, d] 0 = ((a + b + c + d : ℚ) : ℝ) := by
  rw [cosineSum_four]
  simp
  ring

theorem cosineSum_end (a b c d : ℚ) : cosineSum [a, b, c, d] (1 / 2) = ((a - b + c - d : ℚ) : ℝ) := by
  rw [cosineSum_four, show 2 * Real.pi * (1 / 2) = Real.pi by ring, Real.cos_pi]
  push_cast
  ring

/-- window functions, that are sums of cosines -/
theorem cosineSum_bell {function : Nat → Nat → ℝ} (a b c d : ℚ) (h : HasShape function (cosineSum [a, b, c, d]))
    (hone : ∀ i, i < 1 → 0 ≤ function 1 i ∧ function 1 i ≤ 1)
    (hc : 0 ≤ d ∧ 24 * d ≤ 4 * c ∧ 0 ≤ b - 3 * d - 4 * c + 12 * d ∧ a + b + c + d ≤ 1 ∧ 0 ≤ a - b + c - d) :
    Unimodal function ∧ InUnit function := by
  obtain ⟨c1, c2, c3, c4, c5⟩ := hc
  have f := cosineSum_falls a b c d c1 c2 c3
  refine ⟨unimodal_of_shape h f, inUnit_of_shape h f ?_ ?_ hone⟩
  · rw [cosineSum_centre]
    exact_mod_cast c4
  · rw [cosineSum_end]
    exact_mod_cast c5

/-! ### The Parzen window -/

/-- the Parzen window at the distance `x` from its centre -/
noncomputable def parzenAt (m x : ℝ) : ℝ :=
  if x ≤ (m - 1) / 4 then 1 - 6 * (x / (m / 2)) ^ 2 + 6 * (x / (m / 2)) ^ 3 else 2 * (1 - x / (m / 2)) ^ 3

theorem parzen_eq (M i : Nat) (hM : 1 < M) : (parzen M i : ℝ) = parzenAt M |(i : ℝ) - ((M : ℝ) - 1) / 2| := by
  unfold parzen parzenAt
  rw [if_neg (by omega)]

theorem parzenAt_falls (m x y : ℝ) (hx : 0 ≤ x) (hxy : x + 1 ≤ y) (hy : y ≤ (m - 1) / 2) :
    parzenAt m y ≤ parzenAt m x := by
  have hm : 3 ≤ m := by linarith
  have hm0 : 0 < m := by linarith
  obtain ⟨a, rfl⟩ : ∃ a, x = a * (m / 2) := ⟨x / (m / 2), by field_simp⟩
  obtain ⟨b, rfl⟩ : ∃ b, y = b * (m / 2) := ⟨y / (m / 2), by field_simp⟩
  have ha : 0 ≤ a := by
    by_contra hc
    have : a * (m / 2) < 0 := mul_neg_of_neg_of_pos (not_le.1 hc) (by linarith)
    linarith
  have hb : b ≤ 1 := by
    by_contra hc
    have : 1 * (m / 2) < b * (m / 2) := by
      have := not_le.1 hc
      gcongr
    linarith
  have hab : a ≤ b := by
    by_contra hc
    have : b * (m / 2) ≤ a * (m / 2) := by
      have := (not_le.1 hc).le
      gcongr
    linarith
  unfold parzenAt
  rw [mul_div_cancel_right₀ a (by positivity : m / 2 ≠ 0), mul_div_cancel_right₀ b (by positivity : m / 2 ≠ 0)]
  by_cases h2 : b * (m / 2) ≤ (m - 1) / 4
  · rw [if_pos h2, if_pos (by linarith)]
    have hb2 : b ≤ 1 / 2 := by
      by_contra hc
      have : 1 / 2 * (m / 2) < b * (m / 2) := by
        have := not_le.1 hc
        gcongr
      linarith
    have k4 : 0 ≤ b - a := by linarith
    have k6 : 0 ≤ (b - a) * (a * (1 / 2 - a) + b * (1 / 2 - b) + a * (1 / 2 - b)) := by
      have : 0 ≤ 1 / 2 - a := by linarith
      have : 0 ≤ 1 / 2 - b := by linarith
      have k5 : 0 ≤ b := by linarith
      positivity
    have k7 : 0 ≤ (b - a) * b := mul_nonneg k4 (by linarith)
    nlinarith
  · rw [if_neg h2]
    by_cases h1 : a * (m / 2) ≤ (m - 1) / 4
    · rw [if_pos h1]
      set u := 1 - 2 * a with hu
      set v := 1 - 2 * b with hv
      have e1 : 1 - 6 * a ^ 2 + 6 * a ^ 3 = ((1 + u) ^ 3 - 4 * u ^ 3) / 4 := by
        rw [hu]
        ring
      have e2 : 2 * (1 - b) ^ 3 = (1 + v) ^ 3 / 4 := by
        rw [hv]
        ring
      rw [e1, e2]
      have hu0 : 0 ≤ u := by
        by_contra hc
        have : 1 / 2 * (m / 2) < a * (m / 2) := by
          have : 1 / 2 < a := by
            rw [hu] at hc
            linarith
          gcongr
        linarith
      have hu1 : u ≤ 1 := by linarith
      have hum : 1 ≤ u * m := by
        rw [hu]
        linarith
      have hvm : v * m ≤ 1 := by
        rw [hv]
        linarith
      have huv : v * m + 4 ≤ u * m := by
        rw [hu, hv]
        linarith
      have hv1 : -1 ≤ v := by
        rw [hv]
        linarith
      have k : 0 ≤ u ^ 2 * (1 - u) := mul_nonneg (sq_nonneg u) (by linarith)
      by_cases hv0 : v ≤ 0
      · have : (1 + v) ^ 3 ≤ 1 := pow_le_one₀ (by linarith) (by linarith)
        nlinarith
      · have hv0 : 0 < v := not_le.1 hv0
        have hv3 : v ≤ 1 := by nlinarith
        have h5 : 5 * v ≤ u := by
          by_contra hc
          have : u * m < 5 * v * m := by
            have := not_le.1 hc
            gcongr
          linarith
        have p2 : v ^ 2 ≤ v := by nlinarith
        have p3 : v ^ 3 ≤ v := by nlinarith
        nlinarith
    · rw [if_neg h1]
      have : 0 ≤ 1 - b := by linarith
      gcongr

theorem parzenAt_range (m x : ℝ) (hm : 2 ≤ m) (hx : 0 ≤ x) (hy : x ≤ (m - 1) / 2) :
    0 ≤ parzenAt m x ∧ parzenAt m x ≤ 1 := by
  have hm0 : 0 < m := by linarith
  obtain ⟨a, rfl⟩ : ∃ a, x = a * (m / 2) := ⟨x / (m / 2), by field_simp⟩
  have ha : 0 ≤ a := by
    by_contra hc
    have : a * (m / 2) < 0 := mul_neg_of_neg_of_pos (not_le.1 hc) (by linarith)
    linarith
  have hb : a ≤ 1 := by
    by_contra hc
    have : 1 * (m / 2) < a * (m / 2) := by
      have := not_le.1 hc
      gcongr
    linarith
  unfold parzenAt
  rw [mul_div_cancel_right₀ a (by positivity : m / 2 ≠ 0)]
  by_cases h1 : a * (m / 2) ≤ (m - 1) / 4
  · rw [if_pos h1]
    have hb2 : a ≤ 1 / 2 := by
      by_contra hc
      have : 1 / 2 * (m / 2) < a * (m / 2) := by
        have := not_le.1 hc
        gcongr
      linarith
    constructor <;> nlinarith [mul_nonneg (sq_nonneg a) (by linarith : 0 ≤ 1 - a), mul_nonneg ha ha,
      mul_nonneg (mul_nonneg ha ha) ha]
  · rw [if_neg h1]
    have hq : 1 / 4 ≤ a := by
      by_contra hc
      have : a * (m / 2) < 1 / 4 * (m / 2) := by
        have := not_le.1 hc
        gcongr
      linarith
    have h3 : (1 - a) ^ 3 ≤ (3 / 4) ^ 3 := by
      have : 0 ≤ 1 - a := by linarith
      gcongr
      linarith
    have h4 : 0 ≤ (1 - a) ^ 3 := pow_nonneg (by linarith) 3
    constructor <;> linarith

theorem parzen_bell : Unimodal parzen ∧ InUnit parzen := by
  constructor
  · intro M i j hij hj
    by_cases h : i = j
    · subst h
      exact ⟨fun _ => le_rfl, fun _ => le_rfl⟩
    have hM : 1 < M := by omega
    have h1 : (i : ℝ) + 1 ≤ j := by exact_mod_cast (by omega : i + 1 ≤ j)
    have h2 : (j : ℝ) + 1 ≤ M := by exact_mod_cast hj
    have h0 : (0 : ℝ) ≤ i := by positivity
    rw [parzen_eq M i hM, parzen_eq M j hM]
    constructor
    · intro hc
      have hc : 2 * (j : ℝ) + 1 ≤ M := by exact_mod_cast (by omega : 2 * j + 1 ≤ M)
      rw [abs_of_nonpos (by linarith), abs_of_nonpos (by linarith)]
      apply parzenAt_falls <;> linarith
    · intro hc
      have hc : (M : ℝ) ≤ 2 * i + 1 := by exact_mod_cast (by omega : M ≤ 2 * i + 1)
      rw [abs_of_nonneg (by linarith), abs_of_nonneg (by linarith)]
      apply parzenAt_falls <;> linarith
  · intro M i hi
    by_cases h : M = 1
    · subst h
      unfold parzen
      norm_num
    have hM : 1 < M := by omega
    have h2 : (i : ℝ) + 1 ≤ M := by exact_mod_cast hi
    have h0 : (0 : ℝ) ≤ i := by positivity
    rw [parzen_eq M i hM]
    refine parzenAt_range _ _ (by exact_mod_cast hM) (abs_nonneg _) ?_
    rw [abs_le]
    constructor <;> linarith

/-! ### The other windows -/

theorem bartlett_bell : Unimodal bartlett ∧ InUnit bartlett := by
  have f : ∀ s t : ℝ, |s| ≤ |t| → |t| ≤ 1 / 2 → 1 - 2 * |t| ≤ 1 - 2 * |s| := by
    intro s t h _
    linarith
  refine ⟨unimodal_of_shape shape_bartlett f, inUnit_of_shape shape_bartlett f ?_ ?_ ?_⟩
  · simp
  · norm_num
  · intro i _
    unfold bartlett
    norm_num

theorem barthann_bell : Unimodal barthann ∧ InUnit barthann := by
  have f : ∀ s t : ℝ, |s| ≤ |t| → |t| ≤ 1 / 2 → 62 / 100 - 48 / 100 * |t| + 38 / 100 * Real.cos (2 * Real.pi * |t|) ≤
      62 / 100 - 48 / 100 * |s| + 38 / 100 * Real.cos (2 * Real.pi * |s|) := by
    intro s t h h2
    have := cos_decreasing |s| |t| (by simpa using h) (by simpa using h2)
    linarith
  exact ⟨unimodal_of_shape shape_barthann f, C79_bartlett_hann_range⟩

theorem kaiser_bell (i0 : ℝ → ℝ) (beta : ℝ) (hb : 0 ≤ beta) (hm : ∀ x y, 0 ≤ x → x ≤ y → i0 x ≤ i0 y) (h0 : 0 < i0 0) :
    Unimodal (kaiser i0 beta) ∧ InUnit (kaiser i0 beta) := by
  have hp : 0 < i0 beta := h0.trans_le (hm 0 beta le_rfl hb)
  have f : ∀ s t : ℝ, |s| ≤ |t| → |t| ≤ 1 / 2 →
      i0 (beta * Real.sqrt (1 - (2 * t) ^ 2)) / i0 beta ≤ i0 (beta * Real.sqrt (1 - (2 * s) ^ 2)) / i0 beta := by
    intro s t h _
    have : s ^ 2 ≤ t ^ 2 := sq_le_sq.2 h
    apply div_le_div_of_nonneg_right _ hp.le
    apply hm _ _ (by positivity)
    apply mul_le_mul_of_nonneg_left _ hb
    apply Real.sqrt_le_sqrt
    nlinarith
  refine ⟨unimodal_of_shape (shape_kaiser i0 beta) f, inUnit_of_shape (shape_kaiser i0 beta) f ?_ ?_ ?_⟩
  · simp [div_self hp.ne']
  · norm_num
    positivity
  · intro i _
    unfold kaiser
    norm_num

theorem exponential_bell (decay : ℝ) (hd : 0 ≤ decay) : Unimodal (exponential decay) ∧ InUnit (exponential decay) := by
  have f : ∀ s t : ℝ, |s| ≤ |t| → |t| ≤ 1 / 2 →
      (10 : ℝ) ^ (-(decay / 20) * |2 * t|) ≤ (10 : ℝ) ^ (-(decay / 20) * |2 * s|) := by
    intro s t h _
    apply Real.rpow_le_rpow_of_exponent_le (by norm_num)
    rw [abs_mul, abs_mul, abs_of_pos (show (0 : ℝ) < 2 by norm_num)]
    nlinarith
  refine ⟨unimodal_of_shape (shape_exponential decay) f, inUnit_of_shape (shape_exponential decay) f ?_ ?_ ?_⟩
  · simp
  · positivity
  · intro i _
    unfold exponential
    norm_num

theorem gaussian_bell (sd : ℝ) (hs : sd ≠ 0) : Unimodal (gaussian sd) ∧ InUnit (gaussian sd) := by
  have f : ∀ s t : ℝ, |s| ≤ |t| → |t| ≤ 1 / 2 →
      Real.exp (-(1 / 2) * (2 * t / sd) ^ 2) ≤ Real.exp (-(1 / 2) * (2 * s / sd) ^ 2) := by
    intro s t h _
    have : s ^ 2 ≤ t ^ 2 := sq_le_sq.2 h
    apply Real.exp_le_exp.2
    rw [div_pow, div_pow, mul_pow, mul_pow]
    have : 2 ^ 2 * s ^ 2 / sd ^ 2 ≤ 2 ^ 2 * t ^ 2 / sd ^ 2 := by gcongr
    linarith
  refine ⟨unimodal_of_shape (shape_gaussian sd hs) f, inUnit_of_shape (shape_gaussian sd hs) f ?_ ?_ ?_⟩
  · simp
  · positivity
  · intro i _
    unfold gaussian scipyGaussian
    norm_num

/-- the Bohman window as a function of the distance from the centre -/
noncomputable def bohmanAt (x : ℝ) : ℝ := (1 - x) * Real.cos (Real.pi * x) + 1 / Real.pi * Real.sin (Real.pi * x)

theorem bohmanAt_hasDerivAt (x : ℝ) : HasDerivAt bohmanAt (-(Real.pi * (1 - x) * Real.sin (Real.pi * x))) x := by
  have h1 : HasDerivAt (fun x : ℝ => Real.pi * x) Real.pi x := by
    simpa using (hasDerivAt_id x).const_mul Real.pi
  have h2 : HasDerivAt (fun x : ℝ => 1 - x) (-1) x := by
    simpa using (hasDerivAt_id x).const_sub 1
  have := Real.pi_pos
  exact ((h2.mul h1.cos).add (h1.sin.const_mul (1 / Real.pi))).congr_deriv (by field_simp; ring)

theorem bohmanAt_falls (x y : ℝ) (hx : 0 ≤ x) (hxy : x ≤ y) (hy : y ≤ 1) : bohmanAt y ≤ bohmanAt x := by
  have h : AntitoneOn bohmanAt (Set.Icc 0 1) := by
    apply antitoneOn_of_deriv_nonpos (convex_Icc 0 1)
    · exact fun x _ => (bohmanAt_hasDerivAt x).continuousAt.continuousWithinAt
    · exact fun x _ => (bohmanAt_hasDerivAt x).differentiableAt.differentiableWithinAt
    · intro x hx
      rw [interior_Icc] at hx
      rw [(bohmanAt_hasDerivAt x).deriv]
      have h1 : 0 < Real.sin (Real.pi * x) := by
        apply Real.sin_pos_of_pos_of_lt_pi
        · exact mul_pos Real.pi_pos hx.1
        · have := Real.pi_pos
          have := hx.2
          nlinarith
      have h2 : 0 < 1 - x := by linarith [hx.2]
      have := Real.pi_pos
      have : 0 < Real.pi * (1 - x) * Real.sin (Real.pi * x) := by positivity
      linarith
  exact h ⟨hx, hxy.trans hy⟩ ⟨hx.trans hxy, hy⟩ hxy

theorem bohman_bell : Unimodal bohman ∧ InUnit bohman := by
  have f : ∀ s t : ℝ, |s| ≤ |t| → |t| ≤ 1 / 2 → bohmanAt |2 * t| ≤ bohmanAt |2 * s| := by
    intro s t h h2
    rw [abs_mul, abs_mul, abs_of_pos (show (0 : ℝ) < 2 by norm_num)]
    exact bohmanAt_falls _ _ (by positivity) (by linarith) (by linarith)
  refine ⟨unimodal_of_shape shape_bohman f, inUnit_of_shape shape_bohman f ?_ ?_ ?_⟩
  · simp
  · norm_num
  · intro i _
    unfold bohman
    norm_num

/-! ### C118 -/

/-- C118: The functions of the windows rise up to their centre, fall after it and are between zero and one. -/
theorem C118_functions (function : Nat → Nat → ℝ) (h : Bell function) : Unimodal function ∧ InUnit function := by
  rcases h with rfl | rfl | rfl | rfl | rfl | ⟨i0, beta, hb, hm, h0, rfl⟩ | rfl | rfl | rfl | ⟨d, hd, rfl⟩ | ⟨sd, hs, rfl⟩ |
    ⟨f, rfl⟩ | rfl
  · exact ⟨fun _ _ _ _ _ => ⟨fun _ => le_rfl, fun _ => le_rfl⟩, fun _ _ _ => ⟨zero_le_one, le_rfl⟩⟩
  · exact bartlett_bell
  · refine cosineSum_bell (1 / 2) (1 / 2) 0 0 ?_ ?_ (by norm_num)
    · rw [← funext (cosineSum_pad_two _ _)]
      exact shape_hanning
    · intro i _
      unfold hanning
      norm_num
  · refine cosineSum_bell (54 / 100) (46 / 100) 0 0 ?_ ?_ (by norm_num)
    · rw [← funext (cosineSum_pad_two _ _)]
      exact shape_hamming
    · intro i _
      unfold hamming
      norm_num
  · refine cosineSum_bell (42 / 100) (1 / 2) (8 / 100) 0 ?_ ?_ (by norm_num)
    · rw [← funext (cosineSum_pad_three _ _ _)]
      exact shape_blackman
    · intro i _
      unfold blackman
      norm_num
  · exact kaiser_bell i0 beta hb hm h0
  · exact barthann_bell
  · refine cosineSum_bell _ _ _ _ shape_blackmanHarris ?_ (by norm_num)
    intro i _
    unfold blackmanHarris generalCosine
    norm_num
  · exact bohman_bell
  · exact exponential_bell d hd
  · exact gaussian_bell sd hs
  · have hone : ∀ i, i < 1 → 0 ≤ f.function 1 i ∧ f.function 1 i ≤ 1 := by
      intro i _
      unfold Nuttall.function generalCosine
      norm_num
    have hs := shape_nuttall f
    cases f
    · refine cosineSum_bell 0.375 0.5 0.125 0 ?_ hone (by norm_num)
      rw [← funext (cosineSum_pad_three _ _ _)]
      exact hs
    · refine cosineSum_bell 0.40897 0.5 0.09103 0 ?_ hone (by norm_num)
      rw [← funext (cosineSum_pad_three _ _ _)]
      exact hs
    · refine cosineSum_bell 0.4243801 0.4973406 0.0782793 0 ?_ hone (by norm_num)
      rw [← funext (cosineSum_pad_three _ _ _)]
      exact hs
    · exact cosineSum_bell _ _ _ _ hs hone (by norm_num)
    · exact cosineSum_bell _ _ _ _ hs hone (by norm_num)
    · exact cosineSum_bell _ _ _ _ hs hone (by norm_num)
    · exact cosineSum_bell _ _ _ _ hs hone (by norm_num)
  · exact parzen_bell

/-- C118: The samples of a window rise up to its centre, fall after it and are between zero and one, with and without a
plateau. -/
theorem C118_window (mem function : Nat → Nat → ℝ) (label : String) (plateau : Idx) (rate : R) (p L : Nat)
    (symmetric : Bool) (hf : Bell function) (hi : index L plateau = some (p : Int)) (hp : p ≤ L) :
    ∃ s : Signal ℝ R, new mem function label plateau rate L symmetric = some (.ok (s, (p : Int))) ∧ s.channels.cols = L ∧
      (∀ i, i < L → 0 ≤ s.channels.get 0 i ∧ s.channels.get 0 i ≤ 1) ∧
      ∀ i j, i ≤ j → j < L → (2 * j ≤ steps L symmetric → s.channels.get 0 i ≤ s.channels.get 0 j) ∧
        (steps L symmetric ≤ 2 * i → s.channels.get 0 j ≤ s.channels.get 0 i) := by
  obtain ⟨hu, hr⟩ := C118_functions function hf
  obtain ⟨s, h1, _, _, _, _, h2, h3⟩ := C42_samples mem function label plateau rate p L symmetric hi hp
  have hn : fadeLength p L = (L - p) / 2 := rfl
  have key : ∀ i, i < L → 0 ≤ expected function p L symmetric i ∧ expected function p L symmetric i ≤ 1 := by
    intro i hi
    unfold expected
    dsimp only
    split
    · split
      · exact hr L i hi
      · exact hr (L + 1) i (by omega)
    · split
      · split
        · exact hr _ i (by omega)
        · exact hr _ i (by omega)
      · split
        · exact ⟨zero_le_one, le_rfl⟩
        · split
          · exact hr _ _ (by omega)
          · exact hr _ _ (by omega)
  refine ⟨s, h1, h2, fun i hi => by rw [h3 i hi]; exact key i hi, ?_⟩
  intro i j hij hj
  rw [h3 i (by omega), h3 j hj]
  have ki := key i (by omega)
  have kj := key j hj
  unfold steps
  unfold expected at ki kj ⊢
  dsimp only at ki kj ⊢
  generalize fadeLength p L = n at *
  by_cases hp0 : p = 0
  · simp only [if_pos hp0]
    cases symmetric
    · simp only [Bool.false_eq_true, if_false]
      exact hu (L + 1) i j hij (by omega)
    · simp only [if_true]
      exact hu L i j hij (by omega)
  · simp only [if_neg hp0] at ki kj ⊢
    constructor
    · intro hc
      have hjn : j < L - n := by
        split at hc <;> omega
      by_cases hjn' : j < n
      · rw [if_pos hjn', if_pos (by omega)]
        exact (hu _ i j hij (by split <;> omega)).1 (by split <;> omega)
      · rw [if_neg hjn', if_pos hjn]
        exact ki.2
    · intro hc
      have hin : ¬ i < n := by
        split at hc <;> omega
      rw [if_neg hin, if_neg (show ¬ j < n by omega)]
      by_cases hin' : i < L - n
      · rw [if_pos hin']
        rw [if_neg (show ¬ j < n by omega)] at kj
        exact kj.2
      · rw [if_neg hin', if_neg (by omega)]
        exact (hu _ (i + 2 * n - L) (j + 2 * n - L) (by omega) (by split <;> omega)).2 (by split <;> omega)

/-- C118: Fades with these windows do not decrease, when they rise, and do not increase, when they fall. -/
theorem C118_fade (mem function : Nat → Nat → ℝ) (interval : Fade.Interval) (rate : R) (length a b : Nat)
    (hf : Bell function) (hab : a ≤ b) (hb : b ≤ length) :
    (Fade.ParsesTo length (fun k => (0, k)) interval (some (a, b)) →
      ∃ s : Signal ℝ R, Fade.new mem function interval .none rate length = some (.ok s) ∧ s.channels.cols = length ∧
        ∀ t u, t ≤ u → u < length → s.channels.get 0 t ≤ s.channels.get 0 u) ∧
    (Fade.ParsesTo length (fun k => (k, length)) interval (some (a, b)) →
      ∃ s : Signal ℝ R, Fade.new mem function .none interval rate length = some (.ok s) ∧ s.channels.cols = length ∧
        ∀ t u, t ≤ u → u < length → s.channels.get 0 u ≤ s.channels.get 0 t) := by
  obtain ⟨hu, hr⟩ := C118_functions function hf
  constructor
  · intro h
    exact Fade.C27_fade_in_monotone mem function interval rate length a b h hab hb hr
      (fun n i j hij hj => (hu (2 * n) i j hij (by omega)).1 (by omega))
  · intro h
    exact Fade.C27_fade_out_antitone mem function interval rate length a b h hab hb hr
      (fun n i j hni hij hj => (hu (2 * n) i j hij hj).2 (by omega))

-- the hypotheses of the theorems are satisfiable
example : Bell (kaiser (fun x => 1 + x ^ 2 / 4) 14) := by
  refine Or.inr (Or.inr (Or.inr (Or.inr (Or.inr (Or.inl ⟨_, 14, by norm_num, ?_, by norm_num, rfl⟩)))))
  intro x y hx hxy
  have : x ^ 2 ≤ y ^ 2 := by gcongr
  linarith
example : Bell hanning ∧ index 9 (.int 3) = some ((3 : Nat) : Int) := ⟨Or.inr (Or.inr (Or.inl rfl)), by decide⟩
example : Fade.ParsesTo 10 (fun k => (0, k)) (.single (.float (1/2))) (some (0, 5)) := ⟨5, by decide +kernel, rfl⟩

end Windows
end Verif
