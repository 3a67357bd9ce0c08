import Verif.WindowsDecayProps

/-
C78: the shape of the windows does not depend on their length.
C79: the shapes, that are described in the documentation of the windows.
-/

namespace Verif
namespace Windows

open Indexing Finset

variable {R : Type}

/-! ### Specification -/

/-- the samples of the window function are taken from the same function `w` for all lengths; the first sample is at -1/2
and the last one at 1/2 -/
def HasShape (function : Nat → Nat → ℝ) (w : ℝ → ℝ) : Prop :=
  ∀ N i : Nat, 0 < N → i ≤ N → function (N + 1) i = w ((i : ℝ) / N - 1 / 2)

/-- every `k`-th sample of the longer window is one of the shorter window -/
def Consistent (function : Nat → Nat → ℝ) : Prop :=
  ∀ N k i : Nat, 0 < N → 0 < k → i ≤ N → function (k * N + 1) (k * i) = function (N + 1) i

/-! ### C78 -/

theorem HasShape.consistent {function : Nat → Nat → ℝ} {w : ℝ → ℝ} (h : HasShape function w) : Consistent function := by
  intro N k i hN hk hi
  rw [h (k * N) (k * i) (Nat.mul_pos hk hN) (Nat.mul_le_mul_left k hi), h N i hN hi]
  congr 2
  have : (N : ℝ) ≠ 0 := by exact_mod_cast hN.ne'
  have : (k : ℝ) ≠ 0 := by exact_mod_cast hk.ne'
  push_cast
  field_simp

theorem shape_rectangular : HasShape (rectangular : Nat → Nat → ℝ) (fun _ => 1) := fun _ _ _ _ => rfl

theorem shape_bartlett : HasShape bartlett (fun t => 1 - 2 * |t|) := by
  intro N i hN hi
  have hN' : (0 : ℝ) < N := by exact_mod_cast hN
  have e : 1 - ((N + 1 : Nat) : ℝ) + 2 * i = 2 * N * ((i : ℝ) / N - 1 / 2) := by
    push_cast
    field_simp
    ring
  have d : (((N + 1 : Nat) : ℝ) - 1) = N := by
    push_cast
    ring
  unfold bartlett
  rw [if_neg (by omega)]
  dsimp only
  rw [e, d]
  generalize (i : ℝ) / N - 1 / 2 = t
  have q : 2 * (N : ℝ) * t / N = 2 * t := by field_simp
  rw [q]
  by_cases h : 2 * (N : ℝ) * t ≤ 0
  · have ht : t ≤ 0 := by
      by_contra hc
      have : 0 < 2 * (N : ℝ) * t := by
        have : 0 < t := not_le.1 hc
        positivity
      linarith
    rw [if_pos h, abs_of_nonpos ht]
    ring
  · have ht : 0 ≤ t := by
      by_contra hc
      have : 2 * (N : ℝ) * t ≤ 0 := mul_nonpos_of_nonneg_of_nonpos (by positivity) (not_le.1 hc).le
      exact h this
    rw [if_neg h, abs_of_nonneg ht]

theorem shape_hanning : HasShape hanning (cosineSum [1 / 2, 1 / 2]) := fun N i hN _ => (hann_blackman_sums N i hN).1

theorem shape_hamming : HasShape hamming (cosineSum [54 / 100, 46 / 100]) :=
  fun N i hN _ => (hann_blackman_sums N i hN).2.1

theorem shape_blackman : HasShape blackman (cosineSum [42 / 100, 1 / 2, 8 / 100]) :=
  fun N i hN _ => (hann_blackman_sums N i hN).2.2

theorem shape_kaiser (i0 : ℝ → ℝ) (beta : ℝ) :
    HasShape (kaiser i0 beta) (fun t => i0 (beta * Real.sqrt (1 - (2 * t) ^ 2)) / i0 beta) := by
  intro N i hN hi
  have hN' : (N : ℝ) ≠ 0 := by exact_mod_cast hN.ne'
  unfold kaiser
  rw [if_neg (by omega)]
  dsimp only
  congr 5
  push_cast
  rw [show (N : ℝ) + 1 - 1 = N by ring]
  field_simp

theorem shape_generalCosine (a : List ℚ) : HasShape (generalCosine a) (cosineSum a) :=
  fun N i hN _ => generalCosine_eq a N i hN

theorem shape_flatTop (f : FlatTop) :
    HasShape f.function (fun t => cosineSum f.coefficients t / ((f.divisor : ℚ) : ℝ)) := by
  intro N i hN _
  unfold FlatTop.function
  rw [generalCosine_eq _ _ _ hN]

theorem shape_nuttall (f : Nuttall) : HasShape f.function (cosineSum f.coefficients) := shape_generalCosine _

theorem shape_blackmanHarris : HasShape blackmanHarris (cosineSum [0.35875, 0.48829, 0.14128, 0.01168]) :=
  shape_generalCosine _

theorem shape_barthann :
    HasShape barthann (fun t => 62 / 100 - 48 / 100 * |t| + 38 / 100 * Real.cos (2 * Real.pi * |t|)) := by
  intro N i hN _
  unfold barthann
  rw [if_neg (by omega)]
  dsimp only
  have d : (((N + 1 : Nat) : ℝ) - 1) = N := by
    push_cast
    ring
  rw [d]

theorem shape_bohman : HasShape bohman (fun t =>
    (1 - |2 * t|) * Real.cos (Real.pi * |2 * t|) + 1 / Real.pi * Real.sin (Real.pi * |2 * t|)) := by
  intro N i hN hi
  have hN' : (N : ℝ) ≠ 0 := by exact_mod_cast hN.ne'
  have e : linspace (-1) 1 (N + 1) i = 2 * ((i : ℝ) / N - 1 / 2) := by
    unfold linspace
    push_cast
    rw [show (N : ℝ) + 1 - 1 = N by ring]
    field_simp
    ring
  unfold bohman
  rw [if_neg (by omega)]
  dsimp only
  rw [e]
  split
  · have : |2 * ((i : ℝ) / N - 1 / 2)| = 1 := by
      rename_i h
      rcases h with h | h
      · subst h
        norm_num
      · have : i = N := by omega
        subst this
        rw [div_self hN']
        norm_num
    rw [this]
    simp
  · rfl

theorem shape_exponential (decay : ℝ) : HasShape (exponential decay) (fun t => (10 : ℝ) ^ (-(decay / 20) * |2 * t|)) := by
  intro N i hN _
  rw [exponential_eq decay N i hN]
  dsimp only
  rw [show 2 * ((i : ℝ) / N - 1 / 2) = 2 * (i : ℝ) / N - 1 by ring]

theorem shape_gaussian (sd : ℝ) (hsd : sd ≠ 0) :
    HasShape (gaussian sd) (fun t => Real.exp (-(1 / 2) * (2 * t / sd) ^ 2)) := by
  intro N i hN _
  rw [gaussian_eq sd N i hN hsd]
  dsimp only
  rw [show 2 * ((i : ℝ) / N - 1 / 2) = 2 * (i : ℝ) / N - 1 by ring]

/-- C78: The shape of the window functions does not depend on the length. Missing: the Parzen window, which violates the
property (see `C78_parzen_violated`), and the Slepian window, whose function is not modelled. -/
theorem C78_functions_partial :
    Consistent (rectangular : Nat → Nat → ℝ) ∧ Consistent bartlett ∧ Consistent hanning ∧ Consistent hamming ∧
    Consistent blackman ∧ (∀ i0 beta, Consistent (kaiser i0 beta)) ∧ Consistent barthann ∧ Consistent blackmanHarris ∧
    Consistent bohman ∧ (∀ decay, Consistent (exponential decay)) ∧ (∀ f : FlatTop, Consistent f.function) ∧
    (∀ sd, sd ≠ 0 → Consistent (gaussian sd)) ∧ ∀ f : Nuttall, Consistent f.function :=
  ⟨shape_rectangular.consistent, shape_bartlett.consistent, shape_hanning.consistent, shape_hamming.consistent,
    shape_blackman.consistent, fun i0 beta => (shape_kaiser i0 beta).consistent, shape_barthann.consistent,
    shape_blackmanHarris.consistent, shape_bohman.consistent, fun d => (shape_exponential d).consistent,
    fun f => (shape_flatTop f).consistent, fun sd h => (shape_gaussian sd h).consistent,
    fun f => (shape_nuttall f).consistent⟩

/-- C78: A window, whose number of steps between the samples is multiplied by `k`, has the samples of the shorter window
as every `k`-th sample. -/
theorem C78_windows (mem mem' function : Nat → Nat → ℝ) (label : String) (plateau plateau' : Idx) (rate rate' : R)
    (k L L' : Nat) (symmetric : Bool) (h : Consistent function) (hk : 0 < k)
    (hi : index L plateau = some 0) (hi' : index L' plateau' = some 0) (hN : 0 < steps L symmetric)
    (hL : steps L' symmetric = k * steps L symmetric) :
    ∃ s s' : Signal ℝ R, new mem function label plateau rate L symmetric = some (.ok (s, 0)) ∧
      new mem' function label plateau' rate' L' symmetric = some (.ok (s', 0)) ∧
      ∀ i, i < L → s'.channels.get 0 (k * i) = s.channels.get 0 i := by
  obtain ⟨s, h1, _, _, _, _, _, h7⟩ := new_ok mem function label plateau rate L symmetric hi hN
  obtain ⟨s', h1', _, _, _, _, _, h7'⟩ := new_ok mem' function label plateau' rate' L' symmetric hi'
    (hL ▸ Nat.mul_pos hk hN)
  refine ⟨s, s', h1, h1', fun i h' => ?_⟩
  have hle : i ≤ steps L symmetric := by
    unfold steps
    split <;> omega
  have hlt : k * i < L' := by
    have := Nat.mul_le_mul_left k hle
    cases symmetric
    · have e1 : L' = k * L := hL
      rw [e1]
      exact Nat.mul_lt_mul_of_pos_left h' hk
    · have e1 : L' - 1 = k * steps L true := hL
      have := Nat.mul_pos hk hN
      omega
  rw [h7 i h', h7' (k * i) hlt, hL]
  exact h _ k i hN hk hle

/-- C78: The same for asymmetric windows with a plateau. -/
theorem C78_plateau (mem mem' function : Nat → Nat → ℝ) (label : String) (plateau plateau' : Idx) (rate rate' : R)
    (k p n : Nat) (h : Consistent function) (hk : 0 < k) (hp : 0 < p)
    (hi : index ((p + 2 * n : Nat) : Int) plateau = some (p : Int))
    (hi' : index ((k * (p + 2 * n) : Nat) : Int) plateau' = some ((k * p : Nat) : Int)) :
    ∃ s s' : Signal ℝ R, new mem function label plateau rate (p + 2 * n) false = some (.ok (s, (p : Int))) ∧
      new mem' function label plateau' rate' (k * (p + 2 * n)) false = some (.ok (s', ((k * p : Nat) : Int))) ∧
      ∀ i, i < p + 2 * n → s'.channels.get 0 (k * i) = s.channels.get 0 i := by
  obtain ⟨s, h1, _, _, _, _, _, h7⟩ := C42_samples mem function label plateau rate p (p + 2 * n) false hi (by omega)
  obtain ⟨s', h1', _, _, _, _, _, h7'⟩ := C42_samples mem' function label plateau' rate' (k * p) (k * (p + 2 * n)) false hi'
    (Nat.mul_le_mul_left k (by omega))
  refine ⟨s, s', h1, h1', fun i hlt => ?_⟩
  rw [h7 i hlt, h7' (k * i) (Nat.mul_lt_mul_of_pos_left hlt hk)]
  have hkp : 0 < k * p := Nat.mul_pos hk hp
  have f1 : fadeLength p (p + 2 * n) = n := by
    unfold fadeLength
    omega
  have f2 : fadeLength (k * p) (k * (p + 2 * n)) = k * n := by
    unfold fadeLength
    rw [show k * (p + 2 * n) - k * p = 2 * (k * n) by rw [Nat.mul_add, Nat.add_sub_cancel_left]; ring]
    omega
  unfold expected
  dsimp only
  rw [f1, f2, if_neg (show ¬ k * p = 0 by omega), if_neg (show ¬ p = 0 by omega)]
  simp only [Bool.false_eq_true, if_false]
  have g1 : 2 * (k * n) + 1 = k * (2 * n) + 1 := by ring
  have g2 : k * (p + 2 * n) - k * n = k * (p + n) := by
    rw [show k * (p + 2 * n) = k * (p + n) + k * n by ring, Nat.add_sub_cancel]
  rw [g1, g2]
  by_cases c1 : i < n
  · rw [if_pos c1, if_pos (Nat.mul_lt_mul_of_pos_left c1 hk)]
    exact h (2 * n) k i (by omega) hk (by omega)
  · rw [if_neg c1, if_neg (not_lt.2 (Nat.mul_le_mul_left k (not_lt.1 c1)))]
    by_cases c2 : i < p + n
    · rw [if_pos (show i < p + 2 * n - n by omega), if_pos (Nat.mul_lt_mul_of_pos_left c2 hk)]
    · rw [if_neg (show ¬ i < p + 2 * n - n by omega), if_neg (not_lt.2 (Nat.mul_le_mul_left k (not_lt.1 c2)))]
      have g3 : k * i + 2 * (k * n) - k * (p + 2 * n) = k * (i + 2 * n - (p + 2 * n)) := by
        rw [Nat.mul_sub]
        congr 1
        ring
      rw [g3]
      exact h (2 * n) k _ (by omega) hk (by omega)

/-- C78 (violation): According to the documentation of the Dolph-Chebyshev window, all other window functions have a
consistent shape. But the shape of the Parzen window depends on the length: the first sample of the window with three
samples is 2/27 and the one of the window with five samples is 2/125. -/
theorem C78_parzen_violated (mem : Nat → Nat → ℝ) (rate : R) :
    ∃ s s' : Signal ℝ R, parzenWindow mem (.int 0) rate 3 true = some (.ok (s, 0)) ∧
      parzenWindow mem (.int 0) rate 5 true = some (.ok (s', 0)) ∧ s'.channels.get 0 (2 * 0) ≠ s.channels.get 0 0 := by
  obtain ⟨s, h1, h2⟩ := C75_parzen_ends_partial mem (.int 0) rate 3 true (by decide) (by decide)
  obtain ⟨s', h1', h2'⟩ := C75_parzen_ends_partial mem (.int 0) rate 5 true (by decide) (by decide)
  refine ⟨s, s', h1, h1', ?_⟩
  rw [mul_zero, h2, h2']
  show 2 / (((4 : Nat) : ℝ) + 1) ^ 3 ≠ 2 / (((2 : Nat) : ℝ) + 1) ^ 3
  norm_num

example : index 5 (.int 0) = some 0 ∧ index 9 (.int 0) = some 0 ∧ steps 9 true = 2 * steps 5 true := by decide
example : index ((3 + 2 * 2 : Nat) : Int) (.int 3) = some 3 ∧ index ((2 * (3 + 2 * 2) : Nat) : Int) (.int 6) = some 6 := by
  decide

/-! ### C79 -/

/-- C79: The Bartlett-Hann window is an additive combination of the Bartlett and the Hann window. -/
theorem C79_bartlett_hann (M i : Nat) (h : i < M) : barthann M i = 24 / 100 * bartlett M i + 76 / 100 * hanning M i := by
  by_cases h1 : M = 1
  · subst h1
    unfold barthann bartlett hanning
    norm_num
  · obtain ⟨N, rfl⟩ : ∃ N, M = N + 1 := ⟨M - 1, by omega⟩
    rw [shape_barthann N i (by omega) (by omega), shape_bartlett N i (by omega) (by omega),
      shape_hanning N i (by omega) (by omega)]
    dsimp only
    generalize (i : ℝ) / N - 1 / 2 = t
    have : Real.cos (2 * Real.pi * |t|) = Real.cos (2 * Real.pi * t) := by
      rcases abs_choice t with e | e <;> rw [e]
      rw [mul_neg, Real.cos_neg]
    rw [this]
    unfold cosineSum
    simp [Finset.sum_range_succ]
    ring

/-- the autocorrelation of the cosine window `cos (π t)`, `-1/2 ≤ t ≤ 1/2`, for the delay `x`, `0 ≤ x ≤ 1` -/
noncomputable def cosineAutocorrelation (x : ℝ) : ℝ :=
  ∫ t in (-1/2)..(1/2 - x), Real.cos (Real.pi * t) * Real.cos (Real.pi * (t + x))

theorem cosineAutocorrelation_eq (x : ℝ) :
    cosineAutocorrelation x = 1 / 2 * ((1 - x) * Real.cos (Real.pi * x) + 1 / Real.pi * Real.sin (Real.pi * x)) := by
  have hpi := Real.pi_ne_zero
  have e : ∀ t : ℝ, Real.cos (Real.pi * t) * Real.cos (Real.pi * (t + x)) =
      1 / 2 * (Real.cos (Real.pi * x) + Real.cos (2 * Real.pi * t + Real.pi * x)) := by
    intro t
    have a := Real.cos_sub (Real.pi * (t + x)) (Real.pi * t)
    have b := Real.cos_add (Real.pi * (t + x)) (Real.pi * t)
    rw [show Real.pi * (t + x) - Real.pi * t = Real.pi * x by ring] at a
    rw [show Real.pi * (t + x) + Real.pi * t = 2 * Real.pi * t + Real.pi * x by ring] at b
    rw [a, b]
    ring
  unfold cosineAutocorrelation
  simp only [e]
  rw [intervalIntegral.integral_const_mul, intervalIntegral.integral_add, intervalIntegral.integral_const,
    intervalIntegral.integral_comp_mul_add (fun t => Real.cos t) (by positivity : 2 * Real.pi ≠ 0), integral_cos]
  · rw [show 2 * Real.pi * (1 / 2 - x) + Real.pi * x = Real.pi - Real.pi * x by ring,
      show 2 * Real.pi * (-1 / 2) + Real.pi * x = -(Real.pi - Real.pi * x) by ring, Real.sin_neg, Real.sin_pi_sub,
      smul_eq_mul, smul_eq_mul]
    field_simp
    ring
  · exact Continuous.intervalIntegrable (by fun_prop) _ _
  · exact Continuous.intervalIntegrable (by fun_prop) _ _

/-- C79: The Bohman window is the normalized autocorrelation of the cosine window. -/
theorem C79_bohman (N i : Nat) (hN : 0 < N) (h : i ≤ N) :
    bohman (N + 1) i = cosineAutocorrelation |2 * (i : ℝ) / N - 1| / cosineAutocorrelation 0 := by
  rw [shape_bohman N i hN h, cosineAutocorrelation_eq, cosineAutocorrelation_eq]
  dsimp only
  rw [show 2 * ((i : ℝ) / N - 1 / 2) = 2 * (i : ℝ) / N - 1 by ring]
  simp
  ring

/-- C79: All of these window functions are symmetric. -/
theorem C79_symmetric : (∀ i0 beta, Symmetric (kaiser i0 beta)) ∧ Symmetric barthann ∧ Symmetric bohman ∧
    (∀ decay, Symmetric (exponential decay)) ∧ (∀ sd, sd ≠ 0 → Symmetric (gaussian sd)) ∧
    Symmetric (parzen : Nat → Nat → ℝ) := by
  have key : ∀ (function : Nat → Nat → ℝ) (w : ℝ → ℝ), HasShape function w → (∀ t, w (-t) = w t) → Symmetric function := by
    intro function w h he n i hi
    by_cases h1 : n = 1
    · subst h1
      obtain rfl : i = 0 := by omega
      rfl
    · obtain ⟨N, rfl⟩ : ∃ N, n = N + 1 := ⟨n - 1, by omega⟩
      have hN : 0 < N := by omega
      have hN' : (N : ℝ) ≠ 0 := by exact_mod_cast hN.ne'
      rw [h N _ hN (by omega), h N i hN (by omega), ← he]
      congr 1
      rw [show N + 1 - 1 - i = N - i by omega, Nat.cast_sub (by omega)]
      field_simp
      ring
  refine ⟨fun i0 beta => key _ _ (shape_kaiser i0 beta) ?_, key _ _ shape_barthann ?_, key _ _ shape_bohman ?_,
    fun d => key _ _ (shape_exponential d) ?_, fun sd h => key _ _ (shape_gaussian sd h) ?_, ?_⟩
  · intro t
    rw [mul_neg, neg_sq]
  · intro t
    rw [abs_neg]
  · intro t
    rw [mul_neg, abs_neg]
  · intro t
    rw [mul_neg, abs_neg]
  · intro t
    rw [mul_neg, neg_div, neg_sq]
  · intro n i hi
    unfold parzen
    have e : |((n - 1 - i : Nat) : ℝ) - ((n : ℝ) - 1) / 2| = |(i : ℝ) - ((n : ℝ) - 1) / 2| := by
      rw [Nat.cast_sub (by omega), Nat.cast_sub (by omega), ← abs_neg]
      congr 1
      push_cast
      ring
    simp only [e]

/-- C79: The Kaiser, Bartlett-Hann, Bohman, exponential, Gaussian and Parzen windows are palindromes, with and without a
plateau. -/
theorem C79_palindrome (mem : Nat → Nat → ℝ) (plateau : Idx) (rate : R) (p L : Nat) (label : String)
    (function : Nat → Nat → ℝ)
    (h : (∃ i0 beta, function = kaiser i0 beta) ∨ function = barthann ∨ function = bohman ∨
      (∃ d, function = exponential d) ∨ (∃ sd, sd ≠ 0 ∧ function = gaussian sd) ∨ function = parzen)
    (hi : index L plateau = some (p : Int)) (hp : p ≤ L) :
    ∃ s : Signal ℝ R, new mem function label plateau rate L true = some (.ok (s, (p : Int))) ∧ s.channels.cols = L ∧
      ∀ i, i < L → s.channels.get 0 (L - 1 - i) = s.channels.get 0 i := by
  obtain ⟨k1, k2, k3, k4, k5, k6⟩ := C79_symmetric
  refine C42_palindrome mem function label plateau rate p L hi hp ?_
  rcases h with ⟨i0, b, rfl⟩ | rfl | rfl | ⟨d, rfl⟩ | ⟨sd, hs, rfl⟩ | rfl
  · exact k1 i0 b
  · exact k2
  · exact k3
  · exact k4 d
  · exact k5 sd hs
  · exact k6

/-- C79: The minimum and the maximum of the Bartlett-Hann window's function. -/
theorem C79_bartlett_hann_range (M i : Nat) (h : i < M) : 0 ≤ barthann M i ∧ barthann M i ≤ 1 := by
  rw [C79_bartlett_hann M i h]
  obtain ⟨⟨a, b⟩, ⟨c, d⟩, _⟩ := C42_functions_range M i h
  constructor <;> linarith

end Windows
end Verif
