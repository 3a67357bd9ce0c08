import Verif.WindowsScipy
import Verif.WindowsOverlapProps
import Mathlib.Analysis.SpecialFunctions.Pow.Real
import Mathlib.Data.List.GetD

/-
C75: the values of the exponential, the Gaussian, the Bohman and the Parzen window.
C76: the samples of the cosine-sum windows.
-/

namespace Verif
namespace Windows

open Indexing Finset

variable {R : Type}

/-! ### Specification -/

/-- the number of the steps from the first sample to the one, that equals the first one -/
def steps (L : Nat) (symmetric : Bool) : Nat := if symmetric then L - 1 else L

/-- a sum of cosines, whose period is one -/
noncomputable def cosineSum (a : List ℚ) (t : ℝ) : ℝ :=
  ∑ k ∈ range a.length, ((a.getD k 0 : ℚ) : ℝ) * Real.cos (2 * Real.pi * k * t)

/-! ### C75 -/

/-- windows without a plateau -/
theorem new_ok (mem function : Nat → Nat → ℝ) (label : String) (plateau : Idx) (rate : R) (L : Nat)
    (symmetric : Bool) (hi : index L plateau = some 0) (hN : 0 < steps L symmetric) :
    ∃ s : Signal ℝ R, new mem function label plateau rate L symmetric = some (.ok (s, 0)) ∧ s.rate = rate ∧
      s.offset = 0 ∧ s.labels = [label] ∧ s.channels.rows = 1 ∧ s.channels.cols = L ∧
      ∀ i, i < L → s.channels.get 0 i = function (steps L symmetric + 1) i := by
  obtain ⟨s, h1, h2, h3, h4, h5, h6, h7⟩ := C42_samples mem function label plateau rate 0 L symmetric hi (Nat.zero_le _)
  refine ⟨s, h1, h2, h3, h4, h5, h6, ?_⟩
  intro i h
  rw [h7 i h]
  unfold expected
  dsimp only
  rw [if_pos rfl]
  congr 1
  unfold steps
  cases symmetric
  · rfl
  · simp only [if_true]
    omega

theorem exponential_eq (decay : ℝ) (N i : Nat) (hN : 0 < N) :
    exponential decay (N + 1) i = (10 : ℝ) ^ (-(decay / 20) * |2 * (i : ℝ) / N - 1|) := by
  have hN' : (N : ℝ) ≠ 0 := by exact_mod_cast hN.ne'
  have h10 : Real.log 10 ≠ 0 := (Real.log_pos (by norm_num)).ne'
  unfold exponential
  by_cases h : N + 1 = 1 ∨ decay = 0
  · rw [if_pos h]
    have hd : decay = 0 := h.resolve_left (by omega)
    rw [hd]
    simp
  · rw [if_neg h]
    have hd : decay ≠ 0 := fun e => h (Or.inr e)
    dsimp only
    unfold scipyExponential
    rw [if_neg (by omega), Real.rpow_def_of_pos (by norm_num)]
    congr 1
    have e : (i : ℝ) - (((N + 1 : Nat) : ℝ) - 1) / 2 = N / 2 * (2 * (i : ℝ) / N - 1) := by
      push_cast
      field_simp
      ring
    rw [e, abs_mul, abs_of_pos (by positivity : (0 : ℝ) < N / 2)]
    push_cast
    rw [show (N : ℝ) + 1 - 1 = N by ring]
    generalize |2 * (i : ℝ) / N - 1| = x
    field_simp
    ring

/-- C75: The level of the exponential window falls linearly from the centre to its ends, where it is `decay` dB lower
than in the centre. -/
theorem C75_exponential (mem : Nat → Nat → ℝ) (decay : ℝ) (plateau : Idx) (rate : R) (L : Nat) (symmetric : Bool)
    (hi : index L plateau = some 0) (hN : 0 < steps L symmetric) :
    ∃ s : Signal ℝ R, exponentialWindow mem decay plateau rate L symmetric = some (.ok (s, 0)) ∧
      s.labels = ["Exponential window"] ∧ s.channels.rows = 1 ∧ s.channels.cols = L ∧
      ∀ i, i < L → s.channels.get 0 i = (10 : ℝ) ^ (-(decay / 20) * |2 * (i : ℝ) / steps L symmetric - 1|) := by
  obtain ⟨s, h1, _, _, h4, h5, h6, h7⟩ := new_ok mem (exponential decay) "Exponential window" plateau rate L symmetric hi hN
  exact ⟨s, h1, h4, h5, h6, fun i h => (h7 i h).trans (exponential_eq decay _ i hN)⟩

/-- C75: The corners of the exponential window are attenuated by the given value in dB, and its centre is one. -/
theorem C75_exponential_corners (mem : Nat → Nat → ℝ) (decay : ℝ) (plateau : Idx) (rate : R) (L : Nat) (symmetric : Bool)
    (hi : index L plateau = some 0) (hN : 0 < steps L symmetric) :
    ∃ s : Signal ℝ R, exponentialWindow mem decay plateau rate L symmetric = some (.ok (s, 0)) ∧
      s.channels.get 0 0 = (10 : ℝ) ^ (-(decay / 20)) ∧
      (symmetric = true → s.channels.get 0 (L - 1) = (10 : ℝ) ^ (-(decay / 20))) ∧
      (∀ i, i < L → 2 * i = steps L symmetric → s.channels.get 0 i = 1) ∧
      (decay = 0 → ∀ i, i < L → s.channels.get 0 i = 1) := by
  obtain ⟨s, h1, _, _, _, h7⟩ := C75_exponential mem decay plateau rate L symmetric hi hN
  have hL : 0 < L := by
    unfold steps at hN
    split at hN <;> omega
  have hN' : ((steps L symmetric : Nat) : ℝ) ≠ 0 := by exact_mod_cast hN.ne'
  refine ⟨s, h1, ?_, ?_, ?_, ?_⟩
  · rw [h7 0 hL]
    norm_num
  · intro hs
    subst hs
    have hL2 : ((L - 1 : Nat) : ℝ) ≠ 0 := hN'
    rw [h7 (L - 1) (by omega)]
    show (10 : ℝ) ^ (-(decay / 20) * |2 * ((L - 1 : Nat) : ℝ) / ((L - 1 : Nat) : ℝ) - 1|) = _
    rw [mul_div_assoc, div_self hL2]
    norm_num
  · intro i h e
    rw [h7 i h, ← e]
    have hi' : (i : ℝ) ≠ 0 := by
      have : i ≠ 0 := by omega
      exact_mod_cast this
    rw [show (2 : ℝ) * i / ((2 * i : Nat) : ℝ) - 1 = 0 by push_cast; field_simp; ring]
    simp
  · intro hd i h
    rw [h7 i h, hd]
    simp

theorem gaussian_eq (sd : ℝ) (N i : Nat) (hN : 0 < N) (hsd : sd ≠ 0) :
    gaussian sd (N + 1) i = Real.exp (-(1 / 2) * ((2 * (i : ℝ) / N - 1) / sd) ^ 2) := by
  have hN' : (N : ℝ) ≠ 0 := by exact_mod_cast hN.ne'
  unfold gaussian scipyGaussian
  dsimp only
  rw [if_neg (by omega)]
  congr 1
  push_cast
  rw [show (N : ℝ) + 1 - 1 = N by ring]
  field_simp

/-- C75: The shape of the Gaussian window: the first and the last sample are at minus one and one. -/
theorem C75_gaussian (mem : Nat → Nat → ℝ) (sd : ℝ) (plateau : Idx) (rate : R) (L : Nat) (symmetric : Bool)
    (hi : index L plateau = some 0) (hN : 0 < steps L symmetric) (hsd : sd ≠ 0) :
    ∃ s : Signal ℝ R, gaussianWindow mem sd plateau rate L symmetric = some (.ok (s, 0)) ∧
      s.labels = ["Gaussian window"] ∧ s.channels.rows = 1 ∧ s.channels.cols = L ∧
      ∀ i, i < L → s.channels.get 0 i = Real.exp (-(1 / 2) * ((2 * (i : ℝ) / steps L symmetric - 1) / sd) ^ 2) := by
  obtain ⟨s, h1, _, _, h4, h5, h6, h7⟩ := new_ok mem (gaussian sd) "Gaussian window" plateau rate L symmetric hi hN
  exact ⟨s, h1, h4, h5, h6, fun i h => (h7 i h).trans (gaussian_eq sd _ i hN hsd)⟩

/-- C75: The Gaussian window never reaches zero and its maximum is one. -/
theorem C75_gaussian_range (sd : ℝ) (M i : Nat) : 0 < gaussian sd M i ∧ gaussian sd M i ≤ 1 := by
  unfold gaussian scipyGaussian
  dsimp only
  split
  · norm_num
  · refine ⟨Real.exp_pos _, ?_⟩
    rw [Real.exp_le_one_iff]
    refine div_nonpos_of_nonpos_of_nonneg ?_ ?_
    · have := sq_nonneg ((i : ℝ) - (M - 1) / 2)
      linarith
    · have := mul_self_nonneg (sd * ((M : ℝ) - 1) / 2)
      linarith

theorem parzen_end (N : Nat) (hN : 0 < N) : (parzen (N + 1) 0 : ℝ) = 2 / ((N : ℝ) + 1) ^ 3 := by
  have hN' : (0 : ℝ) < N := by exact_mod_cast hN
  unfold parzen
  rw [if_neg (by omega)]
  dsimp only
  have e : |((0 : Nat) : ℝ) - (((N + 1 : Nat) : ℝ) - 1) / 2| = N / 2 := by
    push_cast
    rw [show (0 : ℝ) - (N + 1 - 1) / 2 = -(N / 2) by ring, abs_neg, abs_of_pos (by positivity)]
  rw [e, if_neg (by push_cast; linarith)]
  push_cast
  field_simp
  ring

/-- C75: The Parzen window's first sample decreases with the third power of its length. Missing: it is not zero, see
`C75_parzen_ends_violated`. -/
theorem C75_parzen_ends_partial (mem : Nat → Nat → ℝ) (plateau : Idx) (rate : R) (L : Nat) (symmetric : Bool)
    (hi : index L plateau = some 0) (hN : 0 < steps L symmetric) :
    ∃ s : Signal ℝ R, parzenWindow mem plateau rate L symmetric = some (.ok (s, 0)) ∧
      s.channels.get 0 0 = 2 / ((steps L symmetric : ℝ) + 1) ^ 3 := by
  obtain ⟨s, h1, _, _, _, _, _, h7⟩ := new_ok mem parzen "Parzen window" plateau rate L symmetric hi hN
  have hL : 0 < L := by
    unfold steps at hN
    split at hN <;> omega
  exact ⟨s, h1, (h7 0 hL).trans (parzen_end _ hN)⟩

/-- C75 (violation): According to its documentation, the Parzen window reaches zero at its ends, but its first sample is
never zero. For example, the first sample of the window with four samples is 1/32. -/
theorem C75_parzen_ends_violated (mem : Nat → Nat → ℝ) (rate : R) :
    ∃ s : Signal ℝ R, parzenWindow mem (.int 0) rate 4 true = some (.ok (s, 0)) ∧ s.channels.get 0 0 = 1 / 32 := by
  obtain ⟨s, h1, h2⟩ := C75_parzen_ends_partial mem (.int 0) rate 4 true (by decide) (by decide)
  refine ⟨s, h1, h2.trans ?_⟩
  have : ((steps 4 true : Nat) : ℝ) = 3 := by
    show ((3 : Nat) : ℝ) = 3
    norm_num
  rw [this]
  norm_num

example : index 8 (.int 0) = some 0 ∧ 0 < steps 8 true ∧ 0 < steps 8 false := by decide

/-! ### C76 -/

theorem generalCosine_eq (a : List ℚ) (N i : Nat) (hN : 0 < N) :
    generalCosine a (N + 1) i = cosineSum a ((i : ℝ) / N - 1 / 2) := by
  have hN' : (N : ℝ) ≠ 0 := by exact_mod_cast hN.ne'
  unfold generalCosine cosineSum
  rw [if_neg (by omega), foldl_sum, zero_add]
  refine Finset.sum_congr rfl fun k _ => ?_
  congr 2
  unfold linspace
  push_cast
  rw [show (N : ℝ) + 1 - 1 = N by ring]
  field_simp
  ring

/-- C76: The samples of the flat top windows. -/
theorem C76_flat_top (mem : Nat → Nat → ℝ) (f : FlatTop) (plateau : Idx) (rate : R) (L : Nat) (symmetric : Bool)
    (hi : index L plateau = some 0) (hN : 0 < steps L symmetric) :
    ∃ s : Signal ℝ R, flatTopWindow mem (some f) plateau rate L symmetric = some (.ok (s, 0)) ∧
      s.labels = ["Flat top window"] ∧ s.channels.rows = 1 ∧ s.channels.cols = L ∧
      ∀ i, i < L → s.channels.get 0 i =
        cosineSum f.coefficients ((i : ℝ) / steps L symmetric - 1 / 2) / ((f.divisor : ℚ) : ℝ) := by
  obtain ⟨s, h1, _, _, h4, h5, h6, h7⟩ := new_ok mem f.function "Flat top window" plateau rate L symmetric hi hN
  refine ⟨s, h1, h4, h5, h6, fun i h => (h7 i h).trans ?_⟩
  unfold FlatTop.function
  rw [generalCosine_eq _ _ _ hN]

/-- C76: The samples of the Nuttall windows. -/
theorem C76_nuttall (mem : Nat → Nat → ℝ) (f : Nuttall) (plateau : Idx) (rate : R) (L : Nat) (symmetric : Bool)
    (hi : index L plateau = some 0) (hN : 0 < steps L symmetric) :
    ∃ s : Signal ℝ R, nuttallWindow mem (some f) plateau rate L symmetric = some (.ok (s, 0)) ∧
      s.labels = ["Nuttall window"] ∧ s.channels.rows = 1 ∧ s.channels.cols = L ∧
      ∀ i, i < L → s.channels.get 0 i = cosineSum f.coefficients ((i : ℝ) / steps L symmetric - 1 / 2) := by
  obtain ⟨s, h1, _, _, h4, h5, h6, h7⟩ := new_ok mem f.function "Nuttall window" plateau rate L symmetric hi hN
  exact ⟨s, h1, h4, h5, h6, fun i h => (h7 i h).trans (generalCosine_eq _ _ _ hN)⟩

/-- C76: Window functions, that are not in the enumerations, raise a `ValueError`. -/
theorem C76_unknown (mem : Nat → Nat → ℝ) (plateau : Idx) (rate : R) (L : Nat) (symmetric : Bool) (p : Int)
    (hi : index L plateau = some p) :
    flatTopWindow mem none plateau rate L symmetric = some (.error .valueError) ∧
      nuttallWindow mem none plateau rate L symmetric = some (.error .valueError) := by
  unfold flatTopWindow nuttallWindow newOf
  rw [hi]
  exact ⟨rfl, rfl⟩

theorem cosineSum_neg (a : List ℚ) (t : ℝ) : cosineSum a (-t) = cosineSum a t := by
  unfold cosineSum
  refine Finset.sum_congr rfl fun k _ => ?_
  rw [mul_neg, Real.cos_neg]

theorem symmetric_generalCosine (a : List ℚ) : Symmetric (generalCosine a) := by
  intro n i h
  by_cases h1 : n ≤ 1
  · unfold generalCosine
    rw [if_pos h1, if_pos h1]
  · obtain ⟨N, rfl⟩ : ∃ N, n = N + 1 := ⟨n - 1, by omega⟩
    have hN : 0 < N := by omega
    have hN' : (N : ℝ) ≠ 0 := by exact_mod_cast hN.ne'
    rw [generalCosine_eq _ _ _ hN, generalCosine_eq _ _ _ hN, ← cosineSum_neg]
    congr 1
    rw [show N + 1 - 1 - i = N - i by omega, Nat.cast_sub (by omega)]
    field_simp
    ring

/-- C76: The cosine-sum windows are symmetric, with and without a plateau. -/
theorem C76_palindrome (mem : Nat → Nat → ℝ) (f : FlatTop) (g : Nuttall) (plateau : Idx) (rate : R) (p L : Nat)
    (hi : index L plateau = some (p : Int)) (hp : p ≤ L) :
    (∃ s : Signal ℝ R, flatTopWindow mem (some f) plateau rate L true = some (.ok (s, (p : Int))) ∧ s.channels.cols = L ∧
      ∀ i, i < L → s.channels.get 0 (L - 1 - i) = s.channels.get 0 i) ∧
    (∃ s : Signal ℝ R, nuttallWindow mem (some g) plateau rate L true = some (.ok (s, (p : Int))) ∧ s.channels.cols = L ∧
      ∀ i, i < L → s.channels.get 0 (L - 1 - i) = s.channels.get 0 i) := by
  refine ⟨C42_palindrome mem f.function "Flat top window" plateau rate p L hi hp ?_,
    C42_palindrome mem g.function "Nuttall window" plateau rate p L hi hp (symmetric_generalCosine _)⟩
  intro n i h
  unfold FlatTop.function
  rw [symmetric_generalCosine _ n i h]

/-- the value in the centre -/
theorem cosineSum_zero (a : List ℚ) : cosineSum a 0 = (((∑ k ∈ range a.length, a.getD k 0 : ℚ)) : ℝ) := by
  unfold cosineSum
  push_cast
  refine Finset.sum_congr rfl fun k _ => ?_
  rw [mul_zero, Real.cos_zero, mul_one]

/-- the largest value is the one in the centre -/
theorem abs_cosineSum_le (a : List ℚ) (h : ∀ x ∈ a, 0 ≤ x) (t : ℝ) : |cosineSum a t| ≤ cosineSum a 0 := by
  unfold cosineSum
  refine (Finset.abs_sum_le_sum_abs _ _).trans (Finset.sum_le_sum fun k hk => ?_)
  rw [mul_zero, Real.cos_zero, mul_one, abs_mul]
  have h0 : (0 : ℝ) ≤ ((a.getD k 0 : ℚ) : ℝ) := by
    have hk' : k < a.length := Finset.mem_range.1 hk
    rw [List.getD_eq_getElem _ _ hk']
    exact_mod_cast h _ (List.getElem_mem hk')
  rw [abs_of_nonneg h0]
  exact mul_le_of_le_one_right h0 (Real.abs_cos_le_one _)

theorem flatTop_nonneg (f : FlatTop) : (∀ x ∈ f.coefficients, 0 ≤ x) ∧ 0 < f.divisor ∧
    |(∑ k ∈ range f.coefficients.length, f.coefficients.getD k 0) / f.divisor - 1| ≤ 1 / 100000 := by
  cases f <;> decide +kernel

theorem nuttall_nonneg (f : Nuttall) : (∀ x ∈ f.coefficients, 0 ≤ x) ∧
    ∑ k ∈ range f.coefficients.length, f.coefficients.getD k 0 = 1 := by
  cases f <;> decide +kernel

/-- C76: The centre of the flat top windows is one (up to the accuracy of the coefficients), and the absolute values of
all samples are not larger than the centre. -/
theorem C76_flat_top_peak (mem : Nat → Nat → ℝ) (f : FlatTop) (plateau : Idx) (rate : R) (L : Nat) (symmetric : Bool)
    (hi : index L plateau = some 0) (hN : 0 < steps L symmetric) :
    ∃ s : Signal ℝ R, flatTopWindow mem (some f) plateau rate L symmetric = some (.ok (s, 0)) ∧
      (∀ i, i < L → |s.channels.get 0 i| ≤ 1 + 1 / 100000) ∧
      ∀ c, c < L → 2 * c = steps L symmetric → |s.channels.get 0 c - 1| ≤ 1 / 100000 ∧
        ∀ i, i < L → |s.channels.get 0 i| ≤ s.channels.get 0 c := by
  obtain ⟨s, h1, _, _, _, h7⟩ := C76_flat_top mem f plateau rate L symmetric hi hN
  obtain ⟨f1, f2, f3⟩ := flatTop_nonneg f
  have f2' : (0 : ℝ) < ((f.divisor : ℚ) : ℝ) := by exact_mod_cast f2
  have f3' : |cosineSum f.coefficients 0 / ((f.divisor : ℚ) : ℝ) - 1| ≤ 1 / 100000 := by
    rw [cosineSum_zero]
    have := (Rat.cast_le (K := ℝ)).2 f3
    push_cast at this ⊢
    exact this
  have bound : ∀ t, |cosineSum f.coefficients t / ((f.divisor : ℚ) : ℝ)| ≤
      cosineSum f.coefficients 0 / ((f.divisor : ℚ) : ℝ) := by
    intro t
    rw [abs_div, abs_of_pos f2']
    exact div_le_div_of_nonneg_right (abs_cosineSum_le _ f1 t) f2'.le
  refine ⟨s, h1, ?_, ?_⟩
  · intro i h
    rw [h7 i h]
    refine (bound _).trans ?_
    have := (abs_le.1 f3').2
    linarith
  · intro c hc e
    have hc0 : s.channels.get 0 c = cosineSum f.coefficients 0 / ((f.divisor : ℚ) : ℝ) := by
      rw [h7 c hc, ← e]
      have : (c : ℝ) ≠ 0 := by
        have : c ≠ 0 := by omega
        exact_mod_cast this
      rw [show (c : ℝ) / ((2 * c : Nat) : ℝ) - 1 / 2 = 0 by push_cast; field_simp; ring]
    rw [hc0]
    refine ⟨f3', fun i h => ?_⟩
    rw [h7 i h]
    exact bound _

/-- C76: The centre of the Nuttall windows is one, and the absolute values of all samples are not larger. -/
theorem C76_nuttall_peak (mem : Nat → Nat → ℝ) (f : Nuttall) (plateau : Idx) (rate : R) (L : Nat) (symmetric : Bool)
    (hi : index L plateau = some 0) (hN : 0 < steps L symmetric) :
    ∃ s : Signal ℝ R, nuttallWindow mem (some f) plateau rate L symmetric = some (.ok (s, 0)) ∧
      (∀ i, i < L → |s.channels.get 0 i| ≤ 1) ∧
      ∀ c, c < L → 2 * c = steps L symmetric → s.channels.get 0 c = 1 := by
  obtain ⟨s, h1, _, _, _, h7⟩ := C76_nuttall mem f plateau rate L symmetric hi hN
  obtain ⟨f1, f2⟩ := nuttall_nonneg f
  have f2' : cosineSum f.coefficients 0 = 1 := by
    rw [cosineSum_zero, f2]
    norm_num
  refine ⟨s, h1, ?_, ?_⟩
  · intro i h
    rw [h7 i h, ← f2']
    exact abs_cosineSum_le _ f1 _
  · intro c hc e
    rw [h7 c hc, ← e]
    have : (c : ℝ) ≠ 0 := by
      have : c ≠ 0 := by omega
      exact_mod_cast this
    rw [show (c : ℝ) / ((2 * c : Nat) : ℝ) - 1 / 2 = 0 by push_cast; field_simp; ring]
    exact f2'

/-- C76: The documented numbers of terms. -/
theorem C76_terms :
    ([FlatTop.sft3f, .sft3m].all (·.coefficients.length = 3) ∧ [FlatTop.sft4f, .sft4m, .hft70].all (·.coefficients.length = 4) ∧
      [FlatTop.sft5f, .sft5m, .hft90d, .hft95].all (·.coefficients.length = 5) ∧
      FlatTop.hft116d.coefficients.length = 6 ∧ FlatTop.hft144d.coefficients.length = 7 ∧
      FlatTop.hft169d.coefficients.length = 8 ∧ FlatTop.hft196d.coefficients.length = 9 ∧
      FlatTop.hft223d.coefficients.length = 10 ∧ FlatTop.hft248d.coefficients.length = 11) ∧
    [Nuttall.nuttall3, .nuttall3a, .nuttall3b].all (·.coefficients.length = 3) ∧
      [Nuttall.nuttall4, .nuttall4a, .nuttall4b, .nuttall4c].all (·.coefficients.length = 4) := by
  decide

/-- C76 (violation): The centre of a window with one sample should be one, too. But scipy's function, which returns one in
this case, is divided by the sum of the coefficients, which is about 4.17 in this example. -/
theorem C76_single_sample_violated (mem : Nat → Nat → ℝ) (rate : R) :
    ∃ s : Signal ℝ R, flatTopWindow mem (some .fthp) (.int 0) rate 1 true = some (.ok (s, 0)) ∧
      s.channels.cols = 1 ∧ s.channels.get 0 0 < 1 / 4 := by
  obtain ⟨s, h1, _, _, _, _, h6, h7⟩ := C42_samples mem FlatTop.fthp.function "Flat top window" (.int 0) rate 0 1 true
    (by decide) (Nat.zero_le _)
  refine ⟨s, h1, h6, ?_⟩
  rw [h7 0 (by omega)]
  show FlatTop.fthp.function 1 0 < 1 / 4
  unfold FlatTop.function generalCosine FlatTop.divisor
  rw [if_pos (le_refl 1)]
  norm_num

end Windows
end Verif
