import Verif.WeightingShapeProps
import Mathlib.Analysis.SpecialFunctions.Log.Base

/-
Interval arithmetic with rational numbers, with which the magnitudes of the weighting filters are computed for C137.
-/

namespace Verif
namespace Filter

/-! ### intervals -/

/-- a non-negative number in an interval -/
def Within (i : ℚ × ℚ) (r : ℝ) : Prop := 0 ≤ i.1 ∧ (i.1 : ℝ) ≤ r ∧ r ≤ (i.2 : ℝ)

/-- expressions of the squared frequency and four constants -/
inductive PExp where
  | x
  | q (c : ℚ)
  | p (i : Fin 4)
  | add (a b : PExp)
  | sub (a b : PExp)
  | mul (a b : PExp)

/-- the value of an expression -/
noncomputable def PExp.real (env : Fin 4 → ℝ) (v : ℝ) : PExp → ℝ
  | .x => v
  | .q c => c
  | .p i => env i
  | .add a b => a.real env v + b.real env v
  | .sub a b => a.real env v - b.real env v
  | .mul a b => a.real env v * b.real env v

/-- an interval, which contains the value, unless an expression may be negative -/
def PExp.ival (env : Fin 4 → ℚ × ℚ) (v : ℚ × ℚ) : PExp → Option (ℚ × ℚ)
  | .x => some v
  | .q c => if 0 ≤ c then some (c, c) else none
  | .p i => some (env i)
  | .add a b => match a.ival env v, b.ival env v with
    | some i, some j => some (i.1 + j.1, i.2 + j.2)
    | _, _ => none
  | .sub a b => match a.ival env v, b.ival env v with
    | some i, some j => if j.2 ≤ i.1 then some (i.1 - j.2, i.2 - j.1) else none
    | _, _ => none
  | .mul a b => match a.ival env v, b.ival env v with
    | some i, some j => some (i.1 * j.1, i.2 * j.2)
    | _, _ => none

theorem PExp.sound {env : Fin 4 → ℝ} {ienv : Fin 4 → ℚ × ℚ} (he : ∀ i, Within (ienv i) (env i)) {v : ℝ} {iv : ℚ × ℚ}
    (hv : Within iv v) (e : PExp) : ∀ i, e.ival ienv iv = some i → Within i (e.real env v) := by
  induction e with
  | x =>
    intro i h
    cases h
    exact hv
  | q c =>
    intro i h
    unfold ival at h
    split_ifs at h with h0
    cases h
    exact ⟨h0, le_rfl, le_rfl⟩
  | p k =>
    intro i h
    cases h
    exact he k
  | add a b iha ihb =>
    intro i h
    unfold ival at h
    split at h
    · rename_i i1 i2 h1 h2
      cases h
      obtain ⟨a1, a2, a3⟩ := iha _ h1
      obtain ⟨b1, b2, b3⟩ := ihb _ h2
      refine ⟨add_nonneg a1 b1, ?_, ?_⟩ <;>
      · simp only [real]
        push_cast
        linarith
    · cases h
  | sub a b iha ihb =>
    intro i h
    unfold ival at h
    split at h
    · rename_i i1 i2 h1 h2
      split_ifs at h with h3
      cases h
      obtain ⟨a1, a2, a3⟩ := iha _ h1
      obtain ⟨b1, b2, b3⟩ := ihb _ h2
      refine ⟨sub_nonneg.mpr h3, ?_, ?_⟩ <;>
      · simp only [real]
        push_cast
        linarith
    · cases h
  | mul a b iha ihb =>
    intro i h
    unfold ival at h
    split at h
    · rename_i i1 i2 h1 h2
      cases h
      obtain ⟨a1, a2, a3⟩ := iha _ h1
      obtain ⟨b1, b2, b3⟩ := ihb _ h2
      have a1' : (0 : ℝ) ≤ i1.1 := by exact_mod_cast a1
      have b1' : (0 : ℝ) ≤ i2.1 := by exact_mod_cast b1
      refine ⟨mul_nonneg a1 b1, ?_, ?_⟩
      · simp only [real]
        push_cast
        exact mul_le_mul a2 b2 b1' (a1'.trans a2)
      · simp only [real]
        push_cast
        exact mul_le_mul a3 b3 (b1'.trans b2) ((a1'.trans a2).trans a3)
    · cases h

/-! ### the curves -/

/-- the coefficients of the denominator of the C-weighting and the poles of the A-weighting -/
noncomputable def curveEnv : Fin 4 → ℝ := ![-iecB, iecC, iecF2 ^ 2, iecF3 ^ 2]

/-- intervals, that contain these numbers -/
def curveIntervals : Fin 4 → ℚ × ℚ :=
  ![(148699356.1712085, 148699356.1712086), (63095734448.0193249, 63095734448.0193250),
    (11589.0927598631, 11589.0927598632), (544440.671547133, 544440.671547134)]

/-- intervals for the powers of the fifth root of ten -/
def rootIntervals : Fin 5 → ℚ × ℚ :=
  ![(1, 1), (1.584893192461113485, 1.584893192461113486), (2.511886431509580111, 2.511886431509580112),
    (3.981071705534972507, 3.981071705534972508), (6.309573444801932494, 6.309573444801932495)]

/-- an interval for the square of the frequency `10 ** (k / 10)` -/
def squareInterval (k : Nat) : ℚ × ℚ :=
  let r := rootIntervals ⟨k % 5, Nat.mod_lt _ (by norm_num)⟩
  ((10 ^ (k / 5) : Nat) * r.1, (10 ^ (k / 5) : Nat) * r.2)

/-- the denominator of the C-weighting -/
def cPoles : PExp := .add (.mul .x .x) (.add (.mul (.p 0) .x) (.p 1))

/-- `(a - x) ** 2 + b * x` -/
def resonance (a b : ℚ) : PExp := .sub (.add (.add (.mul .x .x) (.q (a ^ 2))) (.mul (.q b) .x)) (.mul (.q (2 * a)) .x)

/-- the numerators of the squared magnitudes -/
def numerator : Weighting → PExp
  | .a => .mul (.mul .x .x) (.mul .x .x)
  | .b => .mul .x (.mul .x .x)
  | .c => .mul .x .x
  | .d => .mul .x (resonance 1037918.48 1080768.16)
  | .u => .q 1

/-- the denominators of the squared magnitudes -/
def denominator : Weighting → PExp
  | .a => .mul (.mul (.add .x (.p 2)) (.add .x (.p 3))) (.mul cPoles cPoles)
  | .b => .mul (.add .x (.q (158.5 ^ 2))) (.mul cPoles cPoles)
  | .c => .mul cPoles cPoles
  | .d => .mul (.mul (.add .x (.q 79919.29)) (.add .x (.q 1345600))) (resonance 9837328 11723776)
  | .u => .mul (.mul (.mul (.add .x (.q (12200 ^ 2))) (.add .x (.q (12200 ^ 2))))
      (resonance (8800 ^ 2 + 7850 ^ 2) (4 * 7850 ^ 2))) (resonance (12150 ^ 2 + 2900 ^ 2) (4 * 2900 ^ 2))

theorem spec_expression (w : Weighting) (f : ℝ) :
    weightingSpec w f = (numerator w).real curveEnv (f ^ 2) / (denominator w).real curveEnv (f ^ 2) := by
  have hc : (cPoles).real curveEnv (f ^ 2) = f ^ 4 - iecB * f ^ 2 + iecC := by
    simp only [cPoles, PExp.real, curveEnv, Matrix.cons_val]
    ring
  have hr : ∀ a b : ℚ, (resonance a b).real curveEnv (f ^ 2) = (a - f ^ 2) ^ 2 + b * f ^ 2 := by
    intro a b
    simp only [resonance, PExp.real]
    push_cast
    ring
  cases w with
  | a =>
    simp only [weightingSpec, numerator, denominator, PExp.real, hc]
    rw [show curveEnv 2 = iecF2 ^ 2 from rfl, show curveEnv 3 = iecF3 ^ 2 from rfl, div_pow, div_mul_div_comm]
    congr 1 <;> ring
  | b =>
    simp only [weightingSpec, numerator, denominator, PExp.real, hc]
    rw [div_pow, div_mul_div_comm]
    congr 1
    · ring
    · push_cast
      ring
  | c =>
    simp only [weightingSpec, numerator, denominator, PExp.real, hc]
    rw [div_pow]
    congr 1 <;> ring
  | d =>
    simp only [weightingSpec, numerator, denominator, PExp.real, hr]
    rw [div_mul_div_comm]
    congr 1
  | u =>
    simp only [weightingSpec, numerator, denominator, PExp.real, hr]
    rw [Rat.cast_one]
    congr 1
    push_cast
    ring

/-! ### the constants -/

theorem rpow_within {y : ℝ} {n : Nat} (hn : n ≠ 0) (hy : 0 ≤ y) {l u : ℝ} (hl : 0 ≤ l) (hu : 0 ≤ u) (h1 : l ^ n ≤ y ^ n)
    (h2 : y ^ n ≤ u ^ n) : l ≤ y ∧ y ≤ u :=
  ⟨(pow_le_pow_iff_left₀ hl hy hn).mp h1, (pow_le_pow_iff_left₀ hy hu hn).mp h2⟩

theorem ten_rpow_pow (a : ℝ) (n : Nat) : ((10 : ℝ) ^ a) ^ n = (10 : ℝ) ^ (a * n) := by
  rw [← Real.rpow_natCast, ← Real.rpow_mul (by norm_num)]

theorem root_within (j : Fin 5) : Within (rootIntervals j) ((10 : ℝ) ^ ((j : Nat) / 5 : ℝ)) := by
  have h5 : ((10 : ℝ) ^ ((j : Nat) / 5 : ℝ)) ^ 5 = 10 ^ (j : Nat) := by
    rw [ten_rpow_pow, ← Real.rpow_natCast]
    congr 1
    push_cast
    ring
  have hp : (0 : ℝ) ≤ (10 : ℝ) ^ ((j : Nat) / 5 : ℝ) := Real.rpow_nonneg (by norm_num) _
  generalize (10 : ℝ) ^ ((j : Nat) / 5 : ℝ) = y at *
  have key := fun (l u : ℝ) (hl : 0 ≤ l) (hu : 0 ≤ u) (h1 : l ^ 5 ≤ y ^ 5) (h2 : y ^ 5 ≤ u ^ 5) =>
    rpow_within (n := 5) (by norm_num) hp hl hu h1 h2
  rw [h5] at key
  fin_cases j
  all_goals
    refine ⟨by norm_num [rootIntervals], ?_⟩
    apply key <;> norm_num [rootIntervals]

theorem square_within (k : Nat) : Within (squareInterval k) (((10 : ℝ) ^ ((k : ℝ) / 10)) ^ 2) := by
  have e : ((10 : ℝ) ^ ((k : ℝ) / 10)) ^ 2 = ((10 ^ (k / 5) : Nat) : ℝ) * (10 : ℝ) ^ (((k % 5 : Nat) : ℝ) / 5) := by
    have h : (k : ℝ) = 5 * ((k / 5 : Nat) : ℝ) + ((k % 5 : Nat) : ℝ) := by exact_mod_cast (Nat.div_add_mod k 5).symm
    rw [ten_rpow_pow, show ((10 ^ (k / 5) : Nat) : ℝ) = (10 : ℝ) ^ ((k / 5 : Nat) : ℝ) by
      rw [Real.rpow_natCast]; norm_cast, ← Real.rpow_add (by norm_num)]
    congr 1
    generalize ((k / 5 : Nat) : ℝ) = a at *
    generalize ((k % 5 : Nat) : ℝ) = b at *
    rw [h]
    push_cast
    ring
  rw [e]
  obtain ⟨h1, h2, h3⟩ := root_within ⟨k % 5, Nat.mod_lt _ (by norm_num)⟩
  unfold squareInterval
  dsimp only at h1 h2 h3 ⊢
  refine ⟨mul_nonneg (by positivity) h1, ?_, ?_⟩
  · push_cast
    exact mul_le_mul_of_nonneg_left h2 (by positivity)
  · push_cast
    exact mul_le_mul_of_nonneg_left h3 (by positivity)

theorem constants_within (i : Fin 4) : Within (curveIntervals i) (curveEnv i) := by
  obtain ⟨-, r1, r2⟩ := root_within 4
  simp only [rootIntervals, Matrix.cons_val] at r1 r2
  push_cast at r1 r2
  have hH : fH ^ 2 = 10 ^ 7 * (10 : ℝ) ^ ((4 : ℝ) / 5) := by
    unfold fH
    rw [ten_rpow_pow, show (10 : ℝ) ^ 7 = (10 : ℝ) ^ (7 : ℝ) by norm_num, ← Real.rpow_add (by norm_num)]
    norm_num
  have hL : fL ^ 2 = 10 ^ 3 := by
    unfold fL
    rw [ten_rpow_pow, show (10 : ℝ) ^ 3 = (10 : ℝ) ^ (3 : ℝ) by norm_num]
    norm_num
  have r1 : (6.309573444801932494 : ℝ) ≤ (10 : ℝ) ^ ((4 : ℝ) / 5) := by
    refine le_trans ?_ (le_trans r1 (le_of_eq ?_)) <;> norm_num
  have r2 : (10 : ℝ) ^ ((4 : ℝ) / 5) ≤ 6.309573444801932495 := by
    refine le_trans (le_of_eq ?_) (le_trans r2 ?_) <;> norm_num
  generalize (10 : ℝ) ^ ((4 : ℝ) / 5) = r at *
  have s1 : (0.707106781186547524 : ℝ) ≤ Real.sqrt (1 / 2) := Real.le_sqrt_of_sq_le (by norm_num)
  have s2 : Real.sqrt (1 / 2) ≤ 0.707106781186547525 := Real.sqrt_le_iff.mpr ⟨by norm_num, by norm_num⟩
  have t1 : (2.236067977499789696 : ℝ) ≤ Real.sqrt 5 := Real.le_sqrt_of_sq_le (by norm_num)
  have t2 : Real.sqrt 5 ≤ 2.236067977499789697 := Real.sqrt_le_iff.mpr ⟨by norm_num, by norm_num⟩
  have t3 : Real.sqrt 5 ^ 2 = 5 := Real.sq_sqrt (by norm_num)
  have w10 : ((10 : ℝ) ^ ((9 : ℝ) / 10)) ^ 10 = 10 ^ 9 := by
    rw [ten_rpow_pow]
    norm_num
  have wp : (0 : ℝ) ≤ (10 : ℝ) ^ ((9 : ℝ) / 10) := Real.rpow_nonneg (by norm_num) _
  have hF : ((10 : ℝ) ^ (2.45 : ℝ)) ^ 2 = 10 ^ 4 * (10 : ℝ) ^ ((9 : ℝ) / 10) := by
    rw [ten_rpow_pow, show (10 : ℝ) ^ 4 = (10 : ℝ) ^ (4 : ℝ) by norm_num, ← Real.rpow_add (by norm_num)]
    norm_num
  obtain ⟨w1, w2⟩ := rpow_within (n := 10) (by norm_num) wp (l := 7.943282347242815020) (u := 7.943282347242815021)
    (by norm_num) (by norm_num) (by rw [w10]; norm_num) (by rw [w10]; norm_num)
  generalize (10 : ℝ) ^ ((9 : ℝ) / 10) = w at *
  have e2 : iecF2 ^ 2 = (7 / 2 - 3 / 2 * Real.sqrt 5) * (10 ^ 4 * w) := by
    unfold iecF2
    rw [mul_pow, hF]
    linear_combination (10 ^ 4 * w / 4) * t3
  have e3 : iecF3 ^ 2 = (7 / 2 + 3 / 2 * Real.sqrt 5) * (10 ^ 4 * w) := by
    unfold iecF3
    rw [mul_pow, hF]
    linear_combination (10 ^ 4 * w / 4) * t3
  have eC : iecC = 10 ^ 10 * r := by
    unfold iecC
    rw [hH, hL]
    ring
  have eB : -iecB = (Real.sqrt (1 / 2) * (10 ^ 3 + 10 ^ 7 * r) - 10 ^ 6 - 10 ^ 4 * r) / (1 - Real.sqrt (1 / 2)) := by
    unfold iecB
    rw [hH, hL, ← neg_div]
    congr 1
    ring
  generalize Real.sqrt (1 / 2) = s at *
  generalize Real.sqrt 5 = t at *
  fin_cases i
  · refine ⟨by norm_num [curveIntervals], ?_, ?_⟩
    · simp only [curveIntervals, curveEnv, Fin.zero_eta, Matrix.cons_val]
      rw [eB, le_div_iff₀ (by linarith)]
      push_cast
      nlinarith [mul_nonneg (sub_nonneg.mpr s1) (sub_nonneg.mpr r1)]
    · simp only [curveIntervals, curveEnv, Fin.zero_eta, Matrix.cons_val]
      rw [eB, div_le_iff₀ (by linarith)]
      push_cast
      nlinarith [mul_nonneg (sub_nonneg.mpr s2) (sub_nonneg.mpr r2), mul_nonneg (sub_nonneg.mpr s2) (sub_nonneg.mpr r1)]
  · refine ⟨by norm_num [curveIntervals], ?_, ?_⟩ <;>
    · simp only [curveIntervals, curveEnv, Fin.mk_one, Matrix.cons_val]
      rw [eC]
      push_cast
      linarith
  · refine ⟨by norm_num [curveIntervals], ?_, ?_⟩
    · simp only [curveIntervals, curveEnv, Fin.reduceFinMk, Matrix.cons_val]
      rw [e2]
      push_cast
      nlinarith [mul_nonneg (sub_nonneg.mpr t2) (sub_nonneg.mpr w1)]
    · simp only [curveIntervals, curveEnv, Fin.reduceFinMk, Matrix.cons_val]
      rw [e2]
      push_cast
      nlinarith [mul_nonneg (sub_nonneg.mpr t1) (sub_nonneg.mpr w1)]
  · refine ⟨by norm_num [curveIntervals], ?_, ?_⟩
    · simp only [curveIntervals, curveEnv, Fin.reduceFinMk, Matrix.cons_val]
      rw [e3]
      push_cast
      nlinarith [mul_nonneg (sub_nonneg.mpr t1) (sub_nonneg.mpr w1)]
    · simp only [curveIntervals, curveEnv, Fin.reduceFinMk, Matrix.cons_val]
      rw [e3]
      push_cast
      nlinarith [mul_nonneg (sub_nonneg.mpr t2) (sub_nonneg.mpr w1), mul_nonneg (sub_nonneg.mpr t1) (sub_nonneg.mpr w1)]

end Filter
end Verif
