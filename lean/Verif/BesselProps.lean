import Verif.RolloffProps
import Mathlib.Data.Nat.Factorial.DoubleFactorial
import Mathlib.Data.Nat.Choose.Basic

/-
C38: Bessel filters.
-/

namespace Verif
namespace Filter

open Complex (I)

/-- the reverse Bessel polynomials, defined by their recursion -/
noncomputable def reverseBessel : Nat → ℂ → ℂ
  | 0, _ => 1
  | 1, s => s + 1
  | n + 2, s => (2 * n + 3) * reverseBessel (n + 1) s + s ^ 2 * reverseBessel n s

/-- the coefficient of the power `i` in the reverse Bessel polynomial of the order `i + o` as it is computed by the
implementation -/
def besselCoefficient (i o : Nat) : Nat := Nat.factorial (i + o + o) / (2 ^ o * Nat.factorial i * Nat.factorial o)

theorem factorial_double (o : Nat) : (2 * o).factorial = 2 ^ o * o.factorial * (2 * o - 1).doubleFactorial := by
  cases o with
  | zero => rfl
  | succ o =>
    have h := Nat.factorial_eq_mul_doubleFactorial (2 * o + 1)
    rw [show 2 * o + 1 + 1 = 2 * (o + 1) by ring] at h
    rw [h, Nat.doubleFactorial_two_mul, show 2 * (o + 1) - 1 = 2 * o + 1 by omega]

/-- C38: The integer division in the computation of the coefficients does not round. -/
theorem C38_exact (i o : Nat) :
    besselCoefficient i o * (2 ^ o * Nat.factorial i * Nat.factorial o) = Nat.factorial (i + o + o) ∧
      besselCoefficient i o = Nat.choose (i + o + o) i * (2 * o - 1).doubleFactorial := by
  have h := Nat.choose_mul_factorial_mul_factorial (n := i + o + o) (k := i) (by omega)
  rw [show i + o + o - i = 2 * o by omega, factorial_double] at h
  have e : Nat.factorial (i + o + o) =
      Nat.choose (i + o + o) i * (2 * o - 1).doubleFactorial * (2 ^ o * Nat.factorial i * Nat.factorial o) := by
    rw [← h]
    ring
  have hp : 0 < 2 ^ o * Nat.factorial i * Nat.factorial o := by positivity
  have c : besselCoefficient i o = Nat.choose (i + o + o) i * (2 * o - 1).doubleFactorial := by
    unfold besselCoefficient
    rw [e, Nat.mul_div_cancel _ hp]
  exact ⟨by rw [c, ← e], c⟩

example : besselCoefficient 1 2 = 15 ∧ besselCoefficient 0 3 = 15 ∧ besselCoefficient 2 1 = 6 := by decide

theorem coefficient_value (i o : Nat) :
    (besselCoefficient i o : ℂ) = ((i + o + o).factorial : ℂ) / (2 ^ o * i.factorial * o.factorial) := by
  have h := (C38_exact i o).1
  have hp : (2 ^ o * i.factorial * o.factorial : ℂ) ≠ 0 := by
    have : 2 ^ o * i.factorial * o.factorial ≠ 0 := by positivity
    exact_mod_cast this
  rw [eq_div_iff hp]
  exact_mod_cast h

theorem coefficient_pos (i o : Nat) : 0 < besselCoefficient i o := by
  rw [(C38_exact i o).2]
  exact Nat.mul_pos (Nat.choose_pos (by omega)) (Nat.doubleFactorial_pos _)

/-- the recursion of the coefficients -/
theorem coefficient_recursion (i o : Nat) : (besselCoefficient (i + 2) (o + 1) : ℂ) =
    (2 * (i + o + 1) + 3) * besselCoefficient (i + 2) o + besselCoefficient i (o + 1) := by
  rw [coefficient_value, coefficient_value, coefficient_value]
  rw [show i + 2 + (o + 1) + (o + 1) = (i + o + o + 2) + 1 + 1 by omega, show i + 2 + o + o = i + o + o + 2 by omega,
    show i + (o + 1) + (o + 1) = i + o + o + 2 by omega]
  have f1 : (((i + o + o + 2) + 1 + 1).factorial : ℂ) =
      ((i + o + o + 4 : ℂ)) * ((i + o + o + 3)) * ((i + o + o + 2).factorial) := by
    rw [Nat.factorial_succ, Nat.factorial_succ]
    push_cast
    ring
  have f2 : ((i + 2).factorial : ℂ) = (i + 2) * (i + 1) * i.factorial := by
    rw [Nat.factorial_succ, Nat.factorial_succ]
    push_cast
    ring
  have f3 : ((o + 1).factorial : ℂ) = (o + 1) * o.factorial := by
    rw [Nat.factorial_succ]
    push_cast
    ring
  rw [f1, f2, f3, pow_succ]
  have n1 : (i.factorial : ℂ) ≠ 0 := by exact_mod_cast i.factorial_ne_zero
  have n2 : (o.factorial : ℂ) ≠ 0 := by exact_mod_cast o.factorial_ne_zero
  have n3 : (i + 1 : ℂ) ≠ 0 := by exact_mod_cast Nat.succ_ne_zero i
  have n4 : (i + 2 : ℂ) ≠ 0 := by exact_mod_cast Nat.succ_ne_zero (i + 1)
  have n5 : (o + 1 : ℂ) ≠ 0 := by exact_mod_cast Nat.succ_ne_zero o
  field_simp
  ring

theorem coefficient_zero (i : Nat) : besselCoefficient i 0 = 1 := by
  rw [(C38_exact i 0).2]
  simp [Nat.doubleFactorial]

theorem coefficient_first (o : Nat) : (besselCoefficient 0 (o + 1) : ℂ) = (2 * o + 1) * besselCoefficient 0 o := by
  rw [coefficient_value, coefficient_value]
  rw [show 0 + (o + 1) + (o + 1) = (o + o) + 1 + 1 by omega, show 0 + o + o = o + o by omega, Nat.factorial_succ,
    Nat.factorial_succ, Nat.factorial_succ o, pow_succ]
  have n2 : (o.factorial : ℂ) ≠ 0 := by exact_mod_cast o.factorial_ne_zero
  have n5 : (o + 1 : ℂ) ≠ 0 := by exact_mod_cast Nat.succ_ne_zero o
  push_cast
  field_simp
  ring

theorem coefficient_second (o : Nat) : (besselCoefficient 1 (o + 1) : ℂ) = (2 * o + 3) * besselCoefficient 1 o := by
  rw [coefficient_value, coefficient_value]
  rw [show 1 + (o + 1) + (o + 1) = (1 + o + o) + 1 + 1 by omega, Nat.factorial_succ, Nat.factorial_succ,
    Nat.factorial_succ o, pow_succ]
  have n2 : (o.factorial : ℂ) ≠ 0 := by exact_mod_cast o.factorial_ne_zero
  have n5 : (o + 1 : ℂ) ≠ 0 := by exact_mod_cast Nat.succ_ne_zero o
  push_cast
  field_simp
  ring

/-- the coefficients belong to the polynomials, that are defined by the recursion -/
theorem reverseBessel_sum (n : Nat) (s : ℂ) :
    reverseBessel n s = ∑ i ∈ Finset.range (n + 1), (besselCoefficient i (n - i) : ℂ) * s ^ i := by
  induction n using Nat.strong_induction_on with
  | _ n ih =>
    match n, ih with
    | 0, _ => simp [reverseBessel, coefficient_zero]
    | 1, _ =>
      simp only [reverseBessel, Finset.sum_range_succ, Finset.sum_range_zero]
      have : besselCoefficient 0 1 = 1 := by decide
      simp [coefficient_zero, this]
      ring
    | n + 2, ih =>
      rw [reverseBessel, ih (n + 1) (by omega), ih n (by omega)]
      rw [Finset.sum_range_succ' _ (n + 2), Finset.sum_range_succ' _ (n + 1), Finset.sum_range_succ' _ (n + 1),
        Finset.sum_range_succ' _ n, Finset.sum_range_succ _ n]
      rw [mul_add, mul_add, Finset.mul_sum, mul_add, Finset.mul_sum, Finset.sum_range_succ _ n]
      have mid : ∑ i ∈ Finset.range n, (besselCoefficient (i + 1 + 1) (n + 2 - (i + 1 + 1)) : ℂ) * s ^ (i + 1 + 1) =
          ∑ i ∈ Finset.range n, (2 * (n : ℂ) + 3) * ((besselCoefficient (i + 1 + 1) (n + 1 - (i + 1 + 1)) : ℂ) *
              s ^ (i + 1 + 1)) +
            ∑ i ∈ Finset.range n, s ^ 2 * ((besselCoefficient i (n - i) : ℂ) * s ^ i) := by
        rw [← Finset.sum_add_distrib]
        refine Finset.sum_congr rfl fun i hi => ?_
        have hi := Finset.mem_range.mp hi
        obtain ⟨o, rfl⟩ : ∃ o, n = i + o + 1 := ⟨n - i - 1, by omega⟩
        have h := coefficient_recursion i o
        rw [show i + o + 1 + 2 - (i + 1 + 1) = o + 1 by omega, show i + o + 1 + 1 - (i + 1 + 1) = o by omega,
          show i + o + 1 - i = o + 1 by omega, show i + 1 + 1 = i + 2 by omega, h]
        push_cast
        ring
      have last : (besselCoefficient (n + 1 + 1) (n + 2 - (n + 1 + 1)) : ℂ) = besselCoefficient n (n - n) := by
        rw [show n + 2 - (n + 1 + 1) = 0 by omega, show n - n = 0 by omega, coefficient_zero, coefficient_zero]
      have one : (besselCoefficient (0 + 1) (n + 2 - (0 + 1)) : ℂ) =
          (2 * n + 3) * besselCoefficient (0 + 1) (n + 1 - (0 + 1)) := by
        rw [show n + 2 - (0 + 1) = n + 1 by omega, show n + 1 - (0 + 1) = n by omega]
        exact coefficient_second n
      have zero : (besselCoefficient 0 (n + 2 - 0) : ℂ) = (2 * n + 3) * besselCoefficient 0 (n + 1 - 0) := by
        have := coefficient_first (n + 1)
        rw [show n + 2 - 0 = n + 1 + 1 by omega, show n + 1 - 0 = n + 1 by omega, this]
        push_cast
        ring
      rw [mid, last, one, zero]
      ring

theorem reverseBessel_zero (n : Nat) : reverseBessel n 0 = besselCoefficient 0 n := by
  rw [reverseBessel_sum, Finset.sum_range_succ']
  simp

/-- the reverse Bessel polynomials have no zeros on the imaginary axis -/
theorem reverseBessel_ne_zero (n : Nat) (u : ℝ) : reverseBessel n (I * u) ≠ 0 := by
  by_cases hu : u = 0
  · subst hu
    rw [Complex.ofReal_zero, mul_zero, reverseBessel_zero]
    exact_mod_cast (coefficient_pos 0 n).ne'
  have key : ∀ n, (reverseBessel (n + 1) (I * u)).im * (reverseBessel n (I * u)).re -
      (reverseBessel (n + 1) (I * u)).re * (reverseBessel n (I * u)).im = u ^ (2 * n + 1) := by
    intro n
    induction n with
    | zero => simp [reverseBessel]
    | succ n ih =>
      have e : reverseBessel (n + 1 + 1) (I * u) =
          ((2 * n + 3 : ℝ) : ℂ) * reverseBessel (n + 1) (I * u) - ((u ^ 2 : ℝ) : ℂ) * reverseBessel n (I * u) := by
        rw [reverseBessel, mul_pow, Complex.I_sq]
        push_cast
        ring
      rw [e, Complex.sub_im, Complex.sub_re, Complex.re_ofReal_mul, Complex.re_ofReal_mul, Complex.im_ofReal_mul,
        Complex.im_ofReal_mul]
      rw [show 2 * (n + 1) + 1 = 2 + (2 * n + 1) by ring, pow_add, ← ih]
      ring
  intro h
  have := key n
  rw [h] at this
  simp only [Complex.zero_re, Complex.zero_im, mul_zero, sub_zero] at this
  exact pow_ne_zero _ hu this.symm

theorem polyval_range (g : Nat → ℂ) (m : Nat) (x : ℂ) :
    polyval ((List.range (m + 1)).map g) x = ∑ i ∈ Finset.range (m + 1), g (m - i) * x ^ i := by
  induction m with
  | zero => simp [polyval]
  | succ m ih =>
    rw [List.range_succ, List.map_append, polyval_append, ih, Finset.sum_range_succ' _ (m + 1), Finset.sum_mul]
    congr 1
    · refine Finset.sum_congr rfl fun i _ => ?_
      rw [show m + 1 - (i + 1) = m - i by omega]
      simp
      ring
    · simp [polyval]

/-- the coefficients, that are computed by the implementation -/
theorem bessel_coefficients (k : ℝ) (order : Nat) :
    (((pyRange order 0 (-1)).map fun (i : Int) =>
      ((Nat.factorial (order + (order - i.toNat)) / (2 ^ (order - i.toNat) * Nat.factorial i.toNat *
        Nat.factorial (order - i.toNat)) : Nat) : ℝ) /
          ((Nat.factorial (2 * order) / (2 ^ order * Nat.factorial order) : Nat) : ℝ) * k ^ i.toNat) ++ [1]) =
      (List.range (order + 1)).map fun (j : Nat) =>
        (besselCoefficient (order - j) j : ℝ) / besselCoefficient 0 order * k ^ (order - j) := by
  have c0 : Nat.factorial (2 * order) / (2 ^ order * Nat.factorial order) = besselCoefficient 0 order := by
    unfold besselCoefficient
    rw [show 0 + order + order = 2 * order by omega]
    simp
  rw [c0, List.range_succ, List.map_append]
  congr 1
  · unfold pyRange
    rw [if_neg (by omega), show (((order : Int) - 0 + - -1 - 1) / - -1).toNat = order by simp, List.map_map]
    refine List.map_congr_left fun j hj => ?_
    have hj := List.mem_range.mp hj
    simp only [Function.comp]
    rw [show ((order : Int) + j * -1).toNat = order - j by omega, show order - (order - j) = j by omega]
    unfold besselCoefficient
    rw [show order - j + j + j = order + j by omega]
  · have : (besselCoefficient 0 order : ℝ) ≠ 0 := by exact_mod_cast (coefficient_pos 0 order).ne'
    simp [this]

/-- C38: The filter is created without exceptions for all orders. Its transfer function is the inverse of the reverse
Bessel polynomial of the relative frequency, normalised to one at 0 Hz. -/
theorem C38_value (mem : ℂ) (cutoff : ℝ) (hc : 0 < cutoff) (order : Nat) (highpass : Bool) :
    ∃ a, besselFilter cutoff order highpass = .ok a ∧ a.labels = ["Bessel"] ∧
      ∀ f, 0 ≤ f → (highpass = true → f ≠ 0) → a.call complexEnv mem f =
        [some (reverseBessel order 0 / reverseBessel order
          (if highpass then cutoff / (I * f) else I * f / cutoff))] := by
  obtain ⟨k, hk, hk0, hs⟩ := scaling_ok hc highpass
  set cs := (List.range (order + 1)).map fun (j : Nat) =>
        (besselCoefficient (order - j) j : ℝ) / besselCoefficient 0 order * k ^ (order - j) with hcs
  have c0 : (besselCoefficient 0 order : ℂ) ≠ 0 := by exact_mod_cast (coefficient_pos 0 order).ne'
  have hval : ∀ f, 0 ≤ f → (highpass = true → f ≠ 0) → ∃ σ, sValue complexEnv f highpass = some σ ∧
      polyval (cs.map fun (c : ℝ) => (c : ℂ)) σ ≠ 0 ∧ 1 / polyval (cs.map fun (c : ℝ) => (c : ℂ)) σ =
        reverseBessel order 0 / reverseBessel order (if highpass then cutoff / (I * f) else I * f / cutoff) := by
    intro f hf hf0
    obtain ⟨σ, hσ, hkσ⟩ := hs f hf0
    refine ⟨σ, hσ, ?_⟩
    have arg : (if highpass then (cutoff : ℂ) / (I * f) else I * f / cutoff) = I * relative cutoff highpass f := by
      cases highpass with
      | false =>
        simp only [relative, Bool.false_eq_true, if_false]
        push_cast
        ring
      | true =>
        have : (f : ℂ) ≠ 0 := by exact_mod_cast hf0 rfl
        simp only [relative, if_true]
        push_cast
        have hI := Complex.I_ne_zero
        field_simp
        rw [Complex.I_sq]
        ring
    rw [arg]
    have h := reverseBessel_ne_zero order (relative cutoff highpass f)
    have e : polyval (cs.map fun (c : ℝ) => (c : ℂ)) σ =
        reverseBessel order (I * relative cutoff highpass f) / reverseBessel order 0 := by
      rw [hcs, List.map_map, polyval_range, reverseBessel_zero, reverseBessel_sum, Finset.sum_div]
      refine Finset.sum_congr rfl fun i hi => ?_
      have hi := Finset.mem_range.mp hi
      simp only [Function.comp]
      rw [show order - (order - i) = i by omega, ← hkσ]
      push_cast
      ring
    have h0 : reverseBessel order 0 ≠ 0 := by
      rw [reverseBessel_zero]
      exact c0
    rw [e]
    exact ⟨div_ne_zero h h0, one_div_div _ _⟩
  have hb : bessel cutoff order highpass =
      div (.constant 1) (polynomialFactory (cs.map fun (c : ℝ) => (c : ℂ)) highpass) := by
    unfold bessel
    rw [hk, hcs, ← bessel_coefficients]
    rfl
  by_cases ho : order = 0
  · subst ho
    have e : cs.map (fun (c : ℝ) => (c : ℂ)) = [1] := by
      simp [hcs, coefficient_zero]
    refine ⟨Channels.new [.constant 1] ["Bessel"], ?_, single_labels _ _, ?_⟩
    · unfold besselFilter rolloff
      rw [hb, e]
      simp [polynomialFactory, div, Bind.bind, Except.bind]
    · intro f hf _
      rw [call_single mem _ _ f hf]
      simp [usesTransform, eval, reverseBessel]
  · have red : Reduced (cs.map fun (c : ℝ) => (c : ℂ)) := by
      obtain ⟨m, rfl⟩ : ∃ m, order = m + 1 := ⟨order - 1, by omega⟩
      have : ∃ d l, List.range (m + 1 + 1) = 0 :: d :: l := by
        rw [List.range_succ_eq_map, List.range_succ_eq_map]
        exact ⟨_, _, rfl⟩
      obtain ⟨d, l, hl⟩ := this
      rw [hcs, hl]
      refine ⟨_, _, _, rfl, ?_⟩
      apply Complex.ofReal_ne_zero.mpr
      refine mul_ne_zero (div_ne_zero ?_ ?_) (pow_ne_zero _ hk0)
      · exact_mod_cast (coefficient_pos _ _).ne'
      · exact_mod_cast (coefficient_pos _ _).ne'
    refine ⟨Channels.new [.quotient (.constant 1) (.polynomial (cs.map fun (c : ℝ) => (c : ℂ)) highpass) false]
      ["Bessel"], ?_, single_labels _ _, ?_⟩
    · unfold besselFilter rolloff
      rw [hb, polynomialFactory_reduced red]
      simp [div, Bind.bind, Except.bind]
    · intro f hf hf0
      obtain ⟨σ, hσ, hne, hv⟩ := hval f hf hf0
      rw [call_single mem _ _ f hf, if_neg (by
        rintro ⟨h1, h2⟩
        cases highpass with
        | false => simp [usesTransform] at h2
        | true => exact hf0 rfl h1)]
      congr 1
      rw [eval_quotient]
      refine ⟨1, _, rfl, ?_, hne, hv.symm⟩
      rw [eval_polynomial]
      exact ⟨σ, by simpa using hσ, rfl⟩

example : reverseBessel 2 (I * 1) = 2 + 3 * I := by
  simp [reverseBessel, Complex.I_sq]
  ring

/-- C38: The gain of the lowpass filter is one at 0 Hz. -/
theorem C38_gain (mem : ℂ) (cutoff : ℝ) (hc : 0 < cutoff) (order : Nat) :
    ∃ a, besselFilter cutoff order false = .ok a ∧ a.call complexEnv mem 0 = [some 1] := by
  obtain ⟨a, h, _, hv⟩ := C38_value mem cutoff hc order false
  refine ⟨a, h, ?_⟩
  rw [hv 0 le_rfl (by simp)]
  simp only [Bool.false_eq_true, if_false, Complex.ofReal_zero, mul_zero, zero_div]
  rw [div_self]
  rw [reverseBessel_zero]
  exact_mod_cast (coefficient_pos 0 order).ne'

example : (0 : ℝ) < 440 := by norm_num

end Filter
end Verif
