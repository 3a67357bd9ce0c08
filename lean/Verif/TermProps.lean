import Verif.TermExpression
import Mathlib.Analysis.SpecialFunctions.Log.Base
import Mathlib.Analysis.SpecialFunctions.Complex.Log
import Mathlib.Tactic.NormNum

/-
C31: Arithmetic of filter terms
C32: Lowpass-to-highpass transform
C34: Equality of filter terms
-/

namespace Verif
namespace Filter

open Interpolation (Mode Logs)

/-- the functions, that are used by the implementation -/
noncomputable def complexEnv : Env ℝ ℂ where
  s f := 2 * Complex.I * Real.pi * f
  exp := Complex.exp
  abs z := (‖z‖ : ℝ)
  log := ⟨Real.logb 2, fun z => Complex.log z / Complex.log 2, fun z => Complex.exp (z * Complex.log 2)⟩

theorem complexEnv_lawful : complexEnv.Lawful where
  abs_abs x := by simp [complexEnv]
  abs_zero := by simp [complexEnv]
  exp_zero := by simp [complexEnv]
  exp_neg x := by
    show Complex.exp (-x) * Complex.exp x = 1
    rw [← Complex.exp_add]
    simp

theorem complexEnv_s {f : ℝ} (hf : 0 < f) : complexEnv.s f ≠ 0 := by
  have h1 : (Real.pi : ℂ) ≠ 0 := by exact_mod_cast Real.pi_ne_zero
  have h2 : (f : ℂ) ≠ 0 := by exact_mod_cast hf.ne'
  simp [complexEnv, h1, h2]

/-! ### C31 -/

/-- C31: A term, that is built with the constructors and the operators, evaluates to the value of the expression at
every frequency greater than zero. Missing: terms with both differences and transforms, bands, that are interpolated with
other functions than zeros and stairs (see `C31_bands_violated`), empty bands and empty products. -/
theorem C31_arithmetic_partial (n : Nat) (d : Bool) (e : Expr ℝ ℂ) (he : PlainExpr d e) (r : Term ℝ ℂ)
    (h : build complexEnv n e = .ok r) (f : ℝ) (hf : 0 < f) (x : ℂ)
    (hx : denote complexEnv f (2 * Complex.I * Real.pi * f) e = some x) : eval complexEnv f false r = some x :=
  (expression complexEnv_lawful n he r h).2 f (complexEnv_s hf) false x hx

/-- The hypotheses can be satisfied: `(Polynomial((1, 2)) + Exp(3)) / Constant(2) - Polynomial((1, 2))` is plain. -/
example : PlainExpr true (.sub (.div (.add (.polynomial [1, 2] false) (.exp 3 false)) (.constant 2))
    (.polynomial [1, 2] false) : Expr ℝ ℂ) :=
  .sub _ _ (.div _ _ (.add _ _ (.polynomial _ _ fun _ => rfl) (.exp _ _ fun _ => rfl)) (.constant _))
    (.polynomial _ _ fun _ => rfl) rfl

example : ∃ r, build complexEnv 5 (.sub (.div (.add (.polynomial [1, 2] false) (.exp 3 false)) (.constant 2))
    (.polynomial [1, 2] false) : Expr ℝ ℂ) = .ok r := by
  refine ⟨.difference (.quotient (.sum [.polynomial [1, 2] false, .exp 3 false] false) (.constant 2) false)
    (.polynomial [1, 2] false) false, ?_⟩
  simp [build, polynomialFactory, expFactory, add, div, sub, Bind.bind, Except.bind]

/-- C31: The operators on plain terms compute the operations on the values and their results are plain again. -/
theorem C31_operators_partial (n : Nat) (d : Bool) (a b : Term ℝ ℂ) (ha : Plain d a) (hb : Plain d b) (f : ℝ) (t : Bool)
    (x y : ℂ) (hx : eval complexEnv f t a = some x) (hy : eval complexEnv f t b = some y) :
    (∀ r, add complexEnv n a b = .ok r → eval complexEnv f t r = some (x + y)) ∧
    (∀ r, sub complexEnv n a b = .ok r → eval complexEnv f t r = some (x - y)) ∧
    (∀ r, mul complexEnv n a b = .ok r → eval complexEnv f t r = some (x * y)) ∧
    (∀ r, div a b = .ok r → y ≠ 0 → eval complexEnv f t r = some (x / y)) ∧
    (∀ r, negate complexEnv n a = .ok r → eval complexEnv f t r = some (-x)) ∧
    eval complexEnv f t (a.abs complexEnv) = some ((‖x‖ : ℝ) : ℂ) ∧
    (∀ r, a.invert = .ok r → x ≠ 0 → eval complexEnv f t r = some (1 / x)) := by
  have S := sound complexEnv_lawful n
  refine ⟨?_, ?_, ?_, ?_, ?_, ?_, ?_⟩
  · intro r h
    exact (S.add d a b r ha hb h).2 f t x y hx hy
  · intro r h
    exact (sound_sub complexEnv_lawful n d a b r ha hb h).2 f t x y hx hy
  · intro r h
    exact (S.mul d a b r ha hb h).2 f t x y hx hy
  · intro r h h0
    exact (sound_div d a b r ha hb h).2 f t x y hx hy h0
  · intro r h
    exact (S.neg d a r ha h).2 f t x hx
  · exact (abs_sound complexEnv_lawful ha).2 f t x hx
  · intro r h h0
    exact (sound_invert complexEnv_lawful d a r ha h).2 f t x hx h0

/-- The hypotheses can be satisfied with terms, that are not simplified. -/
example (f : ℝ) : Plain false (.quotient (.constant 2) (.exp 1 true) true : Term ℝ ℂ) ∧
    eval complexEnv f false (.quotient (.constant 2) (.exp 1 true) true : Term ℝ ℂ) =
      some (2 / Complex.exp (2 * Complex.I * Real.pi * f)) := by
  refine ⟨.quotient _ _ _ (.constant _) (.exp _ _ (by simp)) (by simp), ?_⟩
  rw [eval_quotient]
  refine ⟨2, _, by rw [eval_constant], ?_, Complex.exp_ne_zero _, rfl⟩
  rw [eval_exp]
  exact ⟨_, rfl, by simp [complexEnv]⟩

theorem bands_between (E : Env ℝ ℂ) (a b : ℂ) : bandsAt E 2 [1, 3] [a, b] .one .zero = some 1 := by
  simp [bandsAt, Interpolation.scalar, Interpolation.decorateScalar, Interpolation.funcScalar, Interpolation.oneScalar,
    value]
  norm_num

/-- C31 is violated by bands: The sum of two bands, that are interpolated with ones, is interpolated with ones, although
the sum of the values is two. -/
theorem C31_bands_violated (n : Nat) :
    ∃ (e : Expr ℝ ℂ) (r : Term ℝ ℂ), build complexEnv (n + 1) e = .ok r ∧
      denote complexEnv 2 (2 * Complex.I * Real.pi * (2 : ℝ)) e = some 2 ∧ eval complexEnv 2 false r = some 1 := by
  refine ⟨.add (.bands [1, 3] [1, 1] .one .zero) (.bands [1, 3] [1, 1] .one .zero),
    .bands [1, 3] [1 + 1, 1 + 1] .one .zero, ?_, ?_, ?_⟩
  · simp [build, add, bandsOp, broadcast, mkBands, Bind.bind, Except.bind]
  · have e1 : (if Mode.zero = Mode.stairsLog then Mode.stairsLin else Mode.zero) = Mode.zero := rfl
    simp only [denote, e1, bands_between]
    norm_num
  · rw [eval_bands]
    exact bands_between _ _ _

theorem linear_between (E : Env ℝ ℂ) (b : ℂ) : bandsAt E 2 [1, 3] [0, b] .linear .zero = some (b / 2) := by
  simp [bandsAt, Interpolation.scalar, Interpolation.decorateScalar, Interpolation.funcScalar,
    Interpolation.linearScalar, Interpolation.interp, Interpolation.item, Bind.bind, Except.bind, value]
  norm_num
  show some (1 / 2 * b) = some (b / 2)
  congr 1
  ring

/-- C31 is violated by bands: The product of two bands, that are interpolated linearly, is interpolated linearly,
although the product of the values has a quadratic shape. -/
theorem C31_linear_bands_violated (n : Nat) :
    ∃ (e : Expr ℝ ℂ) (r : Term ℝ ℂ), build complexEnv (n + 1) e = .ok r ∧
      denote complexEnv 2 (2 * Complex.I * Real.pi * (2 : ℝ)) e = some 1 ∧ eval complexEnv 2 false r = some 2 := by
  refine ⟨.mul (.bands [1, 3] [0, 2] .linear .zero) (.bands [1, 3] [0, 2] .linear .zero),
    .bands [1, 3] [0 * 0, 2 * 2] .linear .zero, ?_, ?_, ?_⟩
  · simp [build, mul, bandsOp, broadcast, mkBands, Bind.bind, Except.bind]
  · have e1 : (if Mode.zero = Mode.stairsLog then Mode.stairsLin else Mode.zero) = Mode.zero := rfl
    simp only [denote, e1, linear_between]
    norm_num
  · rw [eval_bands, mul_zero, linear_between]
    norm_num

/-- C31 is violated by products with bands: bands, that are interpolated with ones, are considered to be zero, when their
supporting points are zero, so a product with them is replaced by zero, although their value is one. -/
theorem C31_zero_bands_violated (n : Nat) :
    ∃ (e : Expr ℝ ℂ) (r : Term ℝ ℂ), build complexEnv (n + 2) e = .ok r ∧
      denote complexEnv 2 (2 * Complex.I * Real.pi * (2 : ℝ)) e = some 3 ∧ eval complexEnv 2 false r = some 0 := by
  refine ⟨.product [.bands [1, 3] [0, 0] .one .zero, .constant 3] false, .constant 0, ?_, ?_, ?_⟩
  · simp [build, buildList, productFactory, anyM, isZero, mkBands, Bind.bind, Except.bind]
  · have e1 : (if Mode.zero = Mode.stairsLog then Mode.stairsLin else Mode.zero) = Mode.zero := rfl
    simp only [denote, denoteList, e1, bands_between]
    norm_num
  · rw [eval_constant]

/-! ### C32 -/

/-- the functions, with `1 / s` instead of `s` -/
noncomputable def Env.reciprocal {α K : Type} [Field K] (E : Env α K) : Env α K := { E with s := fun f => (E.s f)⁻¹ }

/-- C32: For every term, evaluating it with the flag of the transformed `s` is evaluating it with `1 / s` instead of
`s`. -/
theorem C32_transformed_evaluation {α K : Type} [Field α] [LinearOrder α] [Field K] [DecidableEq K] [Module α K]
    (E : Env α K) (f : α) (hf : E.s f ≠ 0) (t : Bool) (a : Term α K) :
    eval E f (!t) a = eval E.reciprocal f t a := by
  have hs : ∀ t tr : Bool, sValue E f (!t ^^ tr) = sValue E.reciprocal f (t ^^ tr) := by
    intro t tr
    cases t <;> cases tr <;> simp [sValue, Env.reciprocal, hf]
  have hx : ∀ t tr : Bool, (!t ^^ tr) = !(t ^^ tr) := by
    intro t tr
    cases t <;> cases tr <;> rfl
  suffices ∀ t, eval E f (!t) a = eval E.reciprocal f t a from this t
  refine Term.rec (motive_1 := fun a => ∀ t, eval E f (!t) a = eval E.reciprocal f t a)
    (motive_2 := fun l => ∀ t, evalList E f (!t) l = evalList E.reciprocal f t l) ?_ ?_ ?_ ?_ ?_ ?_ ?_ ?_ ?_ ?_ ?_ ?_ a
  · intro v t
    simp only [eval]
  · intro cs tr t
    simp only [eval, hs]
  · intro c tr t
    simp only [eval, hs]
    rfl
  · intro xs ys i e t
    simp only [eval]
    rfl
  · intro v tr ih t
    simp only [eval, hx, ih]
    rfl
  · intro v tr ih t
    simp only [eval, hx, ih]
  · intro l tr ih t
    simp only [eval, hx, ih]
  · intro m s tr ihm ihs t
    simp only [eval, hx, ihm, ihs]
  · intro l tr ih t
    simp only [eval, hx, ih]
  · intro m s tr ihm ihs t
    simp only [eval, hx, ihm, ihs]
  · intro t
    simp only [evalList]
  · intro a l iha ihl t
    simp only [evalList, iha, ihl]

/-- C32: `invert_transform` replaces `s` by `1 / s`. Missing: terms with differences, see
`C32_difference_violated`; bands, that are not interpolated with zeros or stairs. -/
theorem C32_invert_transform_partial (n : Nat) (a r : Term ℝ ℂ) (ha : Plain false a)
    (h : invertTransform complexEnv n a = .ok r) (f : ℝ) (hf : 0 < f) (x : ℂ)
    (hx : eval complexEnv.reciprocal f false a = some x) : eval complexEnv f false r = some x := by
  refine ((sound complexEnv_lawful n).inv a r ha h).2 f false x ?_
  rw [C32_transformed_evaluation complexEnv f (complexEnv_s hf)]
  exact hx

/-- The hypotheses can be satisfied: the inversion of a transformed sum of three terms -/
example : ∃ r, invertTransform complexEnv 5 (.sum [.polynomial [1, 2] true, .exp 1 false, .constant 2] true) = .ok r ∧
    Plain false (.sum [.polynomial [1, 2] true, .exp 1 false, .constant 2] true : Term ℝ ℂ) := by
  refine ⟨.sum [.polynomial [1, 2] true, .exp 1 false, .constant 2] false, ?_, .sum _ _ ?_ (by simp)⟩
  · simp [invertTransform, sumFactory, dropZeros, isZero, Bind.bind, Except.bind]
  intro a ha
  simp only [List.mem_cons, List.not_mem_nil, or_false] at ha
  rcases ha with rfl | rfl | rfl
  · exact .polynomial _ _ (by simp) (by simp)
  · exact .exp _ _ (by simp)
  · exact .constant _

/-- C32: The constructors, that are called with the flag `transform`, replace `s` by `1 / s`. Missing: as for
`C32_invert_transform_partial`. -/
theorem C32_constructors_partial (n : Nat) (f : ℝ) (hf : 0 < f) (x : ℂ) :
    (∀ cs r, build complexEnv n (.polynomial cs true) = .ok r →
      eval complexEnv.reciprocal f false (.polynomial cs false) = some x → eval complexEnv f false r = some x) ∧
    (∀ c r, build complexEnv n (.exp c true) = .ok r →
      eval complexEnv.reciprocal f false (.exp c false) = some x → eval complexEnv f false r = some x) ∧
    (∀ v r, Plain false v → absoluteFactory complexEnv n v true = .ok r →
      eval complexEnv.reciprocal f false (.absolute v false) = some x → eval complexEnv f false r = some x) ∧
    (∀ v r, Plain false v → negativeFactory complexEnv n v true = .ok r →
      eval complexEnv.reciprocal f false (.negative v false) = some x → eval complexEnv f false r = some x) ∧
    (∀ l r, (∀ a ∈ l, Plain false a) → sumFactory complexEnv n l true = .ok r →
      eval complexEnv.reciprocal f false (.sum l false) = some x → eval complexEnv f false r = some x) ∧
    (∀ l r, (∀ a ∈ l, Plain false a) → productFactory complexEnv n l true = .ok r →
      eval complexEnv.reciprocal f false (.product l false) = some x → eval complexEnv f false r = some x) ∧
    (∀ a b r, Plain false a → Plain false b → quotientFactory n a b true = .ok r →
      eval complexEnv.reciprocal f false (.quotient a b false) = some x → eval complexEnv f false r = some x) := by
  have S := sound complexEnv_lawful n
  have hs := complexEnv_s hf
  have hd : ∀ tr : Bool, (false : Bool) = true → tr = false := by simp
  refine ⟨?_, ?_, ?_, ?_, ?_, ?_, ?_⟩
  · intro cs r h hx
    cases h
    rw [← C32_transformed_evaluation _ _ hs] at hx
    obtain ⟨s, h1, rfl⟩ := (eval_polynomial ..).mp hx
    rw [(polynomialFactory_sound (d := false) cs true (hd _)).2 f hs]
    have : sValue complexEnv f (false ^^ true) = some s := h1
    rw [sValue_sOf hs] at this
    rw [Option.some.inj this]
  · intro c r h hx
    rw [← C32_transformed_evaluation _ _ hs] at hx
    obtain ⟨s, h1, rfl⟩ := (eval_exp ..).mp hx
    refine (expression complexEnv_lawful n (PlainExpr.exp (d := false) c true (hd _)) r h).2 f hs false _ ?_
    have : sValue complexEnv f true = some s := h1
    rw [sValue_sOf hs] at this
    simp only [denote, ← Option.some.inj this]
    rfl
  · intro v r hv h hx
    rw [← C32_transformed_evaluation _ _ hs] at hx
    refine (S.absF false v true r hv (hd _) h).2 f false x ?_
    rw [eval_absolute] at *
    exact hx
  · intro v r hv h hx
    rw [← C32_transformed_evaluation _ _ hs] at hx
    refine (S.negF false v true r hv (hd _) h).2 f false x ?_
    rw [eval_negative] at *
    exact hx
  · intro l r hl h hx
    rw [← C32_transformed_evaluation _ _ hs] at hx
    refine (S.sumF false l true r hl (hd _) h).2 f false x ?_
    rw [eval_sum] at *
    exact hx
  · intro l r hl h hx
    rw [← C32_transformed_evaluation _ _ hs] at hx
    refine (S.prodF false l true r hl (hd _) h).2 f false x ?_
    by_cases h0 : l = []
    · subst h0
      rw [eval_product_nil] at *
      exact hx
    · rw [eval_product _ _ _ _ h0] at *
      exact hx
  · intro a b r ha hb h hx
    rw [← C32_transformed_evaluation _ _ hs] at hx
    refine (quotientFactory_sound complexEnv_lawful ha hb (hd _) h).2 f false x ?_
    rw [eval_quotient] at *
    exact hx

/-- The hypotheses can be satisfied. -/
example : ∃ r : Term ℝ ℂ, quotientFactory 5 (.constant 1) (.polynomial [1, 2] false) true = .ok r ∧
    Plain false (.polynomial [1, 2] false : Term ℝ ℂ) := by
  refine ⟨.quotient (.constant 1) (.polynomial [1, 2] false) true, ?_, .polynomial _ _ (by simp) (by simp)⟩
  simp [quotientFactory, isZero, termEq, constantEq, Bind.bind, Except.bind]

theorem s_one : complexEnv.s 1 ≠ 0 ∧ (complexEnv.s 1)⁻¹ ≠ complexEnv.s 1 := by
  have h0 := complexEnv_s (f := 1) one_pos
  refine ⟨h0, ?_⟩
  intro h
  have h1 : complexEnv.s 1 * complexEnv.s 1 = 1 := by
    nth_rw 1 [← h]
    exact inv_mul_cancel₀ h0
  have h2 : complexEnv.s 1 * complexEnv.s 1 = ((-(4 * (Real.pi * Real.pi)) : ℝ) : ℂ) := by
    have : complexEnv.s 1 = 2 * Complex.I * Real.pi := by simp [complexEnv]
    rw [this]
    have : (2 * Complex.I * (Real.pi : ℂ)) * (2 * Complex.I * (Real.pi : ℂ)) =
        4 * (Complex.I * Complex.I) * ((Real.pi : ℂ) * (Real.pi : ℂ)) := by ring
    rw [this, Complex.I_mul_I]
    push_cast
    ring
  rw [h2] at h1
  have h3 : -(4 * (Real.pi * Real.pi)) = 1 := by exact_mod_cast h1
  have := mul_self_nonneg Real.pi
  linarith

/-- C32 is violated by differences: with `transform=True` and a minuend, that is zero, the transform is forgotten. -/
theorem C32_difference_violated (n : Nat) :
    ∃ (e : Expr ℝ ℂ) (r : Term ℝ ℂ) (x y : ℂ), build complexEnv (n + 2) e = .ok r ∧
      denote complexEnv 1 (complexEnv.s 1) e = some x ∧ eval complexEnv 1 false r = some y ∧ x ≠ y := by
  refine ⟨.difference (.constant 0) (.polynomial [1, 0] false) true, .negative (.polynomial [1, 0] false) false,
    -(complexEnv.s 1)⁻¹, -complexEnv.s 1, ?_, ?_, ?_, ?_⟩
  · simp [build, polynomialFactory, differenceFactory, isZero, negate, Bind.bind, Except.bind]
  · simp [denote]
  · rw [eval_negative, neg_neg, eval_polynomial]
    exact ⟨complexEnv.s 1, rfl, by simp [polyval]⟩
  · intro h
    exact s_one.2 (neg_injective h)

/-- C32 is violated by differences: `invert_transform` of a difference, which is the result of a subtraction, does not
change the transform, if the minuend is zero. -/
theorem C32_invert_transform_violated (n : Nat) :
    ∃ (e : Expr ℝ ℂ) (a r : Term ℝ ℂ) (x y : ℂ), build complexEnv (n + 1) e = .ok a ∧
      invertTransform complexEnv (n + 3) a = .ok r ∧
      eval complexEnv.reciprocal 1 false a = some x ∧ eval complexEnv 1 false r = some y ∧ x ≠ y := by
  refine ⟨.sub (.sub (.polynomial [1, 0] false) (.polynomial [1, 0] false)) (.polynomial [1, 0] true),
    .difference (.polynomial [0, 0] false) (.polynomial [1, 0] true) false,
    .negative (.polynomial [1, 0] true) false, -complexEnv.s 1, -(complexEnv.s 1)⁻¹, ?_, ?_, ?_, ?_, ?_⟩
  · simp [build, polynomialFactory, sub, polyop, Bind.bind, Except.bind]
  · simp [invertTransform, differenceFactory, isZero, negate, Bind.bind, Except.bind]
  · rw [eval_difference]
    refine ⟨0, complexEnv.s 1, ?_, ?_, by simp⟩
    · rw [eval_polynomial]
      exact ⟨_, rfl, by simp [polyval]⟩
    · rw [eval_polynomial]
      refine ⟨complexEnv.s 1, ?_, by simp [polyval]⟩
      simp [sValue, Env.reciprocal, s_one.1]
  · rw [eval_negative, neg_neg, eval_polynomial]
    refine ⟨(complexEnv.s 1)⁻¹, ?_, by simp [polyval]⟩
    simp [sValue, s_one.1]
  · intro h
    exact s_one.2 (neg_injective h).symm

/-! ### C34 -/

/-- C34: Plain terms, that compare equal, have the same values. Missing: bands, that are not interpolated with zeros or
stairs (see `C34_values_violated`), terms with both differences and transforms. -/
theorem C34_values_partial (n : Nat) (d : Bool) (a b : Term ℝ ℂ) (ha : Plain d a) (hb : Plain d b)
    (h : termEq n a b = .ok true) (f : ℝ) (t : Bool) (x y : ℂ) (hx : eval complexEnv f t a = some x)
    (hy : eval complexEnv f t b = some y) : x = y :=
  (checks_sound complexEnv_lawful n).2 d a b ha hb h f t x y hx hy

/-- C34: Plain terms, that are recognized as zero, have the value zero. Missing: as for `C34_values_partial`. -/
theorem C34_is_zero_partial (n : Nat) (d : Bool) (a : Term ℝ ℂ) (ha : Plain d a)
    (h : isZero n a = .ok true) (f : ℝ) (t : Bool) (x : ℂ) (hx : eval complexEnv f t a = some x) : x = 0 :=
  (checks_sound complexEnv_lawful n).1 d a ha h f t x hx

/-- The hypotheses can be satisfied with different terms. -/
example : termEq 5 (.constant 0) (.difference (.exp 1 false) (.exp 1 false) false : Term ℝ ℂ) = .ok true ∧
    Plain true (.difference (.exp 1 false) (.exp 1 false) false : Term ℝ ℂ) := by
  constructor
  · simp [termEq, isZero, Bind.bind, Except.bind]
  · exact .difference _ _ (.exp _ _ fun _ => rfl) (.exp _ _ fun _ => rfl) rfl

/-- terms, that do not contain the constant zero -/
inductive NoZero {α K : Type} [Zero K] : Term α K → Prop where
  | constant (v : K) (h : v ≠ 0) : NoZero (.constant v)
  | polynomial (cs : List K) (tr : Bool) : NoZero (.polynomial cs tr)
  | exp (c : K) (tr : Bool) : NoZero (.exp c tr)
  | bands (xs : List α) (ys : List K) (i e : Mode) : NoZero (.bands xs ys i e)
  | absolute (v : Term α K) (tr : Bool) (hv : NoZero v) : NoZero (.absolute v tr)
  | negative (v : Term α K) (tr : Bool) (hv : NoZero v) : NoZero (.negative v tr)
  | sum (l : List (Term α K)) (tr : Bool) (hl : ∀ a ∈ l, NoZero a) : NoZero (.sum l tr)
  | difference (m s : Term α K) (tr : Bool) (hm : NoZero m) (hs : NoZero s) : NoZero (.difference m s tr)
  | product (l : List (Term α K)) (tr : Bool) (hl : ∀ a ∈ l, NoZero a) : NoZero (.product l tr)
  | quotient (m s : Term α K) (tr : Bool) (hm : NoZero m) (hs : NoZero s) : NoZero (.quotient m s tr)

theorem bool_ok {b : Bool} {p : Prop} [Decidable p] (h : (if b then .ok (decide p) else .ok false) = (.ok true : Py Bool)) :
    b = true ∧ p := by
  cases b with
  | false => cases h
  | true =>
    refine ⟨rfl, ?_⟩
    have := ok_inj h
    simpa using this

theorem zip_eq {β : Type} {l l' : List β} (hl : l.length = l'.length) (h : ∀ p ∈ l.zip l', p.1 = p.2) : l = l' := by
  induction l generalizing l' with
  | nil =>
    cases l' with
    | nil => rfl
    | cons b l' => simp at hl
  | cons a l ih =>
    cases l' with
    | nil => simp at hl
    | cons b l' =>
      have e : a = b := h (a, b) (by simp)
      rw [e, ih (by simpa using hl) fun p hp => h p (by simp [hp])]

theorem equal_structure {α K : Type} [Field α] [LinearOrder α] [Field K] [DecidableEq K] [Module α K] (n : Nat) :
    ∀ (d : Bool) (a b : Term α K), Plain d a → Plain d b → NoZero a → termEq n a b = .ok true → a = b := by
  induction n with
  | zero =>
    intro d a b _ _ _ h
    simp [termEq] at h
  | succ n ih =>
    intro d a b ha hb h0 h
    have list : ∀ l l' : List (Term α K), (∀ a ∈ l, Plain d a) → (∀ a ∈ l', Plain d a) → (∀ a ∈ l, NoZero a) →
        l.length = l'.length →
        allM (fun p : Term α K × Term α K => termEq n p.1 p.2) (l.zip l') = .ok true → l = l' := by
      intro l l' h1 h2 h3 h4 h5
      refine zip_eq h4 fun p hp => ?_
      obtain ⟨m1, m2⟩ := List.of_mem_zip (show (p.1, p.2) ∈ l.zip l' from hp)
      exact ih d p.1 p.2 (h1 _ m1) (h2 _ m2) (h3 _ m1) (allM_true h5 p hp)
    cases h0 with
    | constant v hv =>
      replace h : (if v = 0 then _ else constantEq v b) = (.ok true : Py Bool) := h
      rw [if_neg hv] at h
      cases b with
      | constant w =>
        have h := ok_inj h
        rw [show v = w by simpa using h]
      | _ => cases h
    | polynomial cs tr =>
      cases b with
      | polynomial cs' tr' =>
        have h := ok_inj h
        obtain ⟨_, rfl, rfl⟩ : cs.length = cs'.length ∧ cs = cs' ∧ tr = tr' := by simpa using h
        rfl
      | _ => cases h
    | exp c tr =>
      cases b with
      | exp c' tr' =>
        have h := ok_inj h
        obtain ⟨rfl, rfl⟩ : c = c' ∧ tr = tr' := by simpa using h
        rfl
      | _ => cases h
    | bands xs ys i e =>
      cases b with
      | bands xs' ys' i' e' =>
        cases ha with
        | bands _ _ _ _ hx hs hl hi he hne =>
          cases hb with
          | bands _ _ _ _ hx' hs' hl' hi' he' hne' =>
            replace h : bandsEq xs ys i e xs' ys' i' e' = (.ok true : Py Bool) := h
            unfold bandsEq at h
            by_cases hm : i ≠ i' ∨ e ≠ e'
            · rw [if_pos hm] at h
              cases h
            · rw [if_neg hm] at h
              obtain ⟨rfl, rfl⟩ : i = i' ∧ e = e' := by simpa using hm
              replace h := bind_ok h
              obtain ⟨c, h1, h⟩ := h
              cases c with
              | true => cases h
              | false =>
                have e1 := notEqualAny_false hx hx' hs.nodup hs'.nodup h1
                subst e1
                obtain ⟨c, h2, h3⟩ := bind_ok h
                cases c with
                | true => cases h3
                | false => rw [notEqualAny_false_length (hl.symm.trans hl') h2]
      | _ => cases h
    | absolute v tr hv =>
      cases b with
      | absolute v' tr' =>
        cases ha with
        | absolute _ _ pv _ =>
          cases hb with
          | absolute _ _ pv' _ =>
            obtain ⟨c, h1, h⟩ := bind_ok (show (termEq n v v' >>= fun b =>
              if b then .ok (decide (tr = tr')) else .ok false) = (.ok true : Py Bool) from h)
            obtain ⟨rfl, rfl⟩ := bool_ok h
            rw [ih d v v' pv pv' hv h1]
      | _ => cases h
    | negative v tr hv =>
      cases b with
      | negative v' tr' =>
        cases ha with
        | negative _ _ pv _ =>
          cases hb with
          | negative _ _ pv' _ =>
            obtain ⟨c, h1, h⟩ := bind_ok (show (termEq n v v' >>= fun b =>
              if b then .ok (decide (tr = tr')) else .ok false) = (.ok true : Py Bool) from h)
            obtain ⟨rfl, rfl⟩ := bool_ok h
            rw [ih d v v' pv pv' hv h1]
      | _ => cases h
    | sum l tr hl =>
      cases b with
      | sum l' tr' =>
        cases ha with
        | sum _ _ pl _ =>
          cases hb with
          | sum _ _ pl' _ =>
            replace h : (if l.length ≠ l'.length then .ok false
              else allM (fun p : Term α K × Term α K => termEq n p.1 p.2) (l.zip l') >>= fun b =>
                if b then .ok (decide (tr = tr')) else .ok false) = (.ok true : Py Bool) := h
            by_cases hlen : l.length = l'.length
            · rw [if_neg (by simpa using hlen)] at h
              obtain ⟨c, h1, h⟩ := bind_ok h
              obtain ⟨rfl, rfl⟩ := bool_ok h
              rw [list l l' pl pl' hl hlen h1]
            · rw [if_pos hlen] at h
              cases h
      | _ => cases h
    | difference m s tr hm hs =>
      cases b with
      | difference m' s' tr' =>
        cases ha with
        | difference _ _ pm ps _ =>
          cases hb with
          | difference _ _ pm' ps' _ =>
            obtain ⟨c, h1, h⟩ := bind_ok (show (termEq n m m' >>= fun b => if b then
              termEq n s s' >>= fun b => if b then .ok (decide (false = false)) else .ok false
              else .ok false) = (.ok true : Py Bool) from h)
            cases c with
            | false => cases h
            | true =>
              obtain ⟨c, h2, h⟩ := bind_ok h
              obtain ⟨rfl, _⟩ := bool_ok h
              rw [ih d m m' pm pm' hm h1, ih d s s' ps ps' hs h2]
      | _ => cases h
    | product l tr hl =>
      cases b with
      | product l' tr' =>
        cases ha with
        | product _ _ pl _ =>
          cases hb with
          | product _ _ pl' _ =>
            replace h : (if l.length ≠ l'.length then .ok false
              else allM (fun p : Term α K × Term α K => termEq n p.1 p.2) (l.zip l') >>= fun b =>
                if b then .ok (decide (tr = tr')) else .ok false) = (.ok true : Py Bool) := h
            by_cases hlen : l.length = l'.length
            · rw [if_neg (by simpa using hlen)] at h
              obtain ⟨c, h1, h⟩ := bind_ok h
              obtain ⟨rfl, rfl⟩ := bool_ok h
              rw [list l l' pl pl' hl hlen h1]
            · rw [if_pos hlen] at h
              cases h
      | _ => cases h
    | quotient m s tr hm hs =>
      cases b with
      | quotient m' s' tr' =>
        cases ha with
        | quotient _ _ _ pm ps _ =>
          cases hb with
          | quotient _ _ _ pm' ps' _ =>
            obtain ⟨c, h1, h⟩ := bind_ok (show (termEq n m m' >>= fun b => if b then
              termEq n s s' >>= fun b => if b then .ok (decide (tr = tr')) else .ok false
              else .ok false) = (.ok true : Py Bool) from h)
            cases c with
            | false => cases h
            | true =>
              obtain ⟨c, h2, h⟩ := bind_ok h
              obtain ⟨rfl, rfl⟩ := bool_ok h
              rw [ih d m m' pm pm' hm h1, ih d s s' ps ps' hs h2]
      | _ => cases h

/-- C34: The comparison with `==` is symmetric. Missing: terms, that contain the constant zero (see
`C34_symmetry_violated`), terms, that are not plain. -/
theorem C34_symmetry_partial (n : Nat) (d : Bool) (a b : Term ℝ ℂ) (ha : Plain d a) (hb : Plain d b) (h0 : NoZero a)
    (h : termEq n a b = .ok true) : termEq n b a = .ok true := by
  have := equal_structure n d a b ha hb h0 h
  subst this
  exact h

/-- The hypotheses can be satisfied. -/
example : NoZero (.sum [.constant 1, .exp 1 false] false : Term ℝ ℂ) ∧
    termEq 3 (.sum [.constant 1, .exp 1 false] false : Term ℝ ℂ) (.sum [.constant 1, .exp 1 false] false) =
      .ok true := by
  constructor
  · refine .sum _ _ ?_
    intro a ha
    simp only [List.mem_cons, List.not_mem_nil, or_false] at ha
    rcases ha with rfl | rfl
    · exact .constant _ one_ne_zero
    · exact .exp _ _
  · simp [termEq, allM, constantEq, Bind.bind, Except.bind]

/-- C34 is violated: the constant zero is equal to a polynomial, whose coefficients are zero, but not the other way
round. Such a polynomial is the difference of two equal polynomials. -/
theorem C34_symmetry_violated (n : Nat) :
    ∃ (e : Expr ℝ ℂ) (b : Term ℝ ℂ), build complexEnv (n + 2) e = .ok b ∧
      termEq (n + 2) (.constant 0) b = .ok true ∧ termEq (n + 2) b (.constant 0) = .ok false := by
  refine ⟨.sub (.polynomial [1, 0] false) (.polynomial [1, 0] false), .polynomial [0, 0] false, ?_, ?_, ?_⟩
  · simp [build, polynomialFactory, sub, polyop, Bind.bind, Except.bind]
  · simp [termEq, isZero, Bind.bind, Except.bind]
  · simp [termEq]

/-- C34 is violated: bands, whose supporting points are zero, are equal to the constant zero, although the value between
the supporting points is one. -/
theorem C34_values_violated (n : Nat) :
    ∃ (a b : Term ℝ ℂ), termEq (n + 2) a b = .ok true ∧
      eval complexEnv 2 false a = some 0 ∧ eval complexEnv 2 false b = some 1 := by
  refine ⟨.constant 0, .bands [1, 3] [0, 0] .one .zero, ?_, ?_, ?_⟩
  · simp [termEq, isZero, Bind.bind, Except.bind]
  · rw [eval_constant]
  · rw [eval_bands]
    exact bands_between _ _ _

/-- C34 is violated: bands without supporting points are equal to bands with one supporting point, because comparing an
empty array to an array with one element has no elements, that are not equal. -/
theorem C34_empty_bands_violated (n : Nat) :
    ∃ (a b : Term ℝ ℂ), termEq (n + 1) a b = .ok true ∧
      eval complexEnv 1 false a = some 0 ∧ eval complexEnv 1 false b = some 5 := by
  refine ⟨.bands [] [] .zero .zero, .bands [1] [5] .zero .zero, ?_, ?_, ?_⟩
  · simp [termEq, bandsEq, notEqualAny, Bind.bind, Except.bind]
  · rw [eval_bands]
    rfl
  · rw [eval_bands]
    simp [bandsAt, Interpolation.scalar, Interpolation.decorateScalar, Interpolation.lookup, value]

/-- C34 is violated: comparing bands with different numbers of supporting points raises a ValueError. -/
theorem C34_exception_violated (n : Nat) :
    ∃ (a b : Term ℝ ℂ), termEq (n + 1) a b = .error .valueError := by
  refine ⟨.bands [1, 2] [1, 2] .zero .zero, .bands [1, 2, 3] [1, 2, 3] .zero .zero, ?_⟩
  simp [termEq, bandsEq, notEqualAny, Bind.bind, Except.bind]

end Filter
end Verif
