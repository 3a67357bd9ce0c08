import Verif.Weighting
import Verif.RolloffProps

/-
C40: the weighting filters.
-/

namespace Verif
namespace Filter

open Complex (I)

/-- the terms have the given values at a frequency and do not use the transformed frequency variable -/
def Values (f : ℝ) (l : List (Term ℝ ℂ)) (vs : List ℂ) : Prop :=
  List.Forall₂ (fun a x => eval complexEnv f false a = some x ∧ usesTransform false a = false) l vs

theorem values_mapM {f : ℝ} {l : List (Term ℝ ℂ)} {vs : List ℂ} (h : Values f l vs) :
    l.mapM (fun tf => eval complexEnv f false tf) = some vs := by
  induction h with
  | nil => rfl
  | cons h _ ih =>
    rw [List.mapM_cons, h.1, ih]
    rfl

theorem values_transform {f : ℝ} {l : List (Term ℝ ℂ)} {vs : List ℂ} (h : Values f l vs) :
    usesTransformList false l = false := by
  induction h with
  | nil => rfl
  | cons h _ ih => rw [usesTransformList, h.2, ih]; rfl

theorem weighting_value (w : Weighting) (l : List (Term ℝ ℂ)) (hl : w.generator 1000 = .ok l) (vs : ℝ → List ℂ)
    (hv : ∀ f, 0 ≤ f → Values f l (vs f)) (h0 : (vs 1000).prod ≠ 0) (mem : ℂ) :
    ∃ a, w.filter complexEnv = .ok a ∧ a.labels = [w.label] ∧
      ∀ f, 0 ≤ f → a.call complexEnv mem f = [some ((vs f).prod / (vs 1000).prod)] := by
  have e : weightingFunction w.generator complexEnv =
      .ok (.product (.constant (1 / (vs 1000).prod) :: l) false) := by
    unfold weightingFunction
    dsimp only
    rw [hl]
    show (match l.mapM fun tf => eval complexEnv 1000 false tf with | none => _ | some values => _) = _
    rw [values_mapM (hv 1000 (by norm_num))]
    dsimp only
    rw [if_neg h0]
  refine ⟨Channels.new [.product (.constant (1 / (vs 1000).prod) :: l) false] [w.label], ?_, single_labels _ _, ?_⟩
  · unfold Weighting.filter
    rw [e]
    rfl
  · intro f hf
    have ht : usesTransform false (Term.product (.constant (1 / (vs 1000).prod) :: l) false) = false := by
      simp [usesTransform, usesTransformList, values_transform (hv f hf)]
    rw [call_single mem _ _ f hf, ht, if_neg (by simp)]
    congr 1
    rw [eval_product _ _ _ _ (by simp)]
    refine ⟨1 / (vs 1000).prod :: vs f, .cons rfl ?_, ?_⟩
    · exact (hv f hf).imp fun a x h => h.1
    · rw [List.prod_cons]
      ring

/-! ### the values of the factors -/

theorem s_ne : (2 * Real.pi : ℂ) ≠ 0 := by
  have := Real.pi_ne_zero
  exact_mod_cast mul_ne_zero two_ne_zero this

theorem highpassFactor_value {a : ℂ} {f : ℝ} (h : a + I * f ≠ 0) :
    ∃ t, highpassFactor (2 * Real.pi * a) = .ok t ∧ t = .quotient (.polynomial [1, 0] false)
      (.polynomial [1, 2 * Real.pi * a] false) false ∧
      eval complexEnv f false t = some (I * f / (a + I * f)) ∧ usesTransform false t = false := by
  refine ⟨_, rfl, rfl, ?_, by simp [usesTransform]⟩
  rw [eval_quotient]
  refine ⟨2 * Real.pi * (I * f), 2 * Real.pi * (a + I * f), ?_, ?_, mul_ne_zero s_ne h, ?_⟩
  · rw [eval_polynomial]
    refine ⟨_, rfl, ?_⟩
    simp [polyval, complexEnv]
    ring
  · rw [eval_polynomial]
    refine ⟨_, rfl, ?_⟩
    simp [polyval, complexEnv]
    ring
  · rw [mul_div_mul_left _ _ s_ne]

theorem lowpassFactor_value {a : ℂ} {f : ℝ} (h : a + I * f ≠ 0) :
    eval complexEnv f false (.quotient (.constant 1) (.polynomial [1, 2 * Real.pi * a] false) false) =
      some (1 / (2 * Real.pi * (a + I * f))) := by
  rw [eval_quotient]
  refine ⟨1, 2 * Real.pi * (a + I * f), rfl, ?_, mul_ne_zero s_ne h, rfl⟩
  rw [eval_polynomial]
  refine ⟨_, rfl, ?_⟩
  simp [polyval, complexEnv]
  ring

theorem pole_ne {a f : ℝ} (h : 0 < a) : (a : ℂ) + I * f ≠ 0 := by
  intro e
  have := congrArg Complex.re e
  simp at this
  exact h.ne' this

theorem pole_norm (a f : ℝ) : ‖(a : ℂ) + I * f‖ ^ 2 = f ^ 2 + a ^ 2 := by
  rw [Complex.sq_norm, Complex.normSq_apply]
  simp
  ring

/-! ### the frequencies of the C-weighting -/

/-- the frequencies, at which the C-weighting is specified by IEC 61672-1 -/
noncomputable def fL : ℝ := (10 : ℝ) ^ (1.5 : ℝ)
@[inherit_doc fL] noncomputable def fH : ℝ := (10 : ℝ) ^ (3.9 : ℝ)

/-- the coefficients of the quadratic equation for the poles of the C-weighting (IEC 61672-1:2013, Appendix E.2) -/
noncomputable def iecC : ℝ := fL ^ 2 * fH ^ 2
@[inherit_doc iecC] noncomputable def iecB : ℝ :=
  (1000 ^ 2 + fL ^ 2 * fH ^ 2 / 1000 ^ 2 - Real.sqrt (1 / 2) * (fL ^ 2 + fH ^ 2)) / (1 - Real.sqrt (1 / 2))

theorem fL_sq : fL ^ 2 = 1000 := by
  unfold fL
  rw [← Real.rpow_natCast, ← Real.rpow_mul (by norm_num)]
  norm_num

theorem fH_pos : 0 < fH := Real.rpow_pos_of_pos (by norm_num) _

theorem fH_sq : 10 ^ 7 < fH ^ 2 ∧ fH ^ 2 < 10 ^ 8 := by
  have e : fH ^ 2 = (10 : ℝ) ^ (7.8 : ℝ) := by
    unfold fH
    rw [← Real.rpow_natCast ((10 : ℝ) ^ (3.9 : ℝ)) 2, ← Real.rpow_mul (by norm_num)]
    norm_num
  rw [e, ← Real.rpow_natCast 10 7, ← Real.rpow_natCast 10 8]
  constructor <;> apply Real.rpow_lt_rpow_of_exponent_lt <;> norm_num

theorem sqrt_half : 7 / 10 < Real.sqrt (1 / 2) ∧ Real.sqrt (1 / 2) < 1 := by
  constructor
  · apply Real.lt_sqrt_of_sq_lt
    norm_num
  · rw [Real.sqrt_lt' (by norm_num)]
    norm_num

theorem iec_bounds : iecB < 0 ∧ 0 < iecB ^ 2 - 4 * iecC ∧ 0 < iecC := by
  obtain ⟨h1, h2⟩ := fH_sq
  obtain ⟨h3, h4⟩ := sqrt_half
  unfold iecB iecC
  rw [fL_sq]
  generalize fH ^ 2 = H at *
  generalize Real.sqrt (1 / 2) = d at *
  have hb : (1000 ^ 2 + 1000 * H / 1000 ^ 2 - d * (1000 + H)) / (1 - d) < -(10 ^ 7) := by
    rw [div_lt_iff₀ (by linarith)]
    nlinarith
  refine ⟨by linarith, ?_, by positivity⟩
  nlinarith

/-- the squares of the frequencies of the poles -/
noncomputable def f1 : ℝ := Real.sqrt ((-iecB - Real.sqrt (iecB ^ 2 - 4 * iecC)) / 2)
@[inherit_doc f1] noncomputable def f4 : ℝ := Real.sqrt ((-iecB + Real.sqrt (iecB ^ 2 - 4 * iecC)) / 2)

theorem root_real {x : ℝ} (h : 0 ≤ x) : root (x : ℂ) = (Real.sqrt x : ℝ) := by
  unfold root
  rw [Real.sqrt_eq_rpow, Complex.ofReal_cpow h]
  norm_num

theorem f_facts : 0 < f1 ∧ 0 < f4 ∧ f1 ^ 2 + f4 ^ 2 = -iecB ∧ f1 ^ 2 * f4 ^ 2 = iecC := by
  obtain ⟨h1, h2, h3⟩ := iec_bounds
  have hr : 0 ≤ Real.sqrt (iecB ^ 2 - 4 * iecC) := Real.sqrt_nonneg _
  have hs : Real.sqrt (iecB ^ 2 - 4 * iecC) ^ 2 = iecB ^ 2 - 4 * iecC := Real.sq_sqrt h2.le
  unfold f1 f4
  generalize Real.sqrt (iecB ^ 2 - 4 * iecC) = r at *
  have hm : 0 < (-iecB - r) / 2 := by nlinarith
  have hp : 0 < (-iecB + r) / 2 := by nlinarith
  refine ⟨Real.sqrt_pos.mpr hm, Real.sqrt_pos.mpr hp, ?_, ?_⟩
  · rw [Real.sq_sqrt hm.le, Real.sq_sqrt hp.le]
    ring
  · rw [Real.sq_sqrt hm.le, Real.sq_sqrt hp.le]
    linear_combination -hs / 4

/-- the four terms of the C-weighting -/
noncomputable def cTerms : List (Term ℝ ℂ) :=
  [.quotient (.polynomial [1, 0] false) (.polynomial [1, 2 * Real.pi * (f1 : ℝ)] false) false,
    .quotient (.constant 1) (.polynomial [1, 2 * Real.pi * (f1 : ℝ)] false) false,
    .quotient (.polynomial [1, 0] false) (.polynomial [1, 2 * Real.pi * (f4 : ℝ)] false) false,
    .quotient (.constant 1) (.polynomial [1, 2 * Real.pi * (f4 : ℝ)] false) false]

theorem cFactors_ok : cFactors 1000 = .ok cTerms := by
  obtain ⟨h1, h2, h3⟩ := iec_bounds
  have hd : (0.5 : ℝ) ^ (0.5 : ℝ) = Real.sqrt (1 / 2) := by
    rw [Real.sqrt_eq_rpow]
    norm_num
  have hr : 0 ≤ Real.sqrt (iecB ^ 2 - 4 * iecC) := Real.sqrt_nonneg _
  have hs : Real.sqrt (iecB ^ 2 - 4 * iecC) ^ 2 = iecB ^ 2 - 4 * iecC := Real.sq_sqrt h2.le
  have key : ∀ b c : ℝ, b = iecB → c = iecC →
      [highpassFactor (2 * Real.pi * root ((-b - root ((b ^ 2 - 4 * c : ℝ) : ℂ)) / 2)),
        lowpassFactor (2 * Real.pi * root ((-b - root ((b ^ 2 - 4 * c : ℝ) : ℂ)) / 2)),
        highpassFactor (2 * Real.pi * root ((-b + root ((b ^ 2 - 4 * c : ℝ) : ℂ)) / 2)),
        lowpassFactor (2 * Real.pi * root ((-b + root ((b ^ 2 - 4 * c : ℝ) : ℂ)) / 2))].mapM id = .ok cTerms := by
    intro b c hb hc
    subst hb hc
    rw [root_real h2.le]
    have e1 : root ((-(iecB : ℂ) - (Real.sqrt (iecB ^ 2 - 4 * iecC) : ℝ)) / 2) = (f1 : ℝ) := by
      rw [show (-(iecB : ℂ) - (Real.sqrt (iecB ^ 2 - 4 * iecC) : ℝ)) / 2 =
        (((-iecB - Real.sqrt (iecB ^ 2 - 4 * iecC)) / 2 : ℝ) : ℂ) by push_cast; ring]
      rw [root_real (by
        generalize Real.sqrt (iecB ^ 2 - 4 * iecC) = r at *
        nlinarith)]
      rfl
    have e4 : root ((-(iecB : ℂ) + (Real.sqrt (iecB ^ 2 - 4 * iecC) : ℝ)) / 2) = (f4 : ℝ) := by
      rw [show (-(iecB : ℂ) + (Real.sqrt (iecB ^ 2 - 4 * iecC) : ℝ)) / 2 =
        (((-iecB + Real.sqrt (iecB ^ 2 - 4 * iecC)) / 2 : ℝ) : ℂ) by push_cast; ring]
      rw [root_real (by
        generalize Real.sqrt (iecB ^ 2 - 4 * iecC) = r at *
        nlinarith)]
      rfl
    rw [e1, e4]
    rfl
  exact key _ _ (by rw [hd]; rfl) rfl

/-- the values of the terms of the C-weighting -/
noncomputable def cValues (f : ℝ) : List ℂ :=
  [I * f / (f1 + I * f), 1 / (2 * Real.pi * (f1 + I * f)), I * f / (f4 + I * f), 1 / (2 * Real.pi * (f4 + I * f))]

theorem quotient_value {a : ℝ} (h : 0 < a) (f : ℝ) :
    eval complexEnv f false (.quotient (.polynomial [1, 0] false) (.polynomial [1, 2 * Real.pi * (a : ℝ)] false) false) =
      some (I * f / (a + I * f)) ∧
    usesTransform false (.quotient (.polynomial [1, 0] false) (.polynomial [1, 2 * Real.pi * (a : ℝ)] false) false :
      Term ℝ ℂ) = false := by
  obtain ⟨t, _, rfl, h1, h2⟩ := highpassFactor_value (pole_ne (f := f) h)
  exact ⟨h1, h2⟩

theorem inverse_value {a : ℂ} {f : ℝ} (h : a + I * f ≠ 0) :
    eval complexEnv f false (.quotient (.constant 1) (.polynomial [1, 2 * Real.pi * a] false) false) =
      some (1 / (2 * Real.pi * (a + I * f))) ∧
    usesTransform false (.quotient (.constant 1) (.polynomial [1, 2 * Real.pi * a] false) false : Term ℝ ℂ) = false :=
  ⟨lowpassFactor_value h, by simp [usesTransform]⟩

theorem cValues_ok (f : ℝ) : Values f cTerms (cValues f) := by
  obtain ⟨h1, h4, _, _⟩ := f_facts
  exact .cons (quotient_value h1 f) (.cons (inverse_value (pole_ne h1)) (.cons (quotient_value h4 f)
    (.cons (inverse_value (pole_ne h4)) .nil)))

theorem thousand_ne : I * ((1000 : ℝ) : ℂ) ≠ 0 := by simp

theorem cValues_ne : (cValues 1000).prod ≠ 0 := by
  obtain ⟨h1, h4, _, _⟩ := f_facts
  have a1 := pole_ne (f := 1000) h1
  have a4 := pole_ne (f := 1000) h4
  simp only [cValues, List.prod_cons, List.prod_nil, mul_one]
  refine mul_ne_zero (div_ne_zero thousand_ne a1) (mul_ne_zero (div_ne_zero one_ne_zero (mul_ne_zero s_ne a1))
    (mul_ne_zero (div_ne_zero thousand_ne a4) (div_ne_zero one_ne_zero (mul_ne_zero s_ne a4))))

theorem cValues_norm (f : ℝ) : ‖(cValues f).prod‖ ^ 2 =
    (f ^ 2 / (f ^ 4 - iecB * f ^ 2 + iecC)) ^ 2 / (2 * Real.pi) ^ 4 := by
  obtain ⟨h1, h4, hs, hp⟩ := f_facts
  have n1 := pole_norm f1 f
  have n4 := pole_norm f4 f
  have e : f ^ 4 - iecB * f ^ 2 + iecC = (f ^ 2 + f1 ^ 2) * (f ^ 2 + f4 ^ 2) := by
    rw [← hp]
    linear_combination f ^ 2 * (-hs)
  have n0 : ‖I * (f : ℂ)‖ ^ 2 = f ^ 2 := by simp
  have np : ‖(2 * Real.pi : ℂ)‖ = 2 * Real.pi := by
    rw [show (2 * Real.pi : ℂ) = ((2 * Real.pi : ℝ) : ℂ) by push_cast; rfl, Complex.norm_real, Real.norm_eq_abs,
      abs_of_pos (by positivity)]
  have u : ∀ a : ℝ, ‖I * (f : ℂ) / (a + I * f)‖ ^ 2 = f ^ 2 / (f ^ 2 + a ^ 2) := by
    intro a
    rw [norm_div, div_pow, n0, pole_norm]
  have v : ∀ a : ℝ, ‖1 / (2 * Real.pi * ((a : ℂ) + I * f))‖ ^ 2 = 1 / ((2 * Real.pi) ^ 2 * (f ^ 2 + a ^ 2)) := by
    intro a
    rw [norm_div, norm_one, div_pow, norm_mul, mul_pow, pole_norm, np, one_pow]
  simp only [cValues, List.prod_cons, List.prod_nil, mul_one]
  rw [norm_mul, mul_pow, norm_mul, mul_pow, norm_mul, mul_pow, u, v, u, v, e]
  have p1 : f ^ 2 + f1 ^ 2 ≠ 0 := by positivity
  have p4 : f ^ 2 + f4 ^ 2 ≠ 0 := by positivity
  have pp := Real.pi_ne_zero
  field_simp

/-! ### C40 -/

/-- the poles, that distinguish the A-weighting from the C-weighting (IEC 61672-1:2013, Appendix E.3) -/
noncomputable def iecF2 : ℝ := (3 - Real.sqrt 5) / 2 * (10 : ℝ) ^ (2.45 : ℝ)
@[inherit_doc iecF2] noncomputable def iecF3 : ℝ := (3 + Real.sqrt 5) / 2 * (10 : ℝ) ^ (2.45 : ℝ)

/-- The squared magnitudes of the weighting filters without the normalization. A and C are specified by IEC 61672-1, U by
the poles from IEC 61012 and D by IEC 537. -/
noncomputable def weightingSpec : Weighting → ℝ → ℝ
  | .a, f => f ^ 4 / ((f ^ 2 + iecF2 ^ 2) * (f ^ 2 + iecF3 ^ 2)) * (f ^ 2 / (f ^ 4 - iecB * f ^ 2 + iecC)) ^ 2
  | .b, f => f ^ 2 / (f ^ 2 + 158.5 ^ 2) * (f ^ 2 / (f ^ 4 - iecB * f ^ 2 + iecC)) ^ 2
  | .c, f => (f ^ 2 / (f ^ 4 - iecB * f ^ 2 + iecC)) ^ 2
  | .d, f => f ^ 2 / ((f ^ 2 + 79919.29) * (f ^ 2 + 1345600)) *
      (((1037918.48 - f ^ 2) ^ 2 + 1080768.16 * f ^ 2) / ((9837328 - f ^ 2) ^ 2 + 11723776 * f ^ 2))
  | .u, f => 1 / ((f ^ 2 + 12200 ^ 2) ^ 2 * (((f - 8800) ^ 2 + 7850 ^ 2) * ((f + 8800) ^ 2 + 7850 ^ 2)) *
      (((f - 12150) ^ 2 + 2900 ^ 2) * ((f + 12150) ^ 2 + 2900 ^ 2)))

/-- the terms have values with known products, which is sufficient for C40 -/
theorem weighting_magnitude (w : Weighting) (l : List (Term ℝ ℂ)) (hl : w.generator 1000 = .ok l) (vs : ℝ → List ℂ)
    (hv : ∀ f, 0 ≤ f → Values f l (vs f)) (h0 : (vs 1000).prod ≠ 0) (k : ℝ) (hk : k ≠ 0)
    (hn : ∀ f, ‖(vs f).prod‖ ^ 2 = weightingSpec w f / k) (mem : ℂ) :
    ∃ a, w.filter complexEnv = .ok a ∧ a.labels = [w.label] ∧ a.call complexEnv mem 1000 = [some 1] ∧
      ∀ f, 0 ≤ f → ∃ x, a.call complexEnv mem f = [some x] ∧ ‖x‖ ^ 2 = weightingSpec w f / weightingSpec w 1000 := by
  obtain ⟨a, h1, h2, h3⟩ := weighting_value w l hl vs hv h0 mem
  refine ⟨a, h1, h2, ?_, ?_⟩
  · rw [h3 1000 (by norm_num), div_self h0]
  · intro f hf
    refine ⟨_, h3 f hf, ?_⟩
    rw [norm_div, div_pow, hn, hn, div_div_div_cancel_right₀ hk]

theorem pi_pow_ne (n : Nat) : (2 * Real.pi) ^ n ≠ 0 := by
  have := Real.pi_pos
  positivity

/-- C40: The weighting filters are created without exceptions, their gain is one at 1000 Hz and their magnitude at all
frequencies is specified by the standards relative to 1000 Hz. -/
theorem C40_weighting (w : Weighting) (mem : ℂ) :
    ∃ a, w.filter complexEnv = .ok a ∧ a.labels = [w.label] ∧ a.call complexEnv mem 1000 = [some 1] ∧
      ∀ f, 0 ≤ f → ∃ x, a.call complexEnv mem f = [some x] ∧ ‖x‖ ^ 2 = weightingSpec w f / weightingSpec w 1000 := by
  have n0 : ∀ f : ℝ, ‖I * (f : ℂ)‖ ^ 2 = f ^ 2 := by simp
  have np : ‖(2 * Real.pi : ℂ)‖ = 2 * Real.pi := by
    rw [show (2 * Real.pi : ℂ) = ((2 * Real.pi : ℝ) : ℂ) by push_cast; rfl, Complex.norm_real, Real.norm_eq_abs,
      abs_of_pos (by positivity)]
  have pp := Real.pi_pos
  cases w with
  | c =>
    exact weighting_magnitude .c cTerms cFactors_ok cValues (fun f _ => cValues_ok f) cValues_ne _ (pi_pow_ne 4)
      cValues_norm mem
  | b =>
    refine weighting_magnitude .b (_ :: cTerms) ?_ (fun f => I * f / ((158.5 : ℝ) + I * f) :: cValues f)
      (fun f _ => .cons (quotient_value (a := 158.5) (by norm_num) f) (cValues_ok f)) ?_ _ (pi_pow_ne 4) ?_ mem
    · show bFactors 1000 = _
      unfold bFactors
      rw [cFactors_ok]
      simp only [highpassFactor, div, Bind.bind, Except.bind]
      push_cast
      rfl
    · rw [List.prod_cons]
      exact mul_ne_zero (div_ne_zero thousand_ne (pole_ne (by norm_num))) cValues_ne
    · intro f
      rw [List.prod_cons, norm_mul, mul_pow, cValues_norm, norm_div, div_pow, n0, pole_norm]
      unfold weightingSpec
      ring
  | a =>
    have hr : (5 : ℝ) ^ (0.5 : ℝ) = Real.sqrt 5 := by
      rw [Real.sqrt_eq_rpow]
      norm_num
    have hr5 : Real.sqrt 5 < 3 := by
      rw [Real.sqrt_lt' (by norm_num)]
      norm_num
    have hf : (0 : ℝ) < (10 : ℝ) ^ (2.45 : ℝ) := Real.rpow_pos_of_pos (by norm_num) _
    have h2 : 0 < iecF2 := mul_pos (by linarith) hf
    have h3 : 0 < iecF3 := mul_pos (by have := Real.sqrt_nonneg 5; linarith) hf
    refine weighting_magnitude .a (_ :: _ :: cTerms) ?_
      (fun f => I * f / (iecF2 + I * f) :: I * f / (iecF3 + I * f) :: cValues f)
      (fun f _ => .cons (quotient_value h2 f) (.cons (quotient_value h3 f) (cValues_ok f))) ?_ _ (pi_pow_ne 4) ?_ mem
    · show aFactors 1000 = _
      unfold aFactors
      dsimp only
      rw [cFactors_ok, hr, show (1.5 - Real.sqrt 5 / 2) * (10 : ℝ) ^ (2.45 : ℝ) = iecF2 by unfold iecF2; ring,
        show (1.5 + Real.sqrt 5 / 2) * (10 : ℝ) ^ (2.45 : ℝ) = iecF3 by unfold iecF3; ring]
      simp only [highpassFactor, div, Bind.bind, Except.bind]
      push_cast
      rfl
    · rw [List.prod_cons, List.prod_cons]
      exact mul_ne_zero (div_ne_zero thousand_ne (pole_ne h2)) (mul_ne_zero (div_ne_zero thousand_ne (pole_ne h3))
        cValues_ne)
    · intro f
      rw [List.prod_cons, List.prod_cons, norm_mul, mul_pow, norm_mul, mul_pow, cValues_norm, norm_div, div_pow, n0,
        pole_norm, norm_div, div_pow, n0, pole_norm]
      have e : f ^ 4 / ((f ^ 2 + iecF2 ^ 2) * (f ^ 2 + iecF3 ^ 2)) =
          f ^ 2 / (f ^ 2 + iecF2 ^ 2) * (f ^ 2 / (f ^ 2 + iecF3 ^ 2)) := by
        rw [div_mul_div_comm]
        ring
      unfold weightingSpec
      dsimp only
      rw [e]
      ring
  | d =>
    have he : 0 < Real.sqrt 79919.29 := Real.sqrt_pos.mpr (by norm_num)
    have hf : 0 < Real.sqrt 1345600.0 := Real.sqrt_pos.mpr (by norm_num)
    have hb : 0 < Real.sqrt 1080768.16 := Real.sqrt_pos.mpr (by norm_num)
    have hd : 0 < Real.sqrt 11723776.0 := Real.sqrt_pos.mpr (by norm_num)
    have quad : ∀ a d : ℝ, 0 < a → 0 < d → ∀ f : ℝ, ((a - f ^ 2 : ℝ) : ℂ) + I * ((d * f : ℝ) : ℂ) ≠ 0 := by
      intro a d ha hd f h
      have hn := pole_norm (a - f ^ 2) (d * f)
      rw [h, norm_zero] at hn
      have h1 : (d * f) ^ 2 = 0 := by nlinarith [sq_nonneg (d * f), sq_nonneg (a - f ^ 2)]
      have h2 : (a - f ^ 2) ^ 2 = 0 := by nlinarith [sq_nonneg (d * f), sq_nonneg (a - f ^ 2)]
      have h3 := (mul_eq_zero.mp (pow_eq_zero_iff (two_ne_zero)|>.mp h1)).resolve_left hd.ne'
      have h4 := pow_eq_zero_iff (two_ne_zero)|>.mp h2
      rw [h3] at h4
      linarith
    refine weighting_magnitude .d [_, _, .quotient
        (.polynomial [1, 2 * Real.pi * (Real.sqrt 1080768.16 : ℝ), (2 * Real.pi * (Real.sqrt 1037918.48 : ℝ)) ^ 2] false)
        (.polynomial [1, 2 * Real.pi * (Real.sqrt 11723776.0 : ℝ), (2 * Real.pi * (Real.sqrt 9837328.0 : ℝ)) ^ 2] false)
        false] ?_
      (fun f => [I * f / ((Real.sqrt 79919.29 : ℝ) + I * f), 1 / (2 * Real.pi * ((Real.sqrt 1345600.0 : ℝ) + I * f)),
        (((1037918.48 - f ^ 2 : ℝ) : ℂ) + I * ((Real.sqrt 1080768.16 * f : ℝ) : ℂ)) /
          (((9837328.0 - f ^ 2 : ℝ) : ℂ) + I * ((Real.sqrt 11723776.0 * f : ℝ) : ℂ))])
      (fun f _ => .cons (quotient_value he f) (.cons (inverse_value (pole_ne hf)) (.cons ?_ .nil))) ?_ ((2 * Real.pi) ^ 2)
      (pi_pow_ne 2) ?_ mem
    · show dFactors 1000 = _
      unfold dFactors
      dsimp only
      simp only [highpassFactor, lowpassFactor, div, Term.invert]
      push_cast
      rfl
    · refine ⟨?_, by simp [usesTransform]⟩
      have pv : ∀ a d : ℝ, 0 ≤ a → eval complexEnv f (false ^^ false) (.polynomial [1, 2 * Real.pi * (d : ℂ),
          (2 * Real.pi * (Real.sqrt a : ℝ)) ^ 2] false) =
          some ((2 * Real.pi) ^ 2 * (((a - f ^ 2 : ℝ) : ℂ) + I * ((d * f : ℝ) : ℂ))) := by
        intro a d ha
        rw [eval_polynomial]
        refine ⟨_, rfl, ?_⟩
        have e : ((Real.sqrt a : ℝ) : ℂ) ^ 2 = (a : ℂ) := by exact_mod_cast Real.sq_sqrt ha
        simp only [polyval, complexEnv, List.foldl]
        push_cast
        have hI := Complex.I_sq
        linear_combination (-(4 * Real.pi ^ 2 * f ^ 2 : ℂ)) * hI - (2 * Real.pi : ℂ) ^ 2 * e
      rw [eval_quotient]
      refine ⟨_, _, pv _ _ (by norm_num), pv _ _ (by norm_num), mul_ne_zero (pow_ne_zero 2 s_ne)
        (quad _ _ (by norm_num) hd f), ?_⟩
      rw [mul_div_mul_left _ _ (pow_ne_zero 2 s_ne)]
    · simp only [List.prod_cons, List.prod_nil, mul_one]
      exact mul_ne_zero (div_ne_zero thousand_ne (pole_ne he)) (mul_ne_zero (div_ne_zero one_ne_zero (mul_ne_zero s_ne
        (pole_ne hf))) (div_ne_zero (quad _ _ (by norm_num) hb _) (quad _ _ (by norm_num) hd _)))
    · intro f
      simp only [List.prod_cons, List.prod_nil, mul_one]
      rw [norm_mul, mul_pow, norm_mul, mul_pow, norm_div, div_pow, n0, pole_norm, norm_div, div_pow, norm_mul, mul_pow, np,
        pole_norm, norm_div, div_pow, pole_norm, pole_norm, Real.sq_sqrt (by norm_num), Real.sq_sqrt (by norm_num),
        mul_pow (Real.sqrt 1080768.16), Real.sq_sqrt (by norm_num), mul_pow (Real.sqrt 11723776.0),
        Real.sq_sqrt (by norm_num), norm_one, one_pow]
      unfold weightingSpec
      dsimp only
      have h1 : f ^ 2 + 79919.29 ≠ 0 := by positivity
      have h2 : f ^ 2 + 1345600 ≠ 0 := by positivity
      rw [show (1345600.0 : ℝ) = 1345600 by norm_num, show (9837328.0 : ℝ) = 9837328 by norm_num,
        show (11723776.0 : ℝ) = 11723776 by norm_num, add_comm (1080768.16 * f ^ 2), add_comm (11723776 * f ^ 2)]
      generalize ((1037918.48 - f ^ 2) ^ 2 + 1080768.16 * f ^ 2) / ((9837328 - f ^ 2) ^ 2 + 11723776 * f ^ 2) = q
      generalize f ^ 2 + 79919.29 = a at *
      generalize f ^ 2 + 1345600 = b at *
      field_simp
  | u =>
    have pr : ∀ (a b : ℝ), 0 < a → ∀ f : ℝ, (a : ℂ) + b * I + I * f ≠ 0 := by
      intro a b h f e
      have := congrArg Complex.re e
      simp at this
      exact h.ne' this
    have nr : ∀ a b f : ℝ, ‖(a : ℂ) + b * I + I * f‖ ^ 2 = (f + b) ^ 2 + a ^ 2 := by
      intro a b f
      rw [show (a : ℂ) + b * I + I * f = (a : ℂ) + I * ((f + b : ℝ) : ℂ) by push_cast; ring, pole_norm]
    refine weighting_magnitude .u [_, _, _, _, _, _] ?_
      (fun f => [1 / (2 * Real.pi * (((12200 : ℝ) : ℂ) + ((0 : ℝ) : ℂ) * I + I * f)),
        1 / (2 * Real.pi * (((12200 : ℝ) : ℂ) + ((0 : ℝ) : ℂ) * I + I * f)),
        1 / (2 * Real.pi * (((7850 : ℝ) : ℂ) + ((-8800 : ℝ) : ℂ) * I + I * f)),
        1 / (2 * Real.pi * (((7850 : ℝ) : ℂ) + ((8800 : ℝ) : ℂ) * I + I * f)),
        1 / (2 * Real.pi * (((2900 : ℝ) : ℂ) + ((-12150 : ℝ) : ℂ) * I + I * f)),
        1 / (2 * Real.pi * (((2900 : ℝ) : ℂ) + ((12150 : ℝ) : ℂ) * I + I * f))])
      (fun f _ => .cons (inverse_value (pr _ _ (by norm_num) f)) (.cons (inverse_value (pr _ _ (by norm_num) f))
        (.cons (inverse_value (pr _ _ (by norm_num) f)) (.cons (inverse_value (pr _ _ (by norm_num) f))
        (.cons (inverse_value (pr _ _ (by norm_num) f)) (.cons (inverse_value (pr _ _ (by norm_num) f)) .nil))))))
      ?_ ((2 * Real.pi) ^ 12) (pi_pow_ne 12) ?_ mem
    · show uFactors 1000 = _
      unfold uFactors
      dsimp only
      simp only [lowpassFactor, Term.invert]
      push_cast
      simp only [zero_mul, add_zero, neg_mul, ← sub_eq_add_neg]
      rfl
    · simp only [List.prod_cons, List.prod_nil, mul_one]
      have q : ∀ (a b : ℝ), 0 < a → 1 / (2 * Real.pi * ((a : ℂ) + b * I + I * (1000 : ℝ))) ≠ 0 :=
        fun a b h => div_ne_zero one_ne_zero (mul_ne_zero s_ne (pr a b h 1000))
      refine mul_ne_zero (q _ _ (by norm_num)) (mul_ne_zero (q _ _ (by norm_num)) (mul_ne_zero (q _ _ (by norm_num))
        (mul_ne_zero (q _ _ (by norm_num)) (mul_ne_zero (q _ _ (by norm_num)) (q _ _ (by norm_num))))))
    · intro f
      have v : ∀ a b : ℝ, ‖1 / (2 * Real.pi * ((a : ℂ) + b * I + I * f))‖ ^ 2 =
          1 / ((2 * Real.pi) ^ 2 * ((f + b) ^ 2 + a ^ 2)) := by
        intro a b
        rw [norm_div, norm_one, div_pow, norm_mul, mul_pow, nr, np, one_pow]
      simp only [List.prod_cons, List.prod_nil, mul_one]
      rw [norm_mul, mul_pow, norm_mul, mul_pow, norm_mul, mul_pow, norm_mul, mul_pow, norm_mul, mul_pow, v, v, v, v, v]
      unfold weightingSpec
      dsimp only
      rw [div_mul_div_comm, div_mul_div_comm, div_mul_div_comm, div_mul_div_comm, div_mul_div_comm, div_div]
      congr 1
      · norm_num
      · ring

/-- C40: The label names the standardized weighting. -/
theorem C40_labels : [Weighting.a, .b, .c, .d, .u].map (fun w => (w.filter complexEnv).toOption.map (·.labels)) =
    [some ["A-weighting"], some ["B-weighting"], some ["C-weighting"], some ["D-weighting"], some ["U-weighting"]] := by
  have h : ∀ w : Weighting, (w.filter complexEnv).toOption.map (·.labels) = some [w.label] := by
    intro w
    obtain ⟨a, h1, h2, -⟩ := C40_weighting w 0
    rw [h1]
    exact congrArg some h2
  simp only [List.map_cons, List.map_nil, h]
  rfl

/-- C40: the magnitude of the C-weighting is 3 dB below the one at 1000 Hz at the frequencies, that are specified by the
standard. -/
theorem C40_c_limits (mem : ℂ) :
    ∃ a, Weighting.c.filter complexEnv = .ok a ∧
      (∃ x, a.call complexEnv mem ((10 : ℝ) ^ (1.5 : ℝ)) = [some x] ∧ ‖x‖ ^ 2 = 1 / 2) ∧
      ∃ x, a.call complexEnv mem ((10 : ℝ) ^ (3.9 : ℝ)) = [some x] ∧ ‖x‖ ^ 2 = 1 / 2 := by
  obtain ⟨a, h1, _, _, h⟩ := C40_weighting .c mem
  obtain ⟨b1, b2, b3⟩ := iec_bounds
  obtain ⟨q1, q2⟩ := fH_sq
  obtain ⟨d1, d2⟩ := sqrt_half
  have key : ∀ f : ℝ, f ^ 2 = fL ^ 2 ∨ f ^ 2 = fH ^ 2 → weightingSpec .c f / weightingSpec .c 1000 = 1 / 2 := by
    intro f hf
    have hsq : Real.sqrt (1 / 2) ^ 2 = 1 / 2 := Real.sq_sqrt (by norm_num)
    have hfp : f ^ 4 + iecC = f ^ 2 * (fL ^ 2 + fH ^ 2) := by
      unfold iecC
      rcases hf with hf | hf
      · rw [show f ^ 4 = (f ^ 2) ^ 2 by ring, hf]; ring
      · rw [show f ^ 4 = (f ^ 2) ^ 2 by ring, hf]; ring
    have hf0 : 0 < f ^ 2 := by
      rcases hf with hf | hf <;> rw [hf]
      · rw [fL_sq]; norm_num
      · linarith
    have hB : iecB * (1 - Real.sqrt (1 / 2)) =
        1000 ^ 2 + fL ^ 2 * fH ^ 2 / 1000 ^ 2 - Real.sqrt (1 / 2) * (fL ^ 2 + fH ^ 2) := by
      unfold iecB
      rw [div_mul_cancel₀]
      linarith
    have p1 : 0 < fL ^ 2 + fH ^ 2 - iecB := by
      have := sq_nonneg fL
      have := sq_nonneg fH
      linarith
    have p2 : 0 < (1000 : ℝ) ^ 4 - iecB * 1000 ^ 2 + iecC := by nlinarith
    have e1 : f ^ 4 - iecB * f ^ 2 + iecC = f ^ 2 * (fL ^ 2 + fH ^ 2 - iecB) := by linear_combination hfp
    have e2 : (1000 : ℝ) ^ 4 - iecB * 1000 ^ 2 + iecC =
        1000 ^ 2 * (Real.sqrt (1 / 2) * (fL ^ 2 + fH ^ 2 - iecB)) := by
      unfold iecC
      linear_combination (-(1000 : ℝ) ^ 2) * hB
    show (f ^ 2 / (f ^ 4 - iecB * f ^ 2 + iecC)) ^ 2 / (1000 ^ 2 / (1000 ^ 4 - iecB * 1000 ^ 2 + iecC)) ^ 2 = 1 / 2
    rw [e1, e2, div_mul_cancel_left₀ hf0.ne', div_mul_cancel_left₀ (by norm_num), ← div_pow, inv_div_inv,
      mul_div_assoc, div_self p1.ne', mul_one, hsq]
  refine ⟨a, h1, ?_, ?_⟩
  · obtain ⟨x, hx, hn⟩ := h fL (Real.rpow_nonneg (by norm_num) _)
    exact ⟨x, hx, by rw [hn, key fL (.inl rfl)]⟩
  · obtain ⟨x, hx, hn⟩ := h fH fH_pos.le
    exact ⟨x, hx, by rw [hn, key fH (.inr rfl)]⟩

example : weightingSpec .c 0 = 0 ∧ weightingSpec .u 0 ≠ 0 := by
  constructor <;> norm_num [weightingSpec]

end Filter
end Verif
