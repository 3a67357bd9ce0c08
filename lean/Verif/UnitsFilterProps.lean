import Verif.StabilityProps

/-
C158: The frequency responses of the filters do not depend on the unit of time.
-/

namespace Verif
namespace Filter

open Complex (I)

/-- The responses of filters with a cutoff frequency are a function of the ratio of the frequency and the cutoff frequency. -/
def Prototype (make : ℝ → Py (Channels ℝ ℂ)) : Prop :=
  ∀ a cutoff, 0 < a → 0 < cutoff → ∃ x y, make cutoff = .ok x ∧ make (a * cutoff) = .ok y ∧ y.labels = x.labels ∧
    ∀ mem f, 0 ≤ f → y.call complexEnv mem (a * f) = x.call complexEnv mem f

theorem relative_unit {a : ℝ} (ha : 0 < a) (cutoff : ℝ) (highpass : Bool) (f : ℝ) :
    relative (a * cutoff) highpass (a * f) = relative cutoff highpass f := by
  unfold relative
  cases highpass with
  | false => exact mul_div_mul_left _ _ ha.ne'
  | true => exact congrArg Neg.neg (mul_div_mul_left _ _ ha.ne')

/-- The response is a function `H` of the scaled variable. -/
theorem prototype {make : ℝ → Py (Channels ℝ ℂ)} (label : String) (highpass : Bool) (H : ℂ → Option ℂ)
    (h : ∀ cutoff, 0 < cutoff → ∀ k, frequencyScaling cutoff highpass = .ok k → 0 < k →
      ∃ t, make cutoff = .ok (Channels.new [t] [label]) ∧ usesTransform false t = highpass ∧
        ∀ f σ, sValue complexEnv f highpass = some σ → eval complexEnv f false t = H (k * σ)) : Prototype make := by
  intro a cutoff ha hc
  have hac : 0 < a * cutoff := mul_pos ha hc
  obtain ⟨k, hk, _, hs⟩ := scaling_ok hc highpass
  obtain ⟨k', hk', _, hs'⟩ := scaling_ok hac highpass
  have pos : ∀ c k, 0 < c → frequencyScaling c highpass = .ok k → 0 < k := by
    intro c k hc hk
    obtain ⟨k₁, h1, h2⟩ := scaling_pos hc highpass
    rw [hk] at h1
    cases h1
    exact h2
  obtain ⟨t, h1, h2, h3⟩ := h cutoff hc k hk (pos _ _ hc hk)
  obtain ⟨t', h1', h2', h3'⟩ := h (a * cutoff) hac k' hk' (pos _ _ hac hk')
  refine ⟨_, _, h1, h1', by rw [single_labels, single_labels], fun mem f hf => ?_⟩
  rw [call_single mem t' label (a * f) (mul_nonneg ha.le hf), call_single mem t label f hf, h2, h2']
  have hz : a * f = 0 ↔ f = 0 := by simp [ha.ne']
  by_cases h0 : f = 0 ∧ highpass = true
  · rw [if_pos h0, if_pos ⟨hz.mpr h0.1, h0.2⟩]
  rw [if_neg h0, if_neg fun c => h0 ⟨hz.mp c.1, c.2⟩]
  have hf0 : highpass = true → f ≠ 0 := fun b c => h0 ⟨c, b⟩
  obtain ⟨σ, hσ, e⟩ := hs f hf0
  obtain ⟨σ', hσ', e'⟩ := hs' (a * f) fun b c => hf0 b (hz.mp c)
  rw [h3 f σ hσ, h3' _ σ' hσ', e, e', relative_unit ha]

/-- the sections depend on the scaled variable only -/
theorem sections_scaled (A B : ℝ → ℝ) (c k : ℝ) (order : Nat) (σ : ℂ) :
    ((sections A B c k order).map fun cs => polyval (cs.map fun (c : ℝ) => (c : ℂ)) σ).prod =
      ((sections A B c 1 order).map fun cs => polyval (cs.map fun (c : ℝ) => (c : ℂ)) (k * σ)).prod := by
  have two : ∀ x y : ℝ, polyval (([x * k ^ 2, y * k, 1]).map fun (c : ℝ) => (c : ℂ)) σ =
      polyval (([x * 1 ^ 2, y * 1, 1]).map fun (c : ℝ) => (c : ℂ)) (k * σ) := by
    intro x y
    simp [polyval]
    ring
  have one : polyval (([c * k, 1]).map fun (c : ℝ) => (c : ℂ)) σ =
      polyval (([c * 1, 1]).map fun (c : ℝ) => (c : ℂ)) (k * σ) := by
    simp [polyval]
    ring
  unfold sections
  split
  · rw [List.map_map, List.map_map]
    congr 1
    exact List.map_congr_left fun j _ => two _ _
  · simp only [List.map_cons (f := fun cs : List ℝ => polyval _ _), List.prod_cons]
    rw [one, List.map_map, List.map_map]
    congr 2
    exact List.map_congr_left fun j _ => two _ _

/-- the inverse of a number; a division by zero is `none` -/
noncomputable def inverse (x : ℂ) : Option ℂ := if x = 0 then none else some (1 / x)

theorem eval_inverse {t : Term ℝ ℂ} {f : ℝ} {x : ℂ} (h : eval complexEnv f false t = some x) :
    eval complexEnv f false (.quotient (.constant 1) t false) = inverse x := by
  unfold inverse
  by_cases hx : x = 0
  · rw [if_pos hx]
    rcases he : eval complexEnv f false (.quotient (.constant 1) t false) with _ | y
    · rfl
    · rw [eval_quotient] at he
      obtain ⟨_, b, _, h2, h3, _⟩ := he
      have h2 : eval complexEnv f false t = some b := h2
      rw [h] at h2
      cases h2
      exact absurd hx h3
  · rw [if_neg hx, eval_quotient]
    exact ⟨1, x, rfl, h, hx, rfl⟩

/-- the inverse of the product of the sections -/
noncomputable def inverseSections (A B : ℝ → ℝ) (c : ℝ) (order : Nat) (w : ℂ) : Option ℂ :=
  inverse ((sections A B c 1 order).map fun cs => polyval (cs.map fun (c : ℝ) => (c : ℂ)) w).prod

/-- a filter, that is the inverse of the product of its sections -/
theorem sections_response (n : Nat) (A B : ℝ → ℝ) (c k : ℝ) (order : Nat) (ho : 0 < order) (hk : 0 < k) (hc : 0 < c)
    (hA : ∀ θ, 0 < θ → θ < Real.pi / 2 → 0 < A θ) (highpass : Bool) :
    ∃ t, (productFactory complexEnv (n + 3) ((sections A B c k order).map realPolynomial) highpass >>=
        fun p => p.invert) = .ok t ∧ usesTransform false t = highpass ∧
      ∀ f σ, sValue complexEnv f highpass = some σ →
        eval complexEnv f false t = inverseSections A B c order (k * σ) := by
  have red : ∀ cs ∈ sections A B c k order, Reduced (cs.map fun (c : ℝ) => (c : ℂ)) := by
    intro cs hcs
    rcases sections_mem hcs with rfl | ⟨θ, h1, h2, rfl⟩
    · exact ⟨_, _, _, rfl, Complex.ofReal_ne_zero.mpr (mul_pos hc hk).ne'⟩
    · exact ⟨_, _, _, rfl, Complex.ofReal_ne_zero.mpr (mul_pos (hA θ h1 h2) (pow_pos hk 2)).ne'⟩
  have ne : sections A B c k order ≠ [] := by
    unfold sections
    split
    · simp; omega
    · simp
  have e : (sections A B c k order).map realPolynomial =
      ((sections A B c k order).map fun cs => cs.map fun (c : ℝ) => (c : ℂ)).map fun cs => .polynomial cs false := by
    rw [List.map_map]
    exact List.map_congr_left fun cs hcs => realPolynomial_reduced (red cs hcs)
  rw [e]
  obtain ⟨p, h1, h2, h3, h4⟩ := polyProduct complexEnv complexEnv_lawful n
    ((sections A B c k order).map fun cs => cs.map fun (c : ℝ) => (c : ℂ)) (by simpa using ne)
    (by
      intro cs hcs
      obtain ⟨cs', h, rfl⟩ := List.mem_map.mp hcs
      exact red cs' h) highpass
  refine ⟨.quotient (.constant 1) p false, ?_, ?_, ?_⟩
  · rw [h1]
    exact h2
  · simp [usesTransform, h3]
  · intro f σ hσ
    have hv := h4 f σ hσ
    rw [List.map_map] at hv
    unfold inverseSections
    rw [← sections_scaled]
    exact eval_inverse hv

/-- **C158**: The response of a Butterworth filter depends on the ratio of the frequency and the cutoff frequency. -/
theorem C158_butterworth (n order : Nat) (ho : 0 < order) (highpass : Bool) :
    Prototype fun cutoff => butterworthFilter complexEnv (n + 3) cutoff order highpass := by
  refine prototype "Butterworth" highpass (inverseSections (fun _ => 1) (fun θ => 2 * Real.cos θ) 1 order)
    fun cutoff _ k hk hk0 => ?_
  obtain ⟨t, ht, hu, hv⟩ := sections_response n (fun _ => 1) (fun θ => 2 * Real.cos θ) 1 k order ho hk0 one_pos
    (fun _ _ _ => one_pos) highpass
  refine ⟨t, ?_, hu, hv⟩
  have hb : butterworth complexEnv (n + 3) cutoff order highpass = .ok t := by
    unfold butterworth
    rw [hk]
    rw [← butterworth_factors k order] at ht
    exact ht
  unfold butterworthFilter rolloff
  rw [hb]
  rfl

/-- **C158**: The response of a Chebyshev filter of type 1 depends on the ratio of the frequency and the cutoff
frequency. -/
theorem C158_chebyshev1 (n order : Nat) (ho : 0 < order) (ripple : ℝ) (highpass : Bool) :
    Prototype fun cutoff => chebyshev1Filter complexEnv (n + 3) cutoff ripple order highpass := by
  by_cases hr : ripple = 0
  · refine prototype "Chebyshev 1" highpass (inverseSections (fun _ => 1) (fun θ => 2 * Real.cos θ) 1 order)
      fun cutoff _ k hk hk0 => ?_
    obtain ⟨t, ht, hu, hv⟩ := sections_response n (fun _ => 1) (fun θ => 2 * Real.cos θ) 1 k order ho hk0 one_pos
      (fun _ _ _ => one_pos) highpass
    refine ⟨t, ?_, hu, hv⟩
    have hb : butterworth complexEnv (n + 3) cutoff order highpass = .ok t := by
      unfold butterworth
      rw [hk]
      rw [← butterworth_factors k order] at ht
      exact ht
    unfold chebyshev1Filter rolloff
    rw [if_neg (by simpa using hr), hb]
    rfl
  · have he := ripple_pos hr
    have hsq : 0 < Real.sqrt ((10 : ℝ) ^ (|ripple| / 10) - 1) := Real.sqrt_pos.mpr he
    have ho' : (0 : ℝ) < order := by exact_mod_cast ho
    set g := Real.arsinh (1 / Real.sqrt ((10 : ℝ) ^ (|ripple| / 10) - 1)) / order with hg
    have hg0 : 0 < g := div_pos (Real.arsinh_pos_iff.mpr (by positivity)) ho'
    have hsg : 0 < Real.sinh g := Real.sinh_pos_iff.mpr hg0
    refine prototype "Chebyshev 1" highpass (inverseSections (fun θ => 1 / (Real.cosh g ^ 2 - Real.cos θ ^ 2))
      (fun θ => 2 * (1 / (Real.cosh g ^ 2 - Real.cos θ ^ 2)) * Real.sinh g * Real.cos θ) (1 / Real.sinh g) order)
      fun cutoff _ k hk hk0 => ?_
    obtain ⟨t, ht, hu, hv⟩ := sections_response n (fun θ => 1 / (Real.cosh g ^ 2 - Real.cos θ ^ 2))
      (fun θ => 2 * (1 / (Real.cosh g ^ 2 - Real.cos θ ^ 2)) * Real.sinh g * Real.cos θ) (1 / Real.sinh g) k order ho hk0
      (by positivity) (fun θ _ _ => one_div_pos.mpr (cosh_gt hg0.ne')) highpass
    refine ⟨t, ?_, hu, hv⟩
    have hb : chebyshev1 complexEnv (n + 3) cutoff ripple order highpass = .ok t := by
      unfold chebyshev1
      rw [hk]
      rw [← chebyshev1_factors k (Real.sinh g) (Real.cosh g ^ 2) order] at ht
      show (if _ then _ else _) = _
      rw [if_neg (by
        rintro (h | h)
        · exact hsq.ne' h
        · exact ho.ne' h)]
      exact ht
    unfold chebyshev1Filter rolloff
    rw [if_pos hr, hb]
    rfl

theorem sValue_re {f : ℝ} {highpass : Bool} {σ : ℂ} (h : sValue complexEnv f highpass = some σ) : σ.re = 0 := by
  have hs : (complexEnv.s f).re = 0 := by
    show (2 * I * Real.pi * f : ℂ).re = 0
    simp
  cases highpass with
  | false =>
    have h : some (complexEnv.s f) = some σ := h
    cases h
    exact hs
  | true =>
    by_cases h0 : complexEnv.s f = 0
    · simp [sValue, h0] at h
    · have h : some (complexEnv.s f)⁻¹ = some σ := by simpa [sValue, h0] using h
      cases h
      rw [Complex.inv_re, hs, zero_div]

/-- **C158**: The response of a Chebyshev filter of type 2 depends on the ratio of the frequency and the cutoff
frequency. -/
theorem C158_chebyshev2 (n order : Nat) (ho : 0 < order) (ripple : ℝ) (hr : ripple ≠ 0) (highpass : Bool) :
    Prototype fun cutoff => chebyshev2Filter complexEnv (n + 4) cutoff ripple order highpass := by
  have ho' : (0 : ℝ) < order := by exact_mod_cast ho
  have hl : 1 < (10 : ℝ) ^ (|ripple| / 20) := Real.one_lt_rpow (by norm_num) (by positivity)
  set g := Real.arsinh (Real.sqrt (((10 : ℝ) ^ (|ripple| / 20)) ^ 2 - 1)) / order with hg
  have hg0 : 0 < g := div_pos (Real.arsinh_pos_iff.mpr (Real.sqrt_pos.mpr (by nlinarith))) ho'
  have hsg : 0 < Real.sinh g := Real.sinh_pos_iff.mpr hg0
  refine prototype "Chebyshev 2" highpass (fun w => some
    (((sections (fun θ => Real.sin θ ^ 2) (fun _ => 0) 0 1 order).map fun cs =>
      polyval (cs.map fun (c : ℝ) => (c : ℂ)) w).prod /
    ((sections (fun θ => Real.cosh g ^ 2 - Real.cos θ ^ 2) (fun θ => 2 * Real.sinh g * Real.cos θ)
      (Real.sinh g) 1 order).map fun cs => polyval (cs.map fun (c : ℝ) => (c : ℂ)) w).prod))
    fun cutoff _ k hk hk0 => ?_
  have hmem := fun p hp => sections2_mem (p := p) hk0.ne' hg0 (order := order) hp
  have ne : sections2 k g order ≠ [] := by
    unfold sections2
    split
    · simp; omega
    · simp
  obtain ⟨t, ht, hu, hv⟩ := fractionProduct_env n (sections2 k g order) ne
    (fun p hp => (hmem p hp).1) (fun p hp => (hmem p hp).2.1) (fun p hp => (hmem p hp).2.2) highpass
  have hb : chebyshev2 complexEnv (n + 4) cutoff ripple order highpass = .ok t := by
    unfold chebyshev2
    rw [hk]
    show (if order = 0 then _ else _) = _
    rw [if_neg ho.ne']
    have hfac := chebyshev2_factors k g hk0.ne' hg0.ne' order
    show (_ >>= fun factors => productFactory complexEnv (n + 4) factors highpass) = _
    rw [hfac]
    exact ht complexEnv
  refine ⟨t, ?_, hu, fun f σ hσ => ?_⟩
  · unfold chebyshev2Filter rolloff
    rw [hb]
    rfl
  · obtain ⟨vs, v1, v2⟩ := sections2_values complexEnv k g order f highpass σ hσ
      (sections_ne_zero order hk0 hsg.le (fun θ _ _ => cosh_gt hg0.ne')
        (fun θ h1 h2 => mul_pos (mul_pos two_pos hsg) (Real.cos_pos_of_mem_Ioo ⟨by linarith, h2⟩)) (sValue_re hσ).ge)
    rw [hv complexEnv complexEnv_lawful f vs v1, v2, sections_scaled, sections_scaled (k := k)]

/-- **C158**: The response of a Bessel filter depends on the ratio of the frequency and the cutoff frequency. -/
theorem C158_bessel (order : Nat) (ho : 0 < order) (highpass : Bool) :
    Prototype fun cutoff => besselFilter cutoff order highpass := by
  refine prototype "Bessel" highpass (fun w => inverse (reverseBessel order w / reverseBessel order 0))
    fun cutoff _ k hk hk0 => ?_
  set cs := (List.range (order + 1)).map fun (j : Nat) =>
        (besselCoefficient (order - j) j : ℝ) / besselCoefficient 0 order * k ^ (order - j) with hcs
  have hb : bessel cutoff order highpass =
      div (.constant 1) (polynomialFactory (cs.map fun (c : ℝ) => (c : ℂ)) highpass) := by
    unfold bessel
    rw [hk, hcs, ← bessel_coefficients]
    rfl
  have red : Reduced (cs.map fun (c : ℝ) => (c : ℂ)) := by
    obtain ⟨m, rfl⟩ : ∃ m, order = m + 1 := ⟨order - 1, by omega⟩
    have : ∃ d l, List.range (m + 1 + 1) = 0 :: d :: l := by
      rw [List.range_succ_eq_map, List.range_succ_eq_map]
      exact ⟨_, _, rfl⟩
    obtain ⟨d, l, hl⟩ := this
    rw [hcs, hl]
    refine ⟨_, _, _, rfl, ?_⟩
    apply Complex.ofReal_ne_zero.mpr
    refine mul_ne_zero (div_ne_zero ?_ ?_) (pow_ne_zero _ hk0.ne')
    · exact_mod_cast (coefficient_pos _ _).ne'
    · exact_mod_cast (coefficient_pos _ _).ne'
  have e : ∀ s : ℂ, polyval (cs.map fun (c : ℝ) => (c : ℂ)) s =
      reverseBessel order (k * s) / reverseBessel order 0 := by
    intro s
    rw [hcs, List.map_map, polyval_range, reverseBessel_zero, reverseBessel_sum, Finset.sum_div]
    refine Finset.sum_congr rfl fun i hi => ?_
    have hi := Finset.mem_range.mp hi
    simp only [Function.comp]
    rw [show order - (order - i) = i by omega]
    push_cast
    ring
  refine ⟨.quotient (.constant 1) (.polynomial (cs.map fun (c : ℝ) => (c : ℂ)) highpass) false, ?_, ?_, ?_⟩
  · unfold besselFilter rolloff
    rw [hb, polynomialFactory_reduced red]
    simp [div, Bind.bind, Except.bind]
  · simp [usesTransform]
  · intro f σ hσ
    rw [← e]
    refine eval_inverse ?_
    rw [eval_polynomial]
    exact ⟨σ, by simpa using hσ, rfl⟩

/-- **C158**: The response of a delay filter does not depend on the unit, in which the delay and the frequency are given. -/
theorem C158_delay {a : ℝ} (ha : 0 < a) (mem : ℂ) (delay f : ℝ) (hf : 0 ≤ f) :
    (delayFilter (delay / a)).call complexEnv mem (a * f) = (delayFilter delay).call complexEnv mem f := by
  rw [C39_value mem _ _ (mul_nonneg ha.le hf), C39_value mem _ _ hf]
  have h : 2 * Real.pi * (a * f) * (delay / a) = 2 * Real.pi * f * delay := by
    have := ha.ne'
    field_simp
  rw [h]

/-- **C158**: The derivative is given in the unit, that belongs to the frequency. -/
theorem C158_derivative {a : ℝ} (ha : 0 < a) (mem : ℂ) (f : ℝ) (hf : 0 ≤ f) :
    derivativeFilter.call complexEnv mem (a * f) =
      (derivativeFilter.call complexEnv mem f).map (Option.map ((a : ℂ) * ·)) := by
  rw [C39_derivative mem _ (mul_nonneg ha.le hf), C39_derivative mem _ hf]
  simp only [List.map_cons, List.map_nil, Option.map_some]
  congr 2
  push_cast
  ring

/-- a cutoff frequency, that is given in hertz and in kilohertz -/
example : ∃ x y, butterworthFilter complexEnv 3 1000 3 false = .ok x ∧
    butterworthFilter complexEnv 3 (1 / 1000 * 1000) 3 false = .ok y ∧ y.labels = x.labels ∧
    ∀ mem f, 0 ≤ f → y.call complexEnv mem (1 / 1000 * f) = x.call complexEnv mem f :=
  C158_butterworth 0 3 (by norm_num) false (1 / 1000) 1000 (by norm_num) (by norm_num)

end Filter
end Verif
