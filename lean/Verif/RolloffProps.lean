import Verif.RolloffSections
import Mathlib.Analysis.SpecialFunctions.Trigonometric.Chebyshev.RootsExtrema

/-
C37: the magnitude of Butterworth filters; C39: delays and derivatives; C62: the magnitude of Chebyshev filters of type 1.
-/

namespace Verif
namespace Filter

open Complex (I)

/-! ### filters with one channel -/

theorem call_single (mem : ℂ) (t : Term ℝ ℂ) (label : String) (f : ℝ) (hf : 0 ≤ f) :
    (Channels.new [t] [label]).call complexEnv mem f =
      [if f = 0 ∧ usesTransform false t = true then some 0 else eval complexEnv f false t] := by
  rcases hf.lt_or_eq with h | h
  · rw [C33_positive_frequencies mem _ f h, if_neg (fun c => h.ne' c.1)]
    rfl
  · subst h
    show [(evalState complexEnv mem 0 false t false).1] = _
    rw [evalState_zero complexEnv mem 0 complexEnv_zero]
    cases usesTransform false t <;> simp

theorem single_labels (t : Term ℝ ℂ) (label : String) : (Channels.new [t] [label]).labels = [label] := by
  show sanitizeLabels (some [label]) [t].length = _
  exact Signal.sanitize_self (by simp)

/-! ### C39 -/

/-- C39: The magnitude of a delay filter is one. -/
theorem C39_magnitude (mem : ℂ) (delay f : ℝ) (hf : 0 ≤ f) :
    ∃ x, (delayFilter delay).call complexEnv mem f = [some x] ∧ ‖x‖ = 1 := by
  unfold delayFilter
  rw [call_single mem _ _ f hf]
  unfold expFactory
  split
  · refine ⟨1, ?_, by simp⟩
    simp [usesTransform, eval]
  · refine ⟨Complex.exp (((-delay : ℝ) : ℂ) * (2 * I * Real.pi * f)), ?_, ?_⟩
    · rw [if_neg (by simp [usesTransform])]
      rfl
    · rw [show ((-delay : ℝ) : ℂ) * (2 * I * Real.pi * f) = ((-delay * (2 * Real.pi * f) : ℝ) : ℂ) * I by push_cast; ring]
      exact Complex.norm_exp_ofReal_mul_I _

example : (delayFilter 0.5).labels = ["Delay"] := single_labels _ _

/-- the value of a delay filter -/
theorem C39_value (mem : ℂ) (delay f : ℝ) (hf : 0 ≤ f) :
    (delayFilter delay).call complexEnv mem f = [some (Complex.exp (-(2 * Real.pi * f * delay : ℝ) * I))] := by
  unfold delayFilter
  rw [call_single mem _ _ f hf]
  unfold expFactory
  split
  · next h =>
    have : delay = 0 := by
      have h : (-delay : ℝ) = 0 := by exact_mod_cast h
      linarith
    subst this
    simp [usesTransform, eval]
  · rw [if_neg (by simp [usesTransform])]
    show [some (Complex.exp (((-delay : ℝ) : ℂ) * (2 * I * Real.pi * f)))] = _
    congr 3
    push_cast
    ring

/-- C39: The product of two delay filters has the values of the filter with the sum of the delays. -/
theorem C39_delays_add (mem : ℂ) (n : Nat) (a b f : ℝ) (hf : 0 < f) (r : Channels ℝ ℂ)
    (h : (delayFilter a).algebraFunction (delayFilter b).transferFunctions (mul complexEnv n) "Product" = .ok r) :
    r.call complexEnv mem f = (delayFilter (a + b)).call complexEnv mem f := by
  have value : ∀ d : ℝ, eval complexEnv f false (expFactory ((-d : ℝ) : ℂ) false) =
      some (Complex.exp (-(2 * Real.pi * f * d : ℝ) * I)) := by
    intro d
    have h := C39_value mem d f hf.le
    rw [C33_positive_frequencies mem _ f hf] at h
    exact (List.cons.inj h).1
  have plain : ∀ d : ℝ, Plain true (expFactory ((-d : ℝ) : ℂ) false : Term ℝ ℂ) := by
    intro d
    unfold expFactory
    split
    · exact .constant _
    · exact .exp _ _ (by simp)
  obtain ⟨h1, _, h3⟩ := C36_channels _ _ _ _ _ h
  have len : r.transferFunctions.length = 1 := by
    rw [h1]
    rfl
  obtain ⟨x, y, z, hx, hy, hz, hr⟩ := h3 0 (by omega)
  have hx : expFactory ((-a : ℝ) : ℂ) false = x := Option.some.inj hx
  have hy : expFactory ((-b : ℝ) : ℂ) false = y := Option.some.inj hy
  subst hx hy
  have hr : r.transferFunctions = [z] := by
    match hq : r.transferFunctions, len with
    | [w], _ =>
      rw [hq] at hr
      simpa using hr
  rw [C39_value mem _ f hf.le, C33_positive_frequencies mem _ f hf, hr]
  have := ((sound complexEnv_lawful n).mul true _ _ z (plain a) (plain b) hz).2 f false _ _ (value a) (value b)
  rw [List.map_cons, this, ← Complex.exp_add]
  simp only [List.map_nil]
  congr 3
  push_cast
  ring

example : ∃ r, (delayFilter 1).algebraFunction (delayFilter 2).transferFunctions (mul complexEnv 3) "Product" = .ok r := by
  cases h : (delayFilter 1).algebraFunction (delayFilter 2).transferFunctions (mul complexEnv 3) "Product" with
  | ok r => exact ⟨r, rfl⟩
  | error e => simp [Channels.algebraFunction, delayFilter, Channels.new, expFactory, mul, Bind.bind, Except.bind, Pure.pure, Except.pure] at h

/-- C39: The derivative filter multiplies with the frequency variable. -/
theorem C39_derivative (mem : ℂ) (f : ℝ) (hf : 0 ≤ f) :
    derivativeFilter.call complexEnv mem f = [some (2 * Real.pi * f * I)] := by
  have e : (polynomialFactory [1, 0] false : Term ℝ ℂ) = .polynomial [1, 0] false :=
    polynomialFactory_reduced ⟨1, 0, [], rfl, one_ne_zero⟩ false
  unfold derivativeFilter
  rw [e, call_single mem _ _ f hf, if_neg (by simp [usesTransform])]
  show [some (polyval [1, 0] (2 * I * Real.pi * f))] = _
  simp only [polyval, List.foldl]
  congr 2
  ring

example : derivativeFilter.labels = ["Derivative"] := single_labels _ _

/-! ### C37 -/

theorem range_one (m : Nat) (a b : Int) (h : b - a = m) : pyRange a b 1 = (List.range m).map fun (j : Nat) => a + j := by
  unfold pyRange
  rw [if_pos (by omega), show ((b - a + 1 - 1) / 1).toNat = m by omega]
  simp

theorem butterworth_factors (k : ℝ) (order : Nat) :
    (if order % 2 = 0 then
        (pyRange 1 (order / 2 + 1) 1).map fun (i : Int) =>
          realPolynomial [k ^ 2, 2 * Real.cos ((2 * i - 1) * Real.pi / (2 * order)) * k, 1]
      else
        realPolynomial [k, 1] :: (pyRange 2 ((order + 1) / 2 + 1) 1).map fun (i : Int) =>
          realPolynomial [k ^ 2, 2 * Real.cos ((i - 1) * Real.pi / order) * k, 1]) =
      (sections (fun _ => 1) (fun θ => 2 * Real.cos θ) 1 k order).map realPolynomial := by
  unfold sections
  split
  · rw [range_one (order / 2) _ _ (by omega), List.map_map, List.map_map]
    refine List.map_congr_left fun j _ => ?_
    simp only [Function.comp, one_mul]
    rw [show (2 * ((1 + j : Int) : ℝ) - 1) = 2 * j + 1 by push_cast; ring]
  · rw [range_one (order / 2) _ _ (by omega), List.map_cons, List.map_map, List.map_map, one_mul]
    congr 1
    refine List.map_congr_left fun j _ => ?_
    simp only [Function.comp, one_mul]
    rw [show (((2 + j : Int) : ℝ) - 1) = j + 1 by push_cast; ring]

/-- the squared magnitude, that a Butterworth filter shall have -/
noncomputable def butterworthSpec (cutoff : ℝ) (order : Nat) (highpass : Bool) (f : ℝ) : ℝ :=
  if highpass then (f / cutoff) ^ (2 * order) / (1 + (f / cutoff) ^ (2 * order))
  else 1 / (1 + (f / cutoff) ^ (2 * order))

/-- C37: The filter is created without exceptions and has the magnitude of a Butterworth filter at all frequencies. -/
theorem C37_magnitude (mem : ℂ) (n : Nat) (cutoff : ℝ) (hc : 0 < cutoff) (order : Nat) (ho : 0 < order)
    (highpass : Bool) :
    ∃ a, butterworthFilter complexEnv (n + 3) cutoff order highpass = .ok a ∧ a.labels = ["Butterworth"] ∧
      ∀ f, 0 ≤ f → ∃ x, a.call complexEnv mem f = [some x] ∧
        ‖x‖ ^ 2 = butterworthSpec cutoff order highpass f := by
  obtain ⟨k, hk, hk0, hs⟩ := scaling_ok hc highpass
  obtain ⟨t, ht, hu, hv⟩ := sections_filter n (fun _ => 1) (fun θ => 2 * Real.cos θ) 1 k order ho hk0 one_ne_zero
    (fun _ _ _ => one_ne_zero) highpass
  have hb : butterworth complexEnv (n + 3) cutoff order highpass = .ok t := by
    unfold butterworth
    rw [hk]
    rw [← butterworth_factors k order] at ht
    exact ht
  refine ⟨Channels.new [t] ["Butterworth"], ?_, single_labels _ _, ?_⟩
  · unfold butterworthFilter rolloff
    rw [hb]
    rfl
  intro f hf
  rw [call_single mem t _ f hf, hu]
  by_cases h0 : f = 0 ∧ highpass = true
  · rw [if_pos h0]
    obtain ⟨rfl, rfl⟩ := h0
    refine ⟨0, rfl, ?_⟩
    simp [butterworthSpec, ho.ne']
  rw [if_neg h0]
  have hf0 : highpass = true → f ≠ 0 := fun a b => h0 ⟨b, a⟩
  obtain ⟨σ, hσ, hkσ⟩ := hs f hf0
  set u := relative cutoff highpass f with hu'
  have hr : (0 : ℝ) < 1 + (u ^ 2) ^ order := by positivity
  obtain ⟨x, hx, hn⟩ := hv f σ hσ u hkσ (fun θ => 1 + (u : ℂ) ^ 2 * Complex.exp (2 * θ * I))
    (by
      intro θ _ _
      have e : Complex.exp (2 * θ * I) * Complex.exp (2 * (-θ : ℝ) * I) = 1 := by
        rw [← Complex.exp_add, show (2 * θ * I + 2 * (-θ : ℝ) * I : ℂ) = 0 by push_cast; ring, Complex.exp_zero]
      have e2 : Complex.exp (2 * θ * I) + Complex.exp (2 * (-θ : ℝ) * I) = 4 * Complex.cos θ ^ 2 - 2 := by
        have h1 : Complex.cos (2 * θ) = (Complex.exp (2 * θ * I) + Complex.exp (2 * (-θ : ℝ) * I)) / 2 := by
          rw [Complex.cos]
          congr 3
          push_cast
          ring
        have h2 := Complex.cos_two_mul (θ : ℂ)
        rw [h1] at h2
        linear_combination 2 * h2
      push_cast at e e2 ⊢
      linear_combination (u : ℂ) ^ 4 * e + (u : ℂ) ^ 2 * e2)
    (by simp) (1 + (u ^ 2) ^ order) (by
      have h := butterworth_prod order ho ((u : ℂ) ^ 2)
      rw [h]
      push_cast
      rfl) hr.ne'
  refine ⟨x, by rw [hx], ?_⟩
  rw [hn]
  unfold butterworthSpec
  cases highpass with
  | false =>
    rw [if_neg (by simp), hu', relative, if_neg (by simp), ← pow_mul]
  | true =>
    have hfp : 0 < f := lt_of_le_of_ne hf (Ne.symm (hf0 rfl))
    rw [if_pos rfl, hu', relative, if_pos rfl, neg_sq, ← pow_mul, div_pow, div_pow]
    have : (0 : ℝ) < cutoff ^ (2 * order) := by positivity
    have : (0 : ℝ) < f ^ (2 * order) := by positivity
    field_simp
    ring

example : butterworthSpec 1000 2 false 2000 = 1 / 17 ∧ butterworthSpec 1000 2 true 2000 = 16 / 17 := by
  constructor <;> norm_num [butterworthSpec]

/-- C37: The magnitude at the cutoff frequency is -3 dB. -/
theorem C37_cutoff (mem : ℂ) (n : Nat) (cutoff : ℝ) (hc : 0 < cutoff) (order : Nat) (ho : 0 < order)
    (highpass : Bool) :
    ∃ a x, butterworthFilter complexEnv (n + 3) cutoff order highpass = .ok a ∧
      a.call complexEnv mem cutoff = [some x] ∧ ‖x‖ ^ 2 = 1 / 2 := by
  obtain ⟨a, h, _, hx⟩ := C37_magnitude mem n cutoff hc order ho highpass
  obtain ⟨x, h1, h2⟩ := hx cutoff hc.le
  refine ⟨a, x, h, h1, ?_⟩
  rw [h2, butterworthSpec, div_self hc.ne']
  cases highpass <;> norm_num

example : (0 : ℝ) < 1000 ∧ 0 < 3 := by norm_num

/-- C37: The magnitude is monotonic. -/
theorem C37_monotonic (mem : ℂ) (n : Nat) (cutoff : ℝ) (hc : 0 < cutoff) (order : Nat) (ho : 0 < order)
    (highpass : Bool) (f g : ℝ) (hf : 0 ≤ f) (hfg : f < g) :
    ∃ a x y, butterworthFilter complexEnv (n + 3) cutoff order highpass = .ok a ∧
      a.call complexEnv mem f = [some x] ∧ a.call complexEnv mem g = [some y] ∧
      if highpass then ‖x‖ < ‖y‖ else ‖y‖ < ‖x‖ := by
  obtain ⟨a, h, _, hx⟩ := C37_magnitude mem n cutoff hc order ho highpass
  obtain ⟨x, h1, h2⟩ := hx f hf
  obtain ⟨y, h3, h4⟩ := hx g (hf.trans hfg.le)
  refine ⟨a, x, y, h, h1, h3, ?_⟩
  have hp : (f / cutoff) ^ (2 * order) < (g / cutoff) ^ (2 * order) :=
    pow_lt_pow_left₀ (by gcongr) (by positivity) (by omega)
  have hp0 : (0 : ℝ) ≤ (f / cutoff) ^ (2 * order) := by positivity
  unfold butterworthSpec at h2 h4
  generalize (f / cutoff) ^ (2 * order) = p at *
  generalize (g / cutoff) ^ (2 * order) = q at *
  cases highpass with
  | false =>
    rw [if_neg (by simp)] at *
    refine lt_of_pow_lt_pow_left₀ 2 (norm_nonneg _) ?_
    rw [h2, h4]
    exact one_div_lt_one_div_of_lt (by linarith) (by linarith)
  | true =>
    rw [if_pos rfl] at *
    refine lt_of_pow_lt_pow_left₀ 2 (norm_nonneg _) ?_
    rw [h2, h4, div_lt_div_iff₀ (by linarith) (by linarith)]
    nlinarith

example : (0 : ℝ) ≤ 0 ∧ (0 : ℝ) < 20 := by norm_num

/-- C37: A filter with the order zero is rejected, because the product of no factors is zero and cannot be inverted. -/
theorem C37_order_zero (n : Nat) (cutoff : ℝ) (hc : 0 < cutoff) (highpass : Bool) :
    butterworthFilter complexEnv (n + 1) cutoff 0 highpass = .error .zeroDivisionError := by
  obtain ⟨k, hk, -⟩ := scaling_ok hc highpass
  unfold butterworthFilter rolloff butterworth
  rw [hk]
  simp [pyRange, productFactory, Term.invert, Bind.bind, Except.bind]

/-! ### C62 -/

/-- the identity behind the sections of a Chebyshev filter -/
theorem sin_pair (θ g : ℝ) :
    Complex.sin (θ + g * I) * Complex.sin ((-θ : ℝ) + g * I) = -((Real.cosh g ^ 2 - Real.cos θ ^ 2 : ℝ) : ℂ) ∧
    Complex.sin (θ + g * I) ^ 2 + Complex.sin ((-θ : ℝ) + g * I) ^ 2 =
      2 * ((Real.cosh g ^ 2 - Real.cos θ ^ 2 : ℝ) : ℂ) - 4 * (Real.sinh g * Real.cos θ : ℝ) ^ 2 := by
  have h1 := Complex.sin_sq_add_cos_sq (θ : ℂ)
  have h2 := Complex.cosh_sq (g : ℂ)
  push_cast
  rw [Complex.sin_add, Complex.sin_add, Complex.sin_neg, Complex.cos_neg, Complex.cos_mul_I, Complex.sin_mul_I]
  have hI := Complex.I_sq
  set S := Complex.sin (θ : ℂ)
  set C := Complex.cos (θ : ℂ)
  set sh := Complex.sinh (g : ℂ)
  set ch := Complex.cosh (g : ℂ)
  have e1 : S ^ 2 = 1 - C ^ 2 := by linear_combination h1
  have e2 : ch ^ 2 = 1 + sh ^ 2 := by linear_combination h2
  constructor
  · calc _ = -(S ^ 2 * ch ^ 2) + C ^ 2 * sh ^ 2 * I ^ 2 := by ring
      _ = _ := by rw [e1, e2, hI]; ring
  · calc _ = 2 * (S ^ 2 * ch ^ 2) + 2 * C ^ 2 * sh ^ 2 * I ^ 2 := by ring
      _ = _ := by rw [e1, e2, hI]; ring

theorem cosh_gt {g θ : ℝ} (hg : g ≠ 0) : 0 < Real.cosh g ^ 2 - Real.cos θ ^ 2 := by
  have h1 : 1 < Real.cosh g := Real.one_lt_cosh.mpr hg
  have h2 := Real.cos_sq_le_one θ
  nlinarith

theorem sin_ne_zero {g : ℝ} (hg : g ≠ 0) (θ : ℝ) : Complex.sin (θ + g * I) ≠ 0 := by
  intro h
  have := (sin_pair θ g).1
  rw [h, zero_mul] at this
  have h2 : (Real.cosh g ^ 2 - Real.cos θ ^ 2 : ℝ) = 0 := by
    have := neg_eq_zero.mp this.symm
    exact_mod_cast this
  exact (cosh_gt (θ := θ) hg).ne' h2

theorem chebyshev1_factors (k sinhg cosh2g : ℝ) (order : Nat) :
    (if order % 2 = 0 then
        (pyRange 1 (order / 2 + 1) 1).map fun (i : Int) =>
          realPolynomial [1 / (cosh2g - Real.cos ((2 * i - 1) * (Real.pi / (2 * order))) ^ 2) * k ^ 2,
            2 * (1 / (cosh2g - Real.cos ((2 * i - 1) * (Real.pi / (2 * order))) ^ 2)) * sinhg *
              Real.cos ((2 * i - 1) * (Real.pi / (2 * order))) * k, 1]
      else
        realPolynomial [1 / sinhg * k, 1] :: (pyRange 2 ((order + 1) / 2 + 1) 1).map fun (i : Int) =>
          realPolynomial [1 / (cosh2g - Real.cos ((i - 1) * (Real.pi / order)) ^ 2) * k ^ 2,
            2 * (1 / (cosh2g - Real.cos ((i - 1) * (Real.pi / order)) ^ 2)) * sinhg *
              Real.cos ((i - 1) * (Real.pi / order)) * k, 1]) =
      (sections (fun θ => 1 / (cosh2g - Real.cos θ ^ 2))
        (fun θ => 2 * (1 / (cosh2g - Real.cos θ ^ 2)) * sinhg * Real.cos θ) (1 / sinhg) k order).map realPolynomial := by
  unfold sections
  split
  · rw [range_one (order / 2) _ _ (by omega), List.map_map, List.map_map]
    refine List.map_congr_left fun j _ => ?_
    simp only [Function.comp]
    rw [show (2 * ((1 + j : Int) : ℝ) - 1) * (Real.pi / (2 * order)) = (2 * j + 1) * Real.pi / (2 * order) by
      push_cast; ring]
  · rw [range_one (order / 2) _ _ (by omega), List.map_cons, List.map_map, List.map_map]
    congr 1
    refine List.map_congr_left fun j _ => ?_
    simp only [Function.comp]
    rw [show (((2 + j : Int) : ℝ) - 1) * (Real.pi / order) = (j + 1) * Real.pi / order by push_cast; ring]

/-- the squared magnitude, that a Chebyshev filter of type 1 shall have: the ripple is defined by a Chebyshev polynomial
of the relative frequency and the gain is one at 0 Hz (or at infinite frequencies for a highpass). -/
noncomputable def chebyshev1Spec (cutoff ripple : ℝ) (order : Nat) (highpass : Bool) (f : ℝ) : ℝ :=
  let e := (10 : ℝ) ^ (|ripple| / 10) - 1
  let T := fun x : ℝ => (Polynomial.Chebyshev.T ℝ order).eval x
  if highpass then if f = 0 then 0 else (1 + e * T 0 ^ 2) / (1 + e * T (cutoff / f) ^ 2)
  else (1 + e * T 0 ^ 2) / (1 + e * T (f / cutoff) ^ 2)

theorem ripple_pos {ripple : ℝ} (h : ripple ≠ 0) : 0 < (10 : ℝ) ^ (|ripple| / 10) - 1 := by
  have : (1 : ℝ) < 10 ^ (|ripple| / 10) := Real.one_lt_rpow (by norm_num) (by positivity)
  linarith

theorem T_neg_sq (n : Nat) (x : ℝ) :
    (Polynomial.Chebyshev.T ℝ n).eval (-x) ^ 2 = (Polynomial.Chebyshev.T ℝ n).eval x ^ 2 := by
  rw [Polynomial.Chebyshev.T_eval_neg, mul_pow]
  have : (((n : ℤ).negOnePow : ℤ) : ℝ) ^ 2 = 1 := by
    rcases Int.even_or_odd (n : ℤ) with h | h
    · rw [Int.negOnePow_even _ h]; simp
    · rw [Int.negOnePow_odd _ h]; simp
  rw [this, one_mul]

/-- C62: The filter is created without exceptions and has the magnitude of a Chebyshev filter at all frequencies. -/
theorem C62_magnitude (mem : ℂ) (n : Nat) (cutoff ripple : ℝ) (hc : 0 < cutoff) (hr : ripple ≠ 0) (order : Nat)
    (ho : 0 < order) (highpass : Bool) :
    ∃ a, chebyshev1Filter complexEnv (n + 3) cutoff ripple order highpass = .ok a ∧ a.labels = ["Chebyshev 1"] ∧
      ∀ f, 0 ≤ f → ∃ x, a.call complexEnv mem f = [some x] ∧
        ‖x‖ ^ 2 = chebyshev1Spec cutoff ripple order highpass f := by
  obtain ⟨k, hk, hk0, hs⟩ := scaling_ok hc highpass
  have he := ripple_pos hr
  set e := (10 : ℝ) ^ (|ripple| / 10) - 1 with hedef
  have hsq : 0 < Real.sqrt e := Real.sqrt_pos.mpr he
  have ho' : (0 : ℝ) < order := by exact_mod_cast ho
  set g := Real.arsinh (1 / Real.sqrt e) / order with hg
  have hg0 : 0 < g := div_pos (Real.arsinh_pos_iff.mpr (by positivity)) ho'
  have hsg : Real.sinh g ≠ 0 := (Real.sinh_pos_iff.mpr hg0).ne'
  have hS : Real.sinh (order * g) ^ 2 = 1 / e := by
    rw [hg, mul_div_cancel₀ _ ho'.ne', Real.sinh_arsinh, div_pow, Real.sq_sqrt he.le, one_pow]
  obtain ⟨t, ht, hu, hv⟩ := sections_filter n (fun θ => 1 / (Real.cosh g ^ 2 - Real.cos θ ^ 2))
    (fun θ => 2 * (1 / (Real.cosh g ^ 2 - Real.cos θ ^ 2)) * Real.sinh g * Real.cos θ) (1 / Real.sinh g) k order ho hk0
    (one_div_ne_zero hsg) (fun θ _ _ => one_div_ne_zero (cosh_gt hg0.ne').ne') highpass
  have hb : chebyshev1 complexEnv (n + 3) cutoff ripple order highpass = .ok t := by
    unfold chebyshev1
    rw [hk]
    rw [← chebyshev1_factors k (Real.sinh g) (Real.cosh g ^ 2) order] at ht
    show (if Real.sqrt e = 0 ∨ order = 0 then _ else _) = _
    rw [if_neg (by rintro (h | h); exacts [hsq.ne' h, ho.ne' h])]
    exact ht
  refine ⟨Channels.new [t] ["Chebyshev 1"], ?_, single_labels _ _, ?_⟩
  · unfold chebyshev1Filter rolloff
    rw [if_pos hr, hb]
    rfl
  intro f hf
  rw [call_single mem t _ f hf, hu]
  by_cases h0 : f = 0 ∧ highpass = true
  · rw [if_pos h0]
    obtain ⟨rfl, rfl⟩ := h0
    refine ⟨0, rfl, ?_⟩
    simp [chebyshev1Spec]
  rw [if_neg h0]
  have hf0 : highpass = true → f ≠ 0 := fun a b => h0 ⟨b, a⟩
  obtain ⟨σ, hσ, hkσ⟩ := hs f hf0
  set u := relative cutoff highpass f with hu'
  set T := fun x : ℝ => (Polynomial.Chebyshev.T ℝ order).eval x with hT
  have hpos : ∀ x, 0 < T x ^ 2 + 1 / e := fun x => by positivity
  have prodC : ∀ x : ℝ, ∏ j ∈ Finset.range order, (4 * ((x : ℂ) ^ 2 - Complex.sin (poleAngle order j + g * I) ^ 2)) =
      ((4 * (T x ^ 2 + 1 / e) : ℝ) : ℂ) := by
    intro x
    rw [chebyshev_prod order ho, ← hS]
    push_cast
    rw [show ((T x : ℝ) : ℂ) = _ from Polynomial.Chebyshev.complex_ofReal_eval_T x order]
  obtain ⟨x, hx, hn⟩ := hv f σ hσ u hkσ (fun θ => 1 - (u : ℂ) ^ 2 / Complex.sin (θ + g * I) ^ 2)
    (by
      intro θ _ _
      obtain ⟨p1, p2⟩ := sin_pair θ g
      have n1 := sin_ne_zero hg0.ne' θ
      have n2 := sin_ne_zero hg0.ne' (-θ)
      have n3 : ((Real.cosh g ^ 2 - Real.cos θ ^ 2 : ℝ) : ℂ) ≠ 0 := by
        exact_mod_cast (cosh_gt hg0.ne').ne'
      have l : (1 - (u : ℂ) ^ 2 / Complex.sin (θ + g * I) ^ 2) * (1 - (u : ℂ) ^ 2 / Complex.sin ((-θ : ℝ) + g * I) ^ 2) =
          1 - u ^ 2 * (Complex.sin (θ + g * I) ^ 2 + Complex.sin ((-θ : ℝ) + g * I) ^ 2) /
            (Complex.sin (θ + g * I) * Complex.sin ((-θ : ℝ) + g * I)) ^ 2 +
            u ^ 4 / (Complex.sin (θ + g * I) * Complex.sin ((-θ : ℝ) + g * I)) ^ 2 := by
        field_simp
        ring
      rw [l, p1, p2]
      simp only [Complex.ofReal_mul, Complex.ofReal_div, Complex.ofReal_one, Complex.ofReal_ofNat]
      generalize ((Real.cosh g ^ 2 - Real.cos θ ^ 2 : ℝ) : ℂ) = D at n3
      field_simp
      ring)
    (by
      have : Complex.sin ((0 : ℝ) + g * I) ^ 2 = -((Real.sinh g : ℝ) : ℂ) ^ 2 := by
        rw [Complex.ofReal_zero, zero_add, Complex.sin_mul_I, mul_pow, Complex.I_sq]
        push_cast
        ring
      have n : ((Real.sinh g : ℝ) : ℂ) ≠ 0 := by exact_mod_cast hsg
      rw [this, Complex.ofReal_div, Complex.ofReal_one]
      field_simp
      ring) ((T u ^ 2 + 1 / e) / (T 0 ^ 2 + 1 / e)) (by
      have a := prodC u
      have b := prodC 0
      have hb0 : ((4 * (T 0 ^ 2 + 1 / e) : ℝ) : ℂ) ≠ 0 := by
        exact_mod_cast (mul_pos (by norm_num) (hpos 0)).ne'
      rw [show (((T u ^ 2 + 1 / e) / (T 0 ^ 2 + 1 / e) : ℝ) : ℂ) =
        ((4 * (T u ^ 2 + 1 / e) : ℝ) : ℂ) / ((4 * (T 0 ^ 2 + 1 / e) : ℝ) : ℂ) by
          rw [← Complex.ofReal_div, mul_div_mul_left _ _ (by norm_num)], ← a, ← b, ← Finset.prod_div_distrib]
      refine Finset.prod_congr rfl fun j _ => ?_
      have n1 := sin_ne_zero hg0.ne' (poleAngle order j)
      rw [Complex.ofReal_zero]
      field_simp
      ring) (div_pos (hpos u) (hpos 0)).ne'
  refine ⟨x, by rw [hx], ?_⟩
  have frac : ∀ v : ℝ, 1 / ((T v ^ 2 + 1 / e) / (T 0 ^ 2 + 1 / e)) = (1 + e * T 0 ^ 2) / (1 + e * T v ^ 2) := by
    intro v
    have h1 := hpos v
    have h2 := hpos 0
    have h3 : 0 < 1 + e * T v ^ 2 := by positivity
    rw [one_div_div]
    rw [div_eq_div_iff h1.ne' h3.ne']
    field_simp
    ring
  rw [hn, frac]
  unfold chebyshev1Spec
  rw [← hedef]
  cases highpass with
  | false => rw [if_neg (by simp), hu', relative, if_neg (by simp)]
  | true =>
    rw [if_pos rfl, if_neg (hf0 rfl), hu', relative, if_pos rfl]
    dsimp only [T]
    rw [T_neg_sq]

example : chebyshev1Spec 1000 3 1 false 0 = 1 := by
  simp [chebyshev1Spec]

/-- C62: In the pass band of an even order filter, the magnitude is not less than one and exceeds it by at most the given
ripple. It is one at the cutoff frequency and less than one in the stop band. -/
theorem C62_even_order (mem : ℂ) (n : Nat) (cutoff ripple : ℝ) (hc : 0 < cutoff) (hr : ripple ≠ 0) (order : Nat)
    (ho : 0 < order) (he : order % 2 = 0) :
    ∃ a, chebyshev1Filter complexEnv (n + 3) cutoff ripple order false = .ok a ∧
      ∀ f, 0 ≤ f → ∃ x, a.call complexEnv mem f = [some x] ∧
        (f ≤ cutoff → 1 ≤ ‖x‖ ^ 2 ∧ ‖x‖ ^ 2 ≤ 10 ^ (|ripple| / 10)) ∧ (f = cutoff → ‖x‖ ^ 2 = 1) ∧
        (cutoff < f → ‖x‖ ^ 2 < 1) := by
  obtain ⟨a, h, _, hx⟩ := C62_magnitude mem n cutoff ripple hc hr order ho false
  refine ⟨a, h, fun f hf => ?_⟩
  obtain ⟨x, h1, h2⟩ := hx f hf
  refine ⟨x, h1, ?_⟩
  have hT0 : (Polynomial.Chebyshev.T ℝ order).eval 0 ^ 2 = 1 := by
    have ev : Even (order : ℤ) := ⟨order / 2, by omega⟩
    rw [Polynomial.Chebyshev.T_eval_zero_of_even ℝ ev]
    rcases Int.even_or_odd ((order : ℤ) / 2) with h | h
    · rw [Int.negOnePow_even _ h]; simp
    · rw [Int.negOnePow_odd _ h]; simp
  have hp := ripple_pos hr
  unfold chebyshev1Spec at h2
  rw [if_neg (by simp)] at h2
  dsimp only at h2
  rw [hT0] at h2
  rw [show (10 : ℝ) ^ (|ripple| / 10) = 10 ^ (|ripple| / 10) - 1 + 1 by ring]
  generalize (10 : ℝ) ^ (|ripple| / 10) - 1 = e at *
  have hT1 : f ≤ cutoff → (Polynomial.Chebyshev.T ℝ order).eval (f / cutoff) ^ 2 ≤ 1 := by
    intro h
    have := Polynomial.Chebyshev.abs_eval_T_real_le_one order (x := f / cutoff) (by
      rw [abs_of_nonneg (by positivity)]
      exact (div_le_one hc).mpr h)
    exact (sq_le_one_iff_abs_le_one _).mpr this
  have hT2 : cutoff < f → 1 < (Polynomial.Chebyshev.T ℝ order).eval (f / cutoff) ^ 2 := by
    intro h
    have := Polynomial.Chebyshev.one_lt_eval_T_real (n := order) (by exact_mod_cast ho.ne') (x := f / cutoff)
      ((one_lt_div hc).mpr h)
    nlinarith
  have hT3 : f = cutoff → (Polynomial.Chebyshev.T ℝ order).eval (f / cutoff) ^ 2 = 1 := by
    rintro rfl
    rw [div_self hc.ne', Polynomial.Chebyshev.T_eval_one]
    norm_num
  have hnn : (0 : ℝ) ≤ (Polynomial.Chebyshev.T ℝ order).eval (f / cutoff) ^ 2 := sq_nonneg _
  generalize (Polynomial.Chebyshev.T ℝ order).eval (f / cutoff) ^ 2 = q at *
  have hd : 0 < 1 + e * q := by positivity
  rw [h2]
  refine ⟨fun h => ⟨?_, ?_⟩, fun h => ?_, fun h => ?_⟩
  · rw [one_le_div hd]
    nlinarith [hT1 h]
  · rw [div_le_iff₀ hd]
    nlinarith [mul_nonneg hp.le hnn, mul_nonneg hp.le (mul_nonneg hp.le hnn)]
  · rw [hT3 h, div_self (by positivity)]
  · rw [div_lt_one hd]
    nlinarith [hT2 h]

example : (3 : ℝ) ≠ 0 ∧ 0 < 4 ∧ 4 % 2 = 0 := by norm_num

/-- C62: In the pass band of an odd order filter, the magnitude is not greater than one and falls below it by at most the
given ripple. It has fallen by the ripple at the cutoff frequency and is less in the stop band. -/
theorem C62_odd_order (mem : ℂ) (n : Nat) (cutoff ripple : ℝ) (hc : 0 < cutoff) (hr : ripple ≠ 0) (order : Nat)
    (he : order % 2 = 1) :
    ∃ a, chebyshev1Filter complexEnv (n + 3) cutoff ripple order false = .ok a ∧
      ∀ f, 0 ≤ f → ∃ x, a.call complexEnv mem f = [some x] ∧
        (f ≤ cutoff → 1 / 10 ^ (|ripple| / 10) ≤ ‖x‖ ^ 2 ∧ ‖x‖ ^ 2 ≤ 1) ∧
        (f = cutoff → ‖x‖ ^ 2 = 1 / 10 ^ (|ripple| / 10)) ∧
        (cutoff < f → ‖x‖ ^ 2 < 1 / 10 ^ (|ripple| / 10)) := by
  have ho : 0 < order := by omega
  obtain ⟨a, h, _, hx⟩ := C62_magnitude mem n cutoff ripple hc hr order ho false
  refine ⟨a, h, fun f hf => ?_⟩
  obtain ⟨x, h1, h2⟩ := hx f hf
  refine ⟨x, h1, ?_⟩
  have hT0 : (Polynomial.Chebyshev.T ℝ order).eval 0 = 0 :=
    Polynomial.Chebyshev.T_eval_zero_of_odd ℝ ⟨(order : ℤ) / 2, by omega⟩
  have hp := ripple_pos hr
  unfold chebyshev1Spec at h2
  rw [if_neg (by simp)] at h2
  dsimp only at h2
  rw [hT0] at h2
  rw [show (10 : ℝ) ^ (|ripple| / 10) = 1 + (10 ^ (|ripple| / 10) - 1) by ring]
  generalize (10 : ℝ) ^ (|ripple| / 10) - 1 = e at *
  have hT1 : f ≤ cutoff → (Polynomial.Chebyshev.T ℝ order).eval (f / cutoff) ^ 2 ≤ 1 := by
    intro h
    have := Polynomial.Chebyshev.abs_eval_T_real_le_one order (x := f / cutoff) (by
      rw [abs_of_nonneg (by positivity)]
      exact (div_le_one hc).mpr h)
    exact (sq_le_one_iff_abs_le_one _).mpr this
  have hT2 : cutoff < f → 1 < (Polynomial.Chebyshev.T ℝ order).eval (f / cutoff) ^ 2 := by
    intro h
    have := Polynomial.Chebyshev.one_lt_eval_T_real (n := order) (by exact_mod_cast ho.ne') (x := f / cutoff)
      ((one_lt_div hc).mpr h)
    nlinarith
  have hT3 : f = cutoff → (Polynomial.Chebyshev.T ℝ order).eval (f / cutoff) ^ 2 = 1 := by
    rintro rfl
    rw [div_self hc.ne', Polynomial.Chebyshev.T_eval_one]
    norm_num
  have hnn : (0 : ℝ) ≤ (Polynomial.Chebyshev.T ℝ order).eval (f / cutoff) ^ 2 := sq_nonneg _
  generalize (Polynomial.Chebyshev.T ℝ order).eval (f / cutoff) ^ 2 = q at *
  have hd : 0 < 1 + e * q := by positivity
  have h2 : ‖x‖ ^ 2 = 1 / (1 + e * q) := by
    rw [h2]
    norm_num
  rw [h2]
  refine ⟨fun h => ⟨?_, ?_⟩, fun h => ?_, fun h => ?_⟩
  · exact one_div_le_one_div_of_le hd (by nlinarith [hT1 h])
  · rw [div_le_one hd]
    nlinarith [mul_nonneg hp.le hnn]
  · rw [hT3 h, mul_one]
  · exact one_div_lt_one_div_of_lt (by linarith) (by nlinarith [hT2 h])

example : (3 : ℝ) ≠ 0 ∧ 5 % 2 = 1 := by norm_num

/-- C62: Without a ripple, the filter is a Butterworth filter (with the label of a Chebyshev filter). -/
theorem C62_no_ripple (n : Nat) (cutoff : ℝ) (order : Nat) (highpass : Bool) :
    chebyshev1Filter complexEnv n cutoff 0 order highpass =
      rolloff (butterworth complexEnv n cutoff order highpass) "Chebyshev 1" := by
  simp [chebyshev1Filter]

end Filter
end Verif
