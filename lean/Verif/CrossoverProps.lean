import Verif.FilterPhaseProps

/-
Property C140: Butterworth filters as crossovers.
-/

namespace Verif
namespace Filter

open Complex Topology

/-- the values of a lowpass and a highpass filter with the same cutoff frequency and the same order -/
theorem butterworth_pair (n : Nat) (cutoff : ℝ) (hc : 0 < cutoff) (order : Nat) (ho : 0 < order) :
    ∃ p q : Term ℝ ℂ,
      butterworthFilter complexEnv (n + 3) cutoff order false =
        .ok (Channels.new [.quotient (.constant 1) p false] ["Butterworth"]) ∧
      butterworthFilter complexEnv (n + 3) cutoff order true =
        .ok (Channels.new [.quotient (.constant 1) q false] ["Butterworth"]) ∧
      ∀ f, 0 < f → ∃ α β ψ : ℝ, 0 < α ∧ 0 < β ∧ α ^ 2 = 1 / (1 + (f / cutoff) ^ (2 * order)) ∧
        β ^ 2 = 1 / (1 + (cutoff / f) ^ (2 * order)) ∧
        eval complexEnv f false (.quotient (.constant 1) p false) = some (α * exp (ψ * I)) ∧
        eval complexEnv f false (.quotient (.constant 1) q false) =
          some (β * exp ((ψ + order * (Real.pi / 2) : ℝ) * I)) := by
  obtain ⟨φ, hφ, hsym⟩ := list_phase (sections (fun _ => 1) (fun θ => 2 * Real.cos θ) 1 1 order) Symmetric
    (fun u _ => by simp) (fun m n φ ψ h1 h2 u hu => by
      have := h1 u hu
      have := h2 u hu
      push_cast
      linarith) fun cs hcs => by
    rcases sections_mem hcs with rfl | ⟨θ, a1, a2, rfl⟩
    · obtain ⟨φ, hφ⟩ := linear_phase one_pos
      exact ⟨φ, hφ.congr fun u => by simp [sectionValue, polyval], linear_symmetric (hφ.congr fun u => by simp)⟩
    · have hcos : 0 < 2 * Real.cos θ := mul_pos two_pos (Real.cos_pos_of_mem_Ioo ⟨by linarith, a2⟩)
      obtain ⟨φ, hφ⟩ := quadratic_phase one_pos hcos
      refine ⟨φ, hφ.congr fun u => ?_, quadratic_symmetric hcos (hφ.congr fun u => by simp)⟩
      simp [sectionValue, polyval]
      ring
  rw [sections_degree] at hφ hsym
  have key : ∀ highpass, ∃ p : Term ℝ ℂ, butterworthFilter complexEnv (n + 3) cutoff order highpass =
        .ok (Channels.new [.quotient (.constant 1) p false] ["Butterworth"]) ∧
      ∀ f, 0 < f → ∃ α : ℝ, 0 < α ∧ α ^ 2 = 1 / (1 + (if highpass then cutoff / f else f / cutoff) ^ (2 * order)) ∧
        eval complexEnv f false (.quotient (.constant 1) p false) =
          some (α * exp ((-φ (relative cutoff highpass f) : ℝ) * I)) := by
    intro highpass
    obtain ⟨k, hk, hk0, hs⟩ := scaling_both hc highpass
    obtain ⟨t, ht, ⟨p, rfl⟩, hu, hv⟩ := sections_transfer n (fun _ => 1) (fun θ => 2 * Real.cos θ) 1 k order ho hk0 one_pos
      (fun _ _ _ => one_pos) (fun θ h1 h2 => mul_pos two_pos (Real.cos_pos_of_mem_Ioo ⟨by linarith, h2⟩)) highpass
    have hb : butterworth complexEnv (n + 3) cutoff order highpass = .ok (.quotient (.constant 1) p false) := by
      unfold butterworth
      rw [hk]
      rw [← butterworth_factors k order] at ht
      exact ht
    have hfilter : butterworthFilter complexEnv (n + 3) cutoff order highpass =
        .ok (Channels.new [.quotient (.constant 1) p false] ["Butterworth"]) := by
      unfold butterworthFilter rolloff
      rw [hb]
      rfl
    refine ⟨p, hfilter, fun f hf => ?_⟩
    obtain ⟨σ, hσ, hkσ⟩ := hs f fun _ => hf.ne'
    have hval := hv f σ hσ _ hkσ
    obtain ⟨ρ, hρ, e⟩ := hφ.value (relative cutoff highpass f)
    have hρc : (ρ : ℂ) ≠ 0 := Complex.ofReal_ne_zero.mpr hρ.ne'
    have hval' : eval complexEnv f false (.quotient (.constant 1) p false) =
        some (((1 / ρ : ℝ) : ℂ) * exp ((-φ (relative cutoff highpass f) : ℝ) * I)) := by
      rw [hval, e]
      congr 1
      push_cast
      rw [neg_mul, Complex.exp_neg]
      have := Complex.exp_ne_zero (φ (relative cutoff highpass f) * I)
      field_simp
    refine ⟨1 / ρ, by positivity, ?_, hval'⟩
    obtain ⟨a, H, h1, h2, h3⟩ := butterworth_transfer 0 n cutoff hc order ho highpass
    rw [hfilter] at h1
    cases h1
    have h4 := h2 f hf
    rw [call_single 0 _ _ f hf.le, if_neg (fun h => hf.ne' h.1), hval'] at h4
    have h5 : H f = ((1 / ρ : ℝ) : ℂ) * exp ((-φ (relative cutoff highpass f) : ℝ) * I) := by
      simpa using h4.symm
    rw [← h3 f hf, h5, norm_mul, Complex.norm_exp_ofReal_mul_I, mul_one, Complex.norm_real, Real.norm_eq_abs, sq_abs]
  obtain ⟨p, hp, hpv⟩ := key false
  obtain ⟨q, hq, hqv⟩ := key true
  refine ⟨p, q, hp, hq, fun f hf => ?_⟩
  obtain ⟨α, hα, a1, a2⟩ := hpv f hf
  obtain ⟨β, hβ, b1, b2⟩ := hqv f hf
  refine ⟨α, β, -φ (relative cutoff false f), hα, hβ, a1, b1, a2, ?_⟩
  rw [b2]
  congr 5
  have := hsym (f / cutoff) (div_pos hf hc)
  rw [show 1 / (f / cutoff) = cutoff / f by field_simp] at this
  simp only [relative, Bool.false_eq_true, if_false, if_true, hφ.odd]
  linarith

theorem power_complementary {x : ℝ} (hx : 0 < x) (n : Nat) :
    1 / (1 + x ^ (2 * n)) + 1 / (1 + (1 / x) ^ (2 * n)) = 1 := by
  have h1 : 0 < x ^ (2 * n) := by positivity
  have h2 : (1 / x) ^ (2 * n) = 1 / x ^ (2 * n) := by rw [div_pow, one_pow]
  rw [h2]
  field_simp
  ring

/-- C140: The energy of a signal is split: the sum of the squared magnitudes of the two filters is one. -/
theorem C140_power (mem : ℂ) (n : Nat) (cutoff : ℝ) (hc : 0 < cutoff) (order : Nat) (ho : 0 < order) :
    ∃ lp hp, butterworthFilter complexEnv (n + 3) cutoff order false = .ok lp ∧
      butterworthFilter complexEnv (n + 3) cutoff order true = .ok hp ∧ ∀ f, 0 < f →
        ∃ x y, lp.call complexEnv mem f = [some x] ∧ hp.call complexEnv mem f = [some y] ∧ ‖x‖ ^ 2 + ‖y‖ ^ 2 = 1 := by
  obtain ⟨lp, H, h1, h2, h3⟩ := butterworth_transfer mem n cutoff hc order ho false
  obtain ⟨hp, G, g1, g2, g3⟩ := butterworth_transfer mem n cutoff hc order ho true
  refine ⟨lp, hp, h1, g1, fun f hf => ⟨_, _, h2 f hf, g2 f hf, ?_⟩⟩
  rw [h3 f hf, g3 f hf]
  have := power_complementary (div_pos hf hc) order
  rw [show 1 / (f / cutoff) = cutoff / f by field_simp] at this
  exact this

example : (0 : ℝ) < 1000 ∧ 0 < 3 := by norm_num

/-! ### sums -/

theorem single_call (mem : ℂ) (t : Term ℝ ℂ) (label : String) {f : ℝ} (hf : 0 < f) :
    (Channels.new [t] [label]).call complexEnv mem f = [eval complexEnv f false t] := by
  rw [call_single mem t label f hf.le, if_neg (fun h => hf.ne' h.1)]

theorem sum_value {a b : Term ℝ ℂ} {f : ℝ} {x y : ℂ} (ha : eval complexEnv f false a = some x)
    (hb : eval complexEnv f false b = some y) : eval complexEnv f false (.sum [a, b] false) = some (x + y) := by
  rw [eval_sum]
  exact ⟨[x, y], .cons ha (.cons hb .nil), by simp⟩

theorem difference_value {a b : Term ℝ ℂ} {f : ℝ} {x y : ℂ} (ha : eval complexEnv f false a = some x)
    (hb : eval complexEnv f false b = some y) : eval complexEnv f false (.difference a b false) = some (x - y) := by
  rw [eval_difference]
  exact ⟨x, y, ha, hb, rfl⟩

theorem product_value {a b : Term ℝ ℂ} {f : ℝ} {x y : ℂ} (ha : eval complexEnv f false a = some x)
    (hb : eval complexEnv f false b = some y) : eval complexEnv f false (.product [a, b] false) = some (x * y) := by
  rw [eval_product _ _ _ _ (by simp)]
  exact ⟨[x, y], .cons ha (.cons hb .nil), by simp⟩

theorem add_single (m : Nat) {a b c : Term ℝ ℂ} (x y : String) (h : Filter.add complexEnv m a b = .ok c) :
    (Channels.new [a] [x]).add complexEnv m (.filter (Channels.new [b] [y])) = .ok (Channels.new [c] ["Sum"]) := by
  simp [Channels.add, Channels.algebraFunction, Channels.new, h, Bind.bind, Except.bind, Pure.pure, Except.pure]

theorem sub_single (m : Nat) {a b c : Term ℝ ℂ} (x y : String) (h : Filter.sub complexEnv m a b = .ok c) :
    (Channels.new [a] [x]).sub complexEnv m (.filter (Channels.new [b] [y])) = .ok (Channels.new [c] ["Difference"]) := by
  simp [Channels.sub, Channels.algebraFunction, Channels.new, h, Bind.bind, Except.bind, Pure.pure, Except.pure]

theorem mul_single (m : Nat) {a b c : Term ℝ ℂ} (x y : String) (h : Filter.mul complexEnv m a b = .ok c) :
    (Channels.new [a] [x]).mul complexEnv m (.filter (Channels.new [b] [y])) = .ok (Channels.new [c] ["Product"]) := by
  simp [Channels.mul, Channels.algebraFunction, Channels.new, h, Bind.bind, Except.bind, Pure.pure, Except.pure]

theorem norm_superposition (α β ψ θ : ℝ) :
    ‖(α * exp (ψ * I) + β * exp ((ψ + θ : ℝ) * I) : ℂ)‖ ^ 2 = α ^ 2 + β ^ 2 + 2 * α * β * Real.cos θ := by
  have e : (α * exp (ψ * I) + β * exp ((ψ + θ : ℝ) * I) : ℂ) = exp (ψ * I) * (α + β * exp (θ * I)) := by
    push_cast
    rw [add_mul, Complex.exp_add]
    ring
  rw [e, norm_mul, Complex.norm_exp_ofReal_mul_I, one_mul, ← Complex.normSq_eq_norm_sq, Complex.normSq_apply,
    Complex.exp_mul_I, ← Complex.ofReal_cos, ← Complex.ofReal_sin]
  simp only [Complex.add_re, Complex.add_im, Complex.mul_re, Complex.mul_im, Complex.ofReal_re, Complex.ofReal_im, Complex.I_re,
    Complex.I_im]
  linear_combination β ^ 2 * Real.sin_sq_add_cos_sq θ

theorem cos_odd {n : Nat} (hn : n % 2 = 1) : Real.cos (n * (Real.pi / 2)) = 0 := by
  obtain ⟨k, rfl⟩ : ∃ k, n = 2 * k + 1 := ⟨n / 2, by omega⟩
  rw [Real.cos_eq_zero_iff]
  exact ⟨k, by push_cast; ring⟩

/-- the sum and the difference of the two filters -/
theorem butterworth_sum (mem : ℂ) (n m : Nat) (cutoff : ℝ) (hc : 0 < cutoff) (order : Nat) (ho : 0 < order) :
    ∃ lp hp s d, butterworthFilter complexEnv (n + 3) cutoff order false = .ok lp ∧
      butterworthFilter complexEnv (n + 3) cutoff order true = .ok hp ∧
      lp.add complexEnv (m + 1) (.filter hp) = .ok s ∧ lp.sub complexEnv (m + 1) (.filter hp) = .ok d ∧
      ∀ f, 0 < f → ∃ x y, s.call complexEnv mem f = [some x] ∧ d.call complexEnv mem f = [some y] ∧
        ∃ α β : ℝ, 0 < α ∧ 0 < β ∧ α ^ 2 = 1 / (1 + (f / cutoff) ^ (2 * order)) ∧ β ^ 2 = 1 / (1 + (cutoff / f) ^ (2 * order)) ∧
        ‖x‖ ^ 2 = 1 + 2 * α * β * Real.cos (order * (Real.pi / 2)) ∧
        ‖y‖ ^ 2 = 1 - 2 * α * β * Real.cos (order * (Real.pi / 2)) := by
  obtain ⟨p, q, hp, hq, hv⟩ := butterworth_pair n cutoff hc order ho
  refine ⟨_, _, _, _, hp, hq, add_single (m + 1) _ _ rfl, sub_single (m + 1) _ _ rfl, fun f hf => ?_⟩
  obtain ⟨α, β, ψ, hα, hβ, ha, hb, e, g⟩ := hv f hf
  have h1 := power_complementary (div_pos hf hc) order
  rw [show 1 / (f / cutoff) = cutoff / f by field_simp, ← ha, ← hb] at h1
  refine ⟨_, _, (single_call mem _ _ hf).trans (congrArg (fun z => [z]) (sum_value e g)),
    (single_call mem _ _ hf).trans (congrArg (fun z => [z]) (difference_value e g)), α, β, hα, hβ, ha, hb, ?_, ?_⟩
  · rw [norm_superposition, h1]
  · have := norm_superposition α (-β) ψ (order * (Real.pi / 2))
    rw [show (α * exp (ψ * I) - β * exp ((ψ + order * (Real.pi / 2) : ℝ) * I) : ℂ) =
      α * exp (ψ * I) + ((-β : ℝ) : ℂ) * exp ((ψ + order * (Real.pi / 2) : ℝ) * I) by push_cast; ring, this]
    linarith

/-- C140: The sum and the difference of a lowpass and a highpass filter with the same odd order do not change the magnitudes
of any frequency. -/
theorem C140_odd (mem : ℂ) (n m : Nat) (cutoff : ℝ) (hc : 0 < cutoff) (order : Nat) (ho : order % 2 = 1) :
    ∃ lp hp s d, butterworthFilter complexEnv (n + 3) cutoff order false = .ok lp ∧
      butterworthFilter complexEnv (n + 3) cutoff order true = .ok hp ∧
      lp.add complexEnv (m + 1) (.filter hp) = .ok s ∧ lp.sub complexEnv (m + 1) (.filter hp) = .ok d ∧
      ∀ f, 0 < f → ∃ x y, s.call complexEnv mem f = [some x] ∧ d.call complexEnv mem f = [some y] ∧ ‖x‖ = 1 ∧ ‖y‖ = 1 := by
  obtain ⟨lp, hp, s, d, h1, h2, h3, h4, h5⟩ := butterworth_sum mem n m cutoff hc order (by omega)
  refine ⟨lp, hp, s, d, h1, h2, h3, h4, fun f hf => ?_⟩
  obtain ⟨x, y, hx, hy, α, β, -, -, -, -, e, g⟩ := h5 f hf
  rw [cos_odd ho, mul_zero] at e g
  refine ⟨x, y, hx, hy, ?_, ?_⟩
  · exact (pow_eq_one_iff_of_nonneg (norm_nonneg _) two_ne_zero).mp (by linarith)
  · exact (pow_eq_one_iff_of_nonneg (norm_nonneg _) two_ne_zero).mp (by linarith)

example : (0 : ℝ) < 1000 ∧ 3 % 2 = 1 := by norm_num

/-- the transfer function of a filter of first order -/
theorem butterworth_first (n : Nat) (cutoff : ℝ) (hc : 0 < cutoff) (highpass : Bool) :
    ∃ p : Term ℝ ℂ, butterworthFilter complexEnv (n + 3) cutoff 1 highpass =
        .ok (Channels.new [.quotient (.constant 1) p false] ["Butterworth"]) ∧
      ∀ f, 0 < f → eval complexEnv f false (.quotient (.constant 1) p false) =
        some (1 / (1 + I * (relative cutoff highpass f : ℝ))) := by
  obtain ⟨k, hk, hk0, hs⟩ := scaling_both hc highpass
  obtain ⟨t, ht, ⟨p, rfl⟩, hu, hv⟩ := sections_transfer n (fun _ => 1) (fun θ => 2 * Real.cos θ) 1 k 1 one_pos hk0 one_pos
    (fun _ _ _ => one_pos) (fun θ h1 h2 => mul_pos two_pos (Real.cos_pos_of_mem_Ioo ⟨by linarith, h2⟩)) highpass
  have hb : butterworth complexEnv (n + 3) cutoff 1 highpass = .ok (.quotient (.constant 1) p false) := by
    unfold butterworth
    rw [hk]
    rw [← butterworth_factors k 1] at ht
    exact ht
  refine ⟨p, ?_, fun f hf => ?_⟩
  · unfold butterworthFilter rolloff
    rw [hb]
    rfl
  · obtain ⟨σ, hσ, hkσ⟩ := hs f fun _ => hf.ne'
    rw [hv f σ hσ _ hkσ]
    simp [sections, sectionValue, polyval]
    ring

/-- C140: The sum of a lowpass and a highpass filter of first order is one, so that it does not change the signal at all. -/
theorem C140_first_order (mem : ℂ) (n m : Nat) (cutoff : ℝ) (hc : 0 < cutoff) :
    ∃ lp hp s, butterworthFilter complexEnv (n + 3) cutoff 1 false = .ok lp ∧
      butterworthFilter complexEnv (n + 3) cutoff 1 true = .ok hp ∧
      lp.add complexEnv (m + 1) (.filter hp) = .ok s ∧ ∀ f, 0 < f → s.call complexEnv mem f = [some 1] := by
  obtain ⟨p, hp, hpv⟩ := butterworth_first n cutoff hc false
  obtain ⟨q, hq, hqv⟩ := butterworth_first n cutoff hc true
  refine ⟨_, _, _, hp, hq, add_single (m + 1) _ _ rfl, fun f hf => ?_⟩
  rw [single_call mem _ _ hf, sum_value (hpv f hf) (hqv f hf)]
  have h1 : (f : ℂ) ≠ 0 := Complex.ofReal_ne_zero.mpr hf.ne'
  have h2 : (cutoff : ℂ) ≠ 0 := Complex.ofReal_ne_zero.mpr hc.ne'
  have h3 : (cutoff + I * f : ℂ) ≠ 0 := fun h => hc.ne' (by simpa using congrArg Complex.re h)
  have e1 : (1 + I * (relative cutoff false f : ℝ) : ℂ) = (cutoff + I * f) / cutoff := by
    simp only [relative, Bool.false_eq_true, if_false]
    push_cast
    field_simp
  have e2 : (1 + I * (relative cutoff true f : ℝ) : ℂ) = (cutoff + I * f) / (I * f) := by
    simp only [relative, if_true]
    push_cast
    have := Complex.I_ne_zero
    field_simp
    linear_combination (-(cutoff : ℂ)) * Complex.I_sq
  rw [e1, e2, one_div_div, one_div_div, ← add_div, div_self h3]

example : (0 : ℝ) < 1000 := by norm_num

/-- C140: Filters with an even order can not be added this way: at the cutoff frequency, they cancel each other out or the level
is raised by 3 dB. It is the other way around for the difference. -/
theorem C140_even (mem : ℂ) (n m : Nat) (cutoff : ℝ) (hc : 0 < cutoff) (order : Nat) (ho : 0 < order) (he : order % 2 = 0) :
    ∃ lp hp s d, butterworthFilter complexEnv (n + 3) cutoff order false = .ok lp ∧
      butterworthFilter complexEnv (n + 3) cutoff order true = .ok hp ∧
      lp.add complexEnv (m + 1) (.filter hp) = .ok s ∧ lp.sub complexEnv (m + 1) (.filter hp) = .ok d ∧
      ∃ x y, s.call complexEnv mem cutoff = [some x] ∧ d.call complexEnv mem cutoff = [some y] ∧
        if order % 4 = 0 then ‖x‖ = Real.sqrt 2 ∧ y = 0 else x = 0 ∧ ‖y‖ = Real.sqrt 2 := by
  obtain ⟨lp, hp, s, d, h1, h2, h3, h4, h5⟩ := butterworth_sum mem n m cutoff hc order ho
  refine ⟨lp, hp, s, d, h1, h2, h3, h4, ?_⟩
  obtain ⟨x, y, hx, hy, α, β, hα, hβ, ha, hb, e, g⟩ := h5 cutoff hc
  refine ⟨x, y, hx, hy, ?_⟩
  rw [div_self hc.ne', one_pow] at ha hb
  have hαβ : α = β := (sq_eq_sq₀ hα.le hβ.le).mp (by rw [ha, hb])
  have h6 : 2 * α * β = 1 := by
    rw [← hαβ]
    linarith
  rw [h6, one_mul] at e g
  split_ifs with h
  · have hcos : Real.cos (order * (Real.pi / 2)) = 1 := by
      obtain ⟨k, hk⟩ : ∃ k, order = 4 * k := ⟨order / 4, by omega⟩
      rw [hk, Real.cos_eq_one_iff]
      exact ⟨k, by push_cast; ring⟩
    rw [hcos] at e g
    refine ⟨?_, ?_⟩
    · rw [← Real.sqrt_sq (norm_nonneg x), e]
      norm_num
    · rw [← norm_eq_zero]
      exact pow_eq_zero_iff two_ne_zero |>.mp (by linarith)
  · have hcos : Real.cos (order * (Real.pi / 2)) = -1 := by
      obtain ⟨k, hk⟩ : ∃ k, order = 4 * k + 2 := ⟨order / 4, by omega⟩
      rw [hk, Real.cos_eq_neg_one_iff]
      exact ⟨k, by push_cast; ring⟩
    rw [hcos] at e g
    refine ⟨?_, ?_⟩
    · rw [← norm_eq_zero]
      exact pow_eq_zero_iff two_ne_zero |>.mp (by linarith)
    · rw [← Real.sqrt_sq (norm_nonneg y), g]
      norm_num

example : (0 : ℝ) < 1000 ∧ 0 < 2 ∧ 2 % 2 = 0 ∧ 4 % 4 = 0 := by norm_num

/-- C140: Linkwitz-Riley crossovers consist of squared Butterworth filters. The magnitude of the sum of both channels (for even
orders of the Butterworth filters) or of their difference (for odd orders) is one for all frequencies. The magnitudes of both
channels at the cutoff frequency are one half. -/
theorem C140_linkwitz_riley (mem : ℂ) (n m : Nat) (cutoff : ℝ) (hc : 0 < cutoff) (order : Nat) (ho : 0 < order) :
    ∃ lp hp l h s, butterworthFilter complexEnv (n + 3) cutoff order false = .ok lp ∧
      butterworthFilter complexEnv (n + 3) cutoff order true = .ok hp ∧
      lp.mul complexEnv (m + 1) (.filter lp) = .ok l ∧ hp.mul complexEnv (m + 1) (.filter hp) = .ok h ∧
      (if order % 2 = 0 then l.add complexEnv (m + 1) (.filter h) else l.sub complexEnv (m + 1) (.filter h)) = .ok s ∧
      (∀ f, 0 < f → ∃ z, s.call complexEnv mem f = [some z] ∧ ‖z‖ = 1) ∧
      ∃ x y, l.call complexEnv mem cutoff = [some x] ∧ h.call complexEnv mem cutoff = [some y] ∧ ‖x‖ = 1 / 2 ∧ ‖y‖ = 1 / 2 := by
  obtain ⟨p, q, hp, hq, hv⟩ := butterworth_pair n cutoff hc order ho
  have hcut : ∃ x y, (Channels.new [.product [.quotient (.constant 1) p false, .quotient (.constant 1) p false] false]
        ["Product"] : Channels ℝ ℂ).call complexEnv mem cutoff = [some x] ∧
      (Channels.new [.product [.quotient (.constant 1) q false, .quotient (.constant 1) q false] false]
        ["Product"] : Channels ℝ ℂ).call complexEnv mem cutoff = [some y] ∧ ‖x‖ = 1 / 2 ∧ ‖y‖ = 1 / 2 := by
    obtain ⟨α, β, ψ, hα, hβ, ha, hb, e, g⟩ := hv cutoff hc
    rw [div_self hc.ne', one_pow] at ha hb
    refine ⟨_, _, (single_call mem _ _ hc).trans (congrArg (fun z => [z]) (product_value e e)),
      (single_call mem _ _ hc).trans (congrArg (fun z => [z]) (product_value g g)), ?_, ?_⟩
    · rw [norm_mul, norm_mul, Complex.norm_exp_ofReal_mul_I, Complex.norm_real, Real.norm_of_nonneg hα.le]
      linarith
    · rw [norm_mul, norm_mul, Complex.norm_exp_ofReal_mul_I, Complex.norm_real, Real.norm_of_nonneg hβ.le]
      linarith
  have hsum : ∀ f, 0 < f → ∃ x y : ℂ,
      eval complexEnv f false (.product [.quotient (.constant 1) p false, .quotient (.constant 1) p false] false) = some x ∧
      eval complexEnv f false (.product [.quotient (.constant 1) q false, .quotient (.constant 1) q false] false) = some y ∧
      if order % 2 = 0 then ‖x + y‖ = 1 else ‖x - y‖ = 1 := by
    intro f hf
    obtain ⟨α, β, ψ, hα, hβ, ha, hb, e, g⟩ := hv f hf
    have h1 := power_complementary (div_pos hf hc) order
    rw [show 1 / (f / cutoff) = cutoff / f by field_simp, ← ha, ← hb] at h1
    refine ⟨_, _, product_value e e, product_value g g, ?_⟩
    have hpi : exp ((order * (Real.pi / 2) : ℝ) * I) * exp ((order * (Real.pi / 2) : ℝ) * I) = (-1) ^ order := by
      rw [← Complex.exp_add, ← Complex.exp_pi_mul_I, ← Complex.exp_nat_mul]
      congr 1
      push_cast
      ring
    have hg : (β * exp ((ψ + order * (Real.pi / 2) : ℝ) * I) * (β * exp ((ψ + order * (Real.pi / 2) : ℝ) * I)) : ℂ) =
        (-1) ^ order * β ^ 2 * (exp (ψ * I) * exp (ψ * I)) := by
      rw [← hpi]
      push_cast
      rw [add_mul, Complex.exp_add]
      ring
    have hone : ‖(exp (ψ * I) * exp (ψ * I) * ((α ^ 2 + β ^ 2 : ℝ) : ℂ))‖ = 1 := by
      rw [h1, norm_mul, norm_mul, Complex.norm_exp_ofReal_mul_I]
      simp
    rw [hg]
    split_ifs with h
    · rw [Even.neg_one_pow (Nat.even_iff.mpr h), ← hone]
      congr 1
      push_cast
      ring
    · rw [Odd.neg_one_pow (Nat.odd_iff.mpr (by omega)), ← hone]
      congr 1
      push_cast
      ring
  by_cases h : order % 2 = 0
  · refine ⟨_, _, _, _, _, hp, hq, mul_single (m + 1) _ _ rfl, mul_single (m + 1) _ _ rfl,
      (if_pos h).trans (add_single (m + 1) (c := .sum
        [.product [.quotient (.constant 1) p false, .quotient (.constant 1) p false] false,
        .product [.quotient (.constant 1) q false, .quotient (.constant 1) q false] false] false) _ _ ?_), fun f hf => ?_, hcut⟩
    · rfl
    · obtain ⟨x, y, hx, hy, hxy⟩ := hsum f hf
      rw [if_pos h] at hxy
      exact ⟨x + y, (single_call mem _ _ hf).trans (congrArg (fun z => [z]) (sum_value hx hy)), hxy⟩
  · refine ⟨_, _, _, _, _, hp, hq, mul_single (m + 1) _ _ rfl, mul_single (m + 1) _ _ rfl,
      (if_neg h).trans (sub_single (m + 1) (c := .difference
        (.product [.quotient (.constant 1) p false, .quotient (.constant 1) p false] false)
        (.product [.quotient (.constant 1) q false, .quotient (.constant 1) q false] false) false) _ _ ?_), fun f hf => ?_, hcut⟩
    · rfl
    · obtain ⟨x, y, hx, hy, hxy⟩ := hsum f hf
      rw [if_neg h] at hxy
      exact ⟨x - y, (single_call mem _ _ hf).trans (congrArg (fun z => [z]) (difference_value hx hy)), hxy⟩

example : (0 : ℝ) < 1000 ∧ 0 < 2 := by norm_num

end Filter
end Verif
