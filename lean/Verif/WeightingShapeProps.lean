import Verif.WeightingProps
import Verif.ChebyshevOptimalProps
import Mathlib.Analysis.MeanInequalities

/-
C134: the shapes of the curves of the A-, B- and C-weighting at all frequencies.

In a diagram with logarithmic axes, the curves are concave. Therefore they rise up to a maximum and fall after it. Below
the reference frequency, the A-weighting attenuates more than the B-weighting, which attenuates more than the
C-weighting. Above the reference frequency, the order is reversed. The curve of the C-weighting is symmetric and passes
more than half of the power exactly between its two specified frequencies.

/repo/sumpf/_data/_filters/_weighting.py, lines 26-77 and 120-160.
-/

namespace Verif
namespace Filter

/-! ### the factors of the squared magnitudes -/

/-- a frequency response, that is not negative, is concave in a diagram, where both axes are logarithmic -/
def LogConcave (g : ℝ → ℝ) : Prop :=
  ∀ u v t : ℝ, 0 < u → 0 < v → 0 ≤ t → t ≤ 1 → g u ^ (1 - t) * g v ^ t ≤ g (u ^ (1 - t) * v ^ t)

/-- Hölder's inequality for sums of two numbers -/
theorem holder_two {a b p t : ℝ} (ha : 0 < a) (hb : 0 < b) (hp : 0 < p) (h0 : 0 ≤ t) (h1 : t ≤ 1) :
    a ^ (1 - t) * b ^ t + p ≤ (a + p) ^ (1 - t) * (b + p) ^ t := by
  have e1 := Real.geom_mean_le_arith_mean2_weighted (sub_nonneg.mpr h1) h0 (div_pos ha (add_pos ha hp)).le
    (div_pos hb (add_pos hb hp)).le (by ring)
  have e2 := Real.geom_mean_le_arith_mean2_weighted (sub_nonneg.mpr h1) h0 (div_pos hp (add_pos ha hp)).le
    (div_pos hp (add_pos hb hp)).le (by ring)
  have pa := add_pos ha hp
  have pb := add_pos hb hp
  rw [Real.div_rpow ha.le pa.le, Real.div_rpow hb.le pb.le] at e1
  rw [Real.div_rpow hp.le pa.le, Real.div_rpow hp.le pb.le] at e2
  have hA := Real.rpow_pos_of_pos pa (1 - t)
  have hB := Real.rpow_pos_of_pos pb t
  have hpp : p ^ (1 - t) * p ^ t = p := by rw [← Real.rpow_add hp]; simp
  have e3 : (1 - t) * (a / (a + p)) + t * (b / (b + p)) + ((1 - t) * (p / (a + p)) + t * (p / (b + p))) = 1 := by
    have d1 : a / (a + p) + p / (a + p) = 1 := by rw [← add_div, div_self pa.ne']
    have d2 : b / (b + p) + p / (b + p) = 1 := by rw [← add_div, div_self pb.ne']
    linear_combination (1 - t) * d1 + t * d2
  have e4 : (a ^ (1 - t) * b ^ t + p) / ((a + p) ^ (1 - t) * (b + p) ^ t) ≤ 1 := by
    refine le_trans (le_of_eq ?_) ((add_le_add e1 e2).trans e3.le)
    rw [div_mul_div_comm, div_mul_div_comm, hpp, ← add_div]
  rwa [div_le_one (mul_pos hA hB)] at e4

theorem LogConcave.mul {g h : ℝ → ℝ} (hg : LogConcave g) (hh : LogConcave h) (pg : ∀ f, 0 < f → 0 ≤ g f)
    (ph : ∀ f, 0 < f → 0 ≤ h f) : LogConcave fun f => g f * h f := by
  intro u v t hu hv h0 h1
  dsimp only
  rw [Real.mul_rpow (pg u hu) (ph u hu), Real.mul_rpow (pg v hv) (ph v hv)]
  have e1 := hg u v t hu hv h0 h1
  have e2 := hh u v t hu hv h0 h1
  have hm : 0 < u ^ (1 - t) * v ^ t := mul_pos (Real.rpow_pos_of_pos hu _) (Real.rpow_pos_of_pos hv _)
  calc _ = (g u ^ (1 - t) * g v ^ t) * (h u ^ (1 - t) * h v ^ t) := by ring
    _ ≤ _ := mul_le_mul e1 e2 (mul_nonneg (Real.rpow_nonneg (ph u hu) _) (Real.rpow_nonneg (ph v hv) _)) (pg _ hm)

/-- the powers of the frequency are straight lines in the diagram -/
theorem line (k : ℝ) (hk : 0 ≤ k) (n : Nat) : LogConcave fun f => k * f ^ n := by
  intro u v t hu hv h0 h1
  dsimp only
  rcases hk.eq_or_lt with hk | hk
  · subst hk
    simp only [zero_mul]
    rcases h0.eq_or_lt with h | h
    · subst h; norm_num
    · rw [Real.zero_rpow h.ne', mul_zero]
  have hn : ∀ x y : ℝ, 0 < x → (x ^ n) ^ y = (x ^ y) ^ n := by
    intro x y hx
    rw [← Real.rpow_natCast, ← Real.rpow_mul hx.le, mul_comm, Real.rpow_mul hx.le, Real.rpow_natCast]
  rw [Real.mul_rpow hk.le (by positivity), Real.mul_rpow hk.le (by positivity), hn u _ hu, hn v _ hv, mul_pow]
  have hkk : k ^ (1 - t) * k ^ t = k := by rw [← Real.rpow_add hk]; simp
  refine le_of_eq ?_
  calc _ = (k ^ (1 - t) * k ^ t) * ((u ^ (1 - t)) ^ n * (v ^ t) ^ n) := by ring
    _ = _ := by rw [hkk]

/-- a pole of a filter -/
theorem pole_concave {p : ℝ} (hp : 0 < p) : LogConcave fun f => 1 / (f ^ 2 + p) := by
  intro u v t hu hv h0 h1
  dsimp only
  have hn : ∀ x y : ℝ, 0 < x → (x ^ 2) ^ y = (x ^ y) ^ 2 := by
    intro x y hx
    rw [← Real.rpow_natCast, ← Real.rpow_mul hx.le, mul_comm, Real.rpow_mul hx.le, Real.rpow_natCast]
  have h := holder_two (pow_pos hu 2) (pow_pos hv 2) hp h0 h1
  rw [hn u _ hu, hn v _ hv, ← mul_pow] at h
  have hm : 0 < (u ^ (1 - t) * v ^ t) ^ 2 + p := by positivity
  rw [Real.div_rpow zero_le_one (by positivity), Real.div_rpow zero_le_one (by positivity), Real.one_rpow,
    Real.one_rpow, div_mul_div_comm, one_mul]
  exact one_div_le_one_div_of_le hm h

theorem f2_pos : 0 < iecF2 := by
  have h : Real.sqrt 5 < 3 := by
    rw [Real.sqrt_lt' (by norm_num)]
    norm_num
  exact mul_pos (by linarith) (Real.rpow_pos_of_pos (by norm_num) _)

theorem f3_bound : 158.5 < iecF3 := by
  have h : (2 : ℝ) < Real.sqrt 5 := by
    rw [Real.lt_sqrt (by norm_num)]
    norm_num
  have h2 : (10 : ℝ) ^ (2 : ℝ) ≤ (10 : ℝ) ^ (2.45 : ℝ) := Real.rpow_le_rpow_of_exponent_le (by norm_num) (by norm_num)
  rw [show (10 : ℝ) ^ (2 : ℝ) = 100 by norm_num] at h2
  unfold iecF3
  nlinarith

theorem quadratic_factors (f : ℝ) : f ^ 4 - iecB * f ^ 2 + iecC = (f ^ 2 + f1 ^ 2) * (f ^ 2 + f4 ^ 2) := by
  obtain ⟨-, -, h3, h4⟩ := f_facts
  linear_combination (-f ^ 2) * h3 - h4

theorem quadratic_pos (f : ℝ) : 0 < f ^ 4 - iecB * f ^ 2 + iecC := by
  obtain ⟨h1, h2, -, -⟩ := f_facts
  rw [quadratic_factors]
  positivity

theorem spec_pos {w : Weighting} (hw : w = .a ∨ w = .b ∨ w = .c) {f : ℝ} (hf : 0 < f) : 0 < weightingSpec w f := by
  have h := quadratic_pos f
  have h2 := f2_pos
  have h3 := f3_bound
  have h3' : 0 < iecF3 := by linarith
  rcases hw with rfl | rfl | rfl <;> unfold weightingSpec <;> positivity

theorem spec_concave {w : Weighting} (hw : w = .a ∨ w = .b ∨ w = .c) : LogConcave (weightingSpec w) := by
  obtain ⟨p1, p4, -, -⟩ := f_facts
  have p2 := f2_pos
  have p3 : 0 < iecF3 := by linarith [f3_bound]
  have hp : ∀ {p : ℝ}, 0 < p → ∀ f : ℝ, 0 < f → 0 ≤ 1 / (f ^ 2 + p) := fun h f _ => by positivity
  have hl : ∀ n : Nat, ∀ f : ℝ, 0 < f → 0 ≤ (1 : ℝ) * f ^ n := fun n f h => by positivity
  have q1 := pow_pos p1 2
  have q4 := pow_pos p4 2
  have c1 := (pole_concave q1).mul (pole_concave q4) (hp q1) (hp q4)
  have h1 : ∀ f : ℝ, 0 < f → 0 ≤ 1 / (f ^ 2 + f1 ^ 2) * (1 / (f ^ 2 + f4 ^ 2)) :=
    fun f h => mul_nonneg (hp q1 f h) (hp q4 f h)
  have c2 := c1.mul c1 h1 h1
  have h2 : ∀ f : ℝ, 0 < f → 0 ≤ 1 / (f ^ 2 + f1 ^ 2) * (1 / (f ^ 2 + f4 ^ 2)) *
      (1 / (f ^ 2 + f1 ^ 2) * (1 / (f ^ 2 + f4 ^ 2))) := fun f h => mul_nonneg (h1 f h) (h1 f h)
  rcases hw with rfl | rfl | rfl
  · have c3 := (pole_concave (pow_pos p2 2)).mul (pole_concave (pow_pos p3 2)) (hp (pow_pos p2 2)) (hp (pow_pos p3 2))
    have h3 : ∀ f : ℝ, 0 < f → 0 ≤ 1 / (f ^ 2 + iecF2 ^ 2) * (1 / (f ^ 2 + iecF3 ^ 2)) :=
      fun f h => mul_nonneg (hp (pow_pos p2 2) f h) (hp (pow_pos p3 2) f h)
    have c4 := c2.mul c3 h2 h3
    have c5 := (line 1 zero_le_one 8).mul c4 (hl 8) (fun f h => mul_nonneg (h2 f h) (h3 f h))
    convert c5 using 1
    funext f
    unfold weightingSpec
    dsimp only
    rw [quadratic_factors]
    simp only [div_eq_mul_inv, mul_inv, one_mul]
    generalize (f ^ 2 + f1 ^ 2)⁻¹ = i1
    generalize (f ^ 2 + f4 ^ 2)⁻¹ = i4
    ring
  · have p5 : (0 : ℝ) < 158.5 ^ 2 := by norm_num
    have c4 := c2.mul (pole_concave p5) h2 (hp p5)
    have c5 := (line 1 zero_le_one 6).mul c4 (hl 6) (fun f h => mul_nonneg (h2 f h) (hp p5 f h))
    convert c5 using 1
    funext f
    unfold weightingSpec
    dsimp only
    rw [quadratic_factors]
    simp only [div_eq_mul_inv, mul_inv, one_mul]
    generalize (f ^ 2 + f1 ^ 2)⁻¹ = i1
    generalize (f ^ 2 + f4 ^ 2)⁻¹ = i4
    ring
  · have c5 := (line 1 zero_le_one 4).mul c2 (hl 4) h2
    convert c5 using 1
    funext f
    unfold weightingSpec
    dsimp only
    rw [quadratic_factors]
    simp only [div_eq_mul_inv, mul_inv, one_mul]
    generalize (f ^ 2 + f1 ^ 2)⁻¹ = i1
    generalize (f ^ 2 + f4 ^ 2)⁻¹ = i4
    ring

/-- the transfer function of the filters with the squares of their magnitudes -/
theorem weighting_transfer (w : Weighting) (mem : ℂ) :
    ∃ a H, w.filter complexEnv = .ok a ∧ HasTransfer mem a H ∧
      ∀ f, 0 < f → ‖H f‖ ^ 2 = weightingSpec w f / weightingSpec w 1000 := by
  obtain ⟨a, h1, -, -, h2⟩ := C40_weighting w mem
  have hx : ∀ f : ℝ, ∃ x : ℂ, 0 < f → a.call complexEnv mem f = [some x] ∧
      ‖x‖ ^ 2 = weightingSpec w f / weightingSpec w 1000 := by
    intro f
    by_cases hf : 0 < f
    · obtain ⟨x, h⟩ := h2 f hf.le
      exact ⟨x, fun _ => h⟩
    · exact ⟨0, fun h => absurd h hf⟩
  choose H hH using hx
  exact ⟨a, H, h1, fun f hf => (hH f hf).1, fun f hf => (hH f hf).2⟩

theorem norm_eq_sqrt {w : Weighting} {H : ℝ → ℂ}
    (h : ∀ f, 0 < f → ‖H f‖ ^ 2 = weightingSpec w f / weightingSpec w 1000) {f : ℝ} (hf : 0 < f) :
    ‖H f‖ = (weightingSpec w f / weightingSpec w 1000) ^ (1 / 2 : ℝ) := by
  rw [← h f hf, ← Real.sqrt_eq_rpow, Real.sqrt_sq (norm_nonneg _)]

/-! ### the shapes -/

theorem magnitude_concave {w : Weighting} (hw : w = .a ∨ w = .b ∨ w = .c) {H : ℝ → ℂ}
    (h : ∀ f, 0 < f → ‖H f‖ ^ 2 = weightingSpec w f / weightingSpec w 1000) : LogConcave fun f => ‖H f‖ := by
  intro u v t hu hv h0 h1
  have hm : 0 < u ^ (1 - t) * v ^ t := mul_pos (Real.rpow_pos_of_pos hu _) (Real.rpow_pos_of_pos hv _)
  dsimp only
  have pu := spec_pos hw hu
  have pv := spec_pos hw hv
  have pm := spec_pos hw hm
  have pr := spec_pos hw (f := 1000) (by norm_num)
  rw [norm_eq_sqrt h hu, norm_eq_sqrt h hv, norm_eq_sqrt h hm, ← Real.rpow_mul (div_pos pu pr).le,
    ← Real.rpow_mul (div_pos pv pr).le, mul_comm (1 / 2 : ℝ) (1 - t), mul_comm (1 / 2 : ℝ) t,
    Real.rpow_mul (div_pos pu pr).le, Real.rpow_mul (div_pos pv pr).le,
    ← Real.mul_rpow (by positivity) (by positivity)]
  apply Real.rpow_le_rpow (by positivity) _ (by norm_num)
  rw [Real.div_rpow pu.le pr.le, Real.div_rpow pv.le pr.le, div_mul_div_comm, ← Real.rpow_add pr]
  rw [show 1 - t + t = 1 by ring, Real.rpow_one]
  exact div_le_div_of_nonneg_right (spec_concave hw u v t hu hv h0 h1) pr.le

/-- C134: The curves of the A-, B- and C-weighting are concave in a diagram with logarithmic axes. -/
theorem C134_concave {w : Weighting} (hw : w = .a ∨ w = .b ∨ w = .c) (mem : ℂ) :
    ∃ a H, w.filter complexEnv = .ok a ∧ HasTransfer mem a H ∧
      ∀ u v t : ℝ, 0 < u → 0 < v → 0 ≤ t → t ≤ 1 → ‖H u‖ ^ (1 - t) * ‖H v‖ ^ t ≤ ‖H (u ^ (1 - t) * v ^ t)‖ := by
  obtain ⟨a, H, h1, h2, h3⟩ := weighting_transfer w mem
  exact ⟨a, H, h1, h2, magnitude_concave hw h3⟩

/-- the concavity is not trivial: a curve with a dip is not concave -/
example : ¬LogConcave fun f => |f - 2| + 1 := by
  intro h
  have := h 1 4 (1 / 2) (by norm_num) (by norm_num) (by norm_num) (by norm_num)
  dsimp only at this
  rw [show (1 : ℝ) - 1 / 2 = 1 / 2 by norm_num, Real.one_rpow, one_mul,
    show (4 : ℝ) ^ (1 / 2 : ℝ) = 2 by
      rw [show (4 : ℝ) = 2 ^ (2 : ℝ) by norm_num, ← Real.rpow_mul (by norm_num)]; norm_num,
    ← Real.mul_rpow (by positivity) (by positivity)] at this
  norm_num at this
  have h2 : ((2 : ℝ) * 3) ^ (1 / 2 : ℝ) ≤ 1 := by
    refine le_trans (le_of_eq ?_) this
    norm_num
  have h3 : (1 : ℝ) < (2 * 3) ^ (1 / 2 : ℝ) := Real.one_lt_rpow (by norm_num) (by norm_num)
  linarith

/-- C134: Between two frequencies, the filters do not attenuate more than at both of them. -/
theorem C134_unimodal {w : Weighting} (hw : w = .a ∨ w = .b ∨ w = .c) (mem : ℂ) :
    ∃ a H, w.filter complexEnv = .ok a ∧ HasTransfer mem a H ∧
      ∀ u f v : ℝ, 0 < u → u ≤ f → f ≤ v → min ‖H u‖ ‖H v‖ ≤ ‖H f‖ := by
  obtain ⟨a, H, h1, h2, h3⟩ := C134_concave hw mem
  refine ⟨a, H, h1, h2, ?_⟩
  intro u f v hu huf hfv
  have hf := hu.trans_le huf
  have hv := hf.trans_le hfv
  rcases huf.eq_or_lt with rfl | huf'
  · exact min_le_left _ _
  have hd : 0 < Real.log v - Real.log u := sub_pos.mpr (Real.log_lt_log hu (huf'.trans_le hfv))
  obtain ⟨t, ht⟩ : ∃ t, t = (Real.log f - Real.log u) / (Real.log v - Real.log u) := ⟨_, rfl⟩
  have h0 : 0 ≤ t := by
    rw [ht]
    exact div_nonneg (sub_nonneg.mpr (Real.log_le_log hu huf)) hd.le
  have h1' : t ≤ 1 := by
    rw [ht, div_le_one hd]
    linarith [Real.log_le_log hf hfv]
  have e : u ^ (1 - t) * v ^ t = f := by
    rw [Real.rpow_def_of_pos hu, Real.rpow_def_of_pos hv, ← Real.exp_add,
      show Real.log u * (1 - t) + Real.log v * t = Real.log f by
        have : t * (Real.log v - Real.log u) = Real.log f - Real.log u := by rw [ht, div_mul_cancel₀ _ hd.ne']
        linarith, Real.exp_log hf]
  have h := h3 u v t hu hv h0 h1'
  rw [e] at h
  refine le_trans ?_ h
  obtain ⟨m, hm⟩ : ∃ m, m = min ‖H u‖ ‖H v‖ := ⟨_, rfl⟩
  rw [← hm]
  have hm0 : 0 ≤ m := hm ▸ le_min (norm_nonneg _) (norm_nonneg _)
  rcases hm0.eq_or_lt with hz | hp
  · rw [← hz]
    positivity
  calc m = m ^ (1 - t) * m ^ t := by rw [← Real.rpow_add hp]; simp
    _ ≤ _ := mul_le_mul (Real.rpow_le_rpow hm0 (hm ▸ min_le_left _ _) (by linarith))
        (Real.rpow_le_rpow hm0 (hm ▸ min_le_right _ _) h0) (by positivity) (by positivity)

example : (0 : ℝ) < 20 ∧ (20 : ℝ) ≤ 1000 ∧ (1000 : ℝ) ≤ 20000 := by norm_num

/-! ### the order of the curves -/

theorem ratio_mono {p q f g : ℝ} (hp : 0 ≤ p) (hpq : p ≤ q) (hf : 0 < f) (hfg : f ≤ g) :
    (f ^ 2 + p) / (f ^ 2 + q) ≤ (g ^ 2 + p) / (g ^ 2 + q) := by
  have hg := hf.trans_le hfg
  have h2 : f ^ 2 ≤ g ^ 2 := by nlinarith
  have hf2 := pow_pos hf 2
  have hq := hp.trans hpq
  rw [div_le_div_iff₀ (by positivity) (by positivity)]
  nlinarith [mul_nonneg (sub_nonneg.mpr h2) (sub_nonneg.mpr hpq)]

/-- a step from a weighting to a weighting, that attenuates less below the reference frequency -/
theorem spec_order {w v : Weighting} (h : (w = .a ∧ v = .b) ∨ (w = .b ∧ v = .c)) {f g : ℝ} (hf : 0 < f) (hfg : f ≤ g) :
    weightingSpec w f / weightingSpec v f ≤ weightingSpec w g / weightingSpec v g := by
  have hg := hf.trans_le hfg
  have p2 := pow_pos f2_pos 2
  have p3 := f3_bound
  have p3' : (158.5 : ℝ) ^ 2 ≤ iecF3 ^ 2 := by nlinarith
  have p5 : (0 : ℝ) < 158.5 ^ 2 := by norm_num
  have qf := quadratic_pos f
  have qg := quadratic_pos g
  rcases h with ⟨rfl, rfl⟩ | ⟨rfl, rfl⟩
  · have key : ∀ x : ℝ, 0 < x → weightingSpec .a x / weightingSpec .b x =
        (x ^ 2 + 0) / (x ^ 2 + iecF2 ^ 2) * ((x ^ 2 + 158.5 ^ 2) / (x ^ 2 + iecF3 ^ 2)) := by
      intro x hx
      have h3 : 0 < iecF3 ^ 2 := by linarith
      have hx2 := pow_pos hx 2
      have q := quadratic_pos x
      have h5 : 0 < x ^ 2 + 158.5 ^ 2 := by positivity
      unfold weightingSpec
      dsimp only
      rw [mul_div_mul_right _ _ (by positivity), add_zero, div_div_div_eq, div_mul_div_comm,
        div_eq_div_iff (by positivity) (by positivity)]
      ring
    rw [key f hf, key g hg]
    exact mul_le_mul (ratio_mono le_rfl p2.le hf hfg) (ratio_mono p5.le p3' hf hfg) (by positivity) (by positivity)
  · have key : ∀ x : ℝ, 0 < x → weightingSpec .b x / weightingSpec .c x = (x ^ 2 + 0) / (x ^ 2 + 158.5 ^ 2) := by
      intro x hx
      have hx2 := pow_pos hx 2
      have q := quadratic_pos x
      have h5 : 0 < x ^ 2 + 158.5 ^ 2 := by positivity
      unfold weightingSpec
      rw [mul_div_assoc, div_self (by positivity), mul_one, add_zero]
    rw [key f hf, key g hg]
    exact ratio_mono le_rfl p5.le hf hfg

/-- C134: Up to the reference frequency, the A-weighting does not pass more than the B-weighting and that not more than
the C-weighting. From the reference frequency on, the order is reversed. -/
theorem C134_order {w v : Weighting} (hwv : (w = .a ∧ v = .b) ∨ (w = .b ∧ v = .c)) (mem : ℂ) :
    ∃ a H b K, w.filter complexEnv = .ok a ∧ HasTransfer mem a H ∧ v.filter complexEnv = .ok b ∧ HasTransfer mem b K ∧
      (∀ f, 0 < f → f ≤ 1000 → ‖H f‖ ≤ ‖K f‖) ∧ ∀ f, 1000 ≤ f → ‖K f‖ ≤ ‖H f‖ := by
  obtain ⟨a, H, h1, h2, h3⟩ := weighting_transfer w mem
  obtain ⟨b, K, k1, k2, k3⟩ := weighting_transfer v mem
  have hw : w = .a ∨ w = .b ∨ w = .c := by tauto
  have hv : v = .a ∨ v = .b ∨ v = .c := by tauto
  have pr := spec_pos hw (f := 1000) (by norm_num)
  have qr := spec_pos hv (f := 1000) (by norm_num)
  refine ⟨a, H, b, K, h1, h2, k1, k2, ?_, ?_⟩
  · intro f hf hfr
    have pv := spec_pos hv hf
    apply (sq_le_sq₀ (norm_nonneg _) (norm_nonneg _)).mp
    rw [h3 f hf, k3 f hf]
    have := spec_order hwv hf hfr
    rw [div_le_div_iff₀ pv qr] at this
    rw [div_le_div_iff₀ pr qr]
    linarith
  · intro f hfr
    have hf : 0 < f := lt_of_lt_of_le (by norm_num) hfr
    have pv := spec_pos hv hf
    apply (sq_le_sq₀ (norm_nonneg _) (norm_nonneg _)).mp
    rw [h3 f hf, k3 f hf]
    have := spec_order hwv (by norm_num) hfr
    rw [div_le_div_iff₀ qr pv] at this
    rw [div_le_div_iff₀ qr pr]
    linarith

example : ((.a : Weighting) = .a ∧ (.b : Weighting) = .b) ∨ ((.a : Weighting) = .b ∧ (.b : Weighting) = .c) :=
  .inl ⟨rfl, rfl⟩

/-! ### the C-weighting -/

theorem fL_pos : 0 < fL := Real.rpow_pos_of_pos (by norm_num) _

/-- C134: The curve of the C-weighting is symmetric about the geometric mean of the two frequencies, at which it is
specified. -/
theorem C134_symmetric (mem : ℂ) :
    ∃ a H, Weighting.c.filter complexEnv = .ok a ∧ HasTransfer mem a H ∧ ∀ f, 0 < f → ‖H (fL * fH / f)‖ = ‖H f‖ := by
  obtain ⟨a, H, h1, h2, h3⟩ := weighting_transfer .c mem
  refine ⟨a, H, h1, h2, ?_⟩
  intro f hf
  have hm : 0 < fL * fH / f := div_pos (mul_pos fL_pos fH_pos) hf
  have q := quadratic_pos f
  have q' := quadratic_pos (fL * fH / f)
  have e : weightingSpec .c (fL * fH / f) = weightingSpec .c f := by
    unfold weightingSpec
    dsimp only
    congr 1
    rw [div_eq_div_iff q'.ne' q.ne']
    unfold iecC
    field_simp
    ring
  rw [← Real.sqrt_sq (norm_nonneg (H f)), ← Real.sqrt_sq (norm_nonneg (H _)), h3 _ hf, h3 _ hm, e]

/-- C134: The C-weighting passes at least half of the power exactly between the two frequencies, at which it is
specified. -/
theorem C134_band (mem : ℂ) :
    ∃ a H, Weighting.c.filter complexEnv = .ok a ∧ HasTransfer mem a H ∧
      ∀ f, 0 < f → (1 / 2 ≤ ‖H f‖ ^ 2 ↔ fL ≤ f ∧ f ≤ fH) := by
  obtain ⟨a, H, h1, h2, h3⟩ := weighting_transfer .c mem
  refine ⟨a, H, h1, h2, ?_⟩
  obtain ⟨a', g1, ⟨x, hx, hxn⟩, -⟩ := C40_c_limits mem
  obtain rfl : a = a' := by simpa using h1.symm.trans g1
  have hL := h2 fL fL_pos
  change a.call complexEnv mem fL = _ at hx
  rw [hx] at hL
  obtain rfl : x = H fL := by simpa using hL
  intro f hf
  have q := quadratic_pos f
  have qL := quadratic_pos fL
  have pr : 0 < weightingSpec .c 1000 := spec_pos (.inr (.inr rfl)) (by norm_num)
  have hf2 := pow_pos hf 2
  have hL2 := pow_pos fL_pos 2
  have hLH : fL < fH := Real.rpow_lt_rpow_of_exponent_lt (by norm_num) (by norm_num)
  rw [← hxn, h3 fL fL_pos, h3 f hf, div_le_div_iff_of_pos_right pr]
  unfold weightingSpec
  rw [sq_le_sq₀ (by positivity) (by positivity), div_le_div_iff₀ qL q]
  have e : f ^ 2 * (fL ^ 4 - iecB * fL ^ 2 + iecC) - fL ^ 2 * (f ^ 4 - iecB * f ^ 2 + iecC) =
      fL ^ 2 * ((f - fL) * (fH - f) * ((f + fL) * (f + fH))) := by
    unfold iecC
    ring
  have hs : 0 < (f + fL) * (f + fH) := mul_pos (add_pos hf fL_pos) (add_pos hf fH_pos)
  constructor
  · intro h
    have : 0 ≤ (f - fL) * (fH - f) := by
      by_contra hn
      push Not at hn
      have := mul_neg_of_pos_of_neg hL2 (mul_neg_of_neg_of_pos hn hs)
      linarith
    constructor
    · by_contra hn
      push Not at hn
      nlinarith
    · by_contra hn
      push Not at hn
      nlinarith
  · rintro ⟨h4, h5⟩
    have := mul_nonneg hL2.le (mul_nonneg (mul_nonneg (sub_nonneg.mpr h4) (sub_nonneg.mpr h5)) hs.le)
    linarith

example : fL ≤ fL ∧ fL ≤ fH := ⟨le_rfl, Real.rpow_le_rpow_of_exponent_le (by norm_num) (by norm_num)⟩

end Filter
end Verif
