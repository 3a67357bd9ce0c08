import Verif.WindowsScipyProps
import Mathlib.Analysis.SpecialFunctions.Integrals.Basic
import Mathlib.Algebra.Ring.GeomSum

/-
C77: the decay of the side lobes of the cosine-sum windows.
-/

namespace Verif
namespace Windows

open Indexing Finset Filter Topology

variable {R : Type}

/-! ### Specification -/

/-- the spectrum of the window, whose shape is the (even) function `w` from -1/2 to 1/2. The frequency is in multiples of
the inverse of the window's length. -/
noncomputable def lobes (w : ℝ → ℝ) (f : ℝ) : ℝ := ∫ t in (-1/2)..(1/2), w t * Real.cos (2 * Real.pi * f * t)

/-- The side lobes are proportional to `f ^ (-e)`, which is a decay of `e * 6` dB per octave: `f ^ (-e)` is an upper bound
for all frequencies and in the middle between the zeros, the spectrum approaches a constant multiple of it. -/
def Decays (e : Nat) (w : ℝ → ℝ) : Prop :=
  (∃ C F : ℝ, ∀ f, F ≤ f → |lobes w f| * f ^ e ≤ C) ∧
  ∃ c : ℝ, 0 < c ∧ Tendsto (fun m : Nat => |lobes w (m + 1 / 2)| * ((m : ℝ) + 1 / 2) ^ e) atTop (𝓝 c)

/-! ### The spectrum of a sum of cosines -/

theorem integral_cos_scaled (x : ℝ) (hx : x ≠ 0) :
    ∫ t in (-1/2 : ℝ)..(1/2), Real.cos (2 * Real.pi * x * t) = Real.sin (Real.pi * x) / (Real.pi * x) := by
  have hpi := Real.pi_ne_zero
  have hc : 2 * Real.pi * x ≠ 0 := by positivity
  rw [intervalIntegral.integral_comp_mul_left (fun t => Real.cos t) hc, integral_cos]
  rw [show 2 * Real.pi * x * (1 / 2) = Real.pi * x by ring, show 2 * Real.pi * x * (-1 / 2) = -(Real.pi * x) by ring,
    Real.sin_neg, smul_eq_mul]
  field_simp
  ring

theorem lobes_cos (k : Nat) (f : ℝ) (hf : (k : ℝ) < f) :
    ∫ t in (-1/2 : ℝ)..(1/2), Real.cos (2 * Real.pi * k * t) * Real.cos (2 * Real.pi * f * t) =
      Real.sin (Real.pi * f) / Real.pi * ((-1) ^ k * (f / (f ^ 2 - (k : ℝ) ^ 2))) := by
  have hk : (0 : ℝ) ≤ k := Nat.cast_nonneg k
  have h1 : f - k ≠ 0 := by linarith
  have h2 : f + k ≠ 0 := by linarith
  have h3 : f ^ 2 - (k : ℝ) ^ 2 ≠ 0 := by
    rw [show f ^ 2 - (k : ℝ) ^ 2 = (f - k) * (f + k) by ring]
    exact mul_ne_zero h1 h2
  have hpi := Real.pi_ne_zero
  have e : ∀ t : ℝ, Real.cos (2 * Real.pi * k * t) * Real.cos (2 * Real.pi * f * t) =
      1 / 2 * (Real.cos (2 * Real.pi * (f - k) * t) + Real.cos (2 * Real.pi * (f + k) * t)) := by
    intro t
    rw [show 2 * Real.pi * (f - k) * t = 2 * Real.pi * f * t - 2 * Real.pi * k * t by ring,
      show 2 * Real.pi * (f + k) * t = 2 * Real.pi * f * t + 2 * Real.pi * k * t by ring, Real.cos_sub, Real.cos_add]
    ring
  simp only [e]
  rw [intervalIntegral.integral_const_mul, intervalIntegral.integral_add, integral_cos_scaled _ h1,
    integral_cos_scaled _ h2]
  · rw [show Real.pi * (f - k) = Real.pi * f - k * Real.pi by ring, show Real.pi * (f + k) = Real.pi * f + k * Real.pi by ring,
      Real.sin_sub_nat_mul_pi, Real.sin_add_nat_mul_pi,
      show Real.pi * f - k * Real.pi = Real.pi * (f - k) by ring, show Real.pi * f + k * Real.pi = Real.pi * (f + k) by ring]
    have h3' : f ^ 2 - (k : ℝ) ^ 2 = (f - k) * (f + k) := by ring
    rw [h3']
    field_simp
    ring
  · exact Continuous.intervalIntegrable (by fun_prop) _ _
  · exact Continuous.intervalIntegrable (by fun_prop) _ _

theorem lobes_cosineSum (a : List ℚ) (f : ℝ) (hf : (a.length : ℝ) ≤ f) :
    lobes (cosineSum a) f = Real.sin (Real.pi * f) / Real.pi *
      ∑ k ∈ range a.length, ((a.getD k 0 : ℚ) : ℝ) * ((-1) ^ k * (f / (f ^ 2 - (k : ℝ) ^ 2))) := by
  unfold lobes cosineSum
  simp only [Finset.sum_mul]
  rw [intervalIntegral.integral_finsetSum]
  · rw [Finset.mul_sum]
    refine Finset.sum_congr rfl fun k hk => ?_
    have hk' : (k : ℝ) < f := lt_of_lt_of_le (by exact_mod_cast Finset.mem_range.1 hk) hf
    simp only [mul_assoc (((a.getD k 0 : ℚ)) : ℝ)]
    rw [intervalIntegral.integral_const_mul, lobes_cos k f hk']
    ring
  · intro k _
    exact Continuous.intervalIntegrable (by fun_prop) _ _

/-- the moments of the coefficients at the edges of the window -/
def moment (a : List ℚ) (j : Nat) : ℚ := ∑ k ∈ range a.length, a.getD k 0 * ((-1) ^ k * (k : ℚ) ^ (2 * j))

theorem moment_cast (a : List ℚ) (j : Nat) :
    ((moment a j : ℚ) : ℝ) = ∑ k ∈ range a.length, ((a.getD k 0 : ℚ) : ℝ) * ((-1) ^ k * (k : ℝ) ^ (2 * j)) := by
  unfold moment
  push_cast
  rfl

theorem scaled_sum (a : List ℚ) (n : Nat) (h : ∀ j, j < n → moment a j = 0) (f : ℝ) (hf : (a.length : ℝ) ≤ f) :
    (∑ k ∈ range a.length, ((a.getD k 0 : ℚ) : ℝ) * ((-1) ^ k * (f / (f ^ 2 - (k : ℝ) ^ 2)))) * f ^ (2 * n + 1) =
      ∑ k ∈ range a.length, ((a.getD k 0 : ℚ) : ℝ) * ((-1) ^ k * (k : ℝ) ^ (2 * n)) * (f ^ 2 / (f ^ 2 - (k : ℝ) ^ 2)) := by
  have e : ∀ k ∈ range a.length,
      ((a.getD k 0 : ℚ) : ℝ) * ((-1) ^ k * (f / (f ^ 2 - (k : ℝ) ^ 2))) * f ^ (2 * n + 1) =
        ((a.getD k 0 : ℚ) : ℝ) * ((-1) ^ k * (k : ℝ) ^ (2 * n)) * (f ^ 2 / (f ^ 2 - (k : ℝ) ^ 2)) +
        ∑ j ∈ range n, f ^ 2 * (f ^ 2) ^ (n - 1 - j) * (((a.getD k 0 : ℚ) : ℝ) * ((-1) ^ k * (k : ℝ) ^ (2 * j))) := by
    intro k hk
    have hk' : (k : ℝ) < f := lt_of_lt_of_le (by exact_mod_cast Finset.mem_range.1 hk) hf
    have hk0 : (0 : ℝ) ≤ k := Nat.cast_nonneg k
    have hd : f ^ 2 - (k : ℝ) ^ 2 ≠ 0 := by
      have : (k : ℝ) ^ 2 < f ^ 2 := by nlinarith
      linarith
    have hg := geom_sum₂_mul ((k : ℝ) ^ 2) (f ^ 2) n
    have hs : ∑ j ∈ range n, f ^ 2 * (f ^ 2) ^ (n - 1 - j) * (((a.getD k 0 : ℚ) : ℝ) * ((-1) ^ k * (k : ℝ) ^ (2 * j))) =
        ((a.getD k 0 : ℚ) : ℝ) * (-1) ^ k * f ^ 2 * ∑ j ∈ range n, ((k : ℝ) ^ 2) ^ j * (f ^ 2) ^ (n - 1 - j) := by
      rw [Finset.mul_sum]
      refine Finset.sum_congr rfl fun j _ => ?_
      rw [← pow_mul]
      ring
    rw [hs]
    have hg' : ∑ j ∈ range n, ((k : ℝ) ^ 2) ^ j * (f ^ 2) ^ (n - 1 - j) =
        (f ^ (2 * n) - (k : ℝ) ^ (2 * n)) / (f ^ 2 - (k : ℝ) ^ 2) := by
      rw [eq_div_iff hd]
      have := hg
      rw [← pow_mul, ← pow_mul] at this
      linarith
    rw [hg']
    field_simp
    ring
  rw [Finset.sum_mul, Finset.sum_congr rfl e, Finset.sum_add_distrib, Finset.sum_comm]
  have z : ∑ j ∈ range n, ∑ k ∈ range a.length,
      f ^ 2 * (f ^ 2) ^ (n - 1 - j) * (((a.getD k 0 : ℚ) : ℝ) * ((-1) ^ k * (k : ℝ) ^ (2 * j))) = 0 := by
    refine Finset.sum_eq_zero fun j hj => ?_
    rw [← Finset.mul_sum, ← moment_cast, h j (Finset.mem_range.1 hj)]
    simp
  rw [z, add_zero]

theorem abs_sin_half (m : Nat) : |Real.sin (Real.pi * ((m : ℝ) + 1 / 2))| = 1 := by
  rw [show Real.pi * ((m : ℝ) + 1 / 2) = Real.pi / 2 + m * Real.pi by ring, Real.sin_add_nat_mul_pi, Real.sin_pi_div_two]
  simp

theorem tendsto_ratio (k : ℝ) : Tendsto (fun m : Nat => ((m : ℝ) + 1 / 2) ^ 2 / (((m : ℝ) + 1 / 2) ^ 2 - k ^ 2)) atTop (𝓝 1) := by
  have h1 : Tendsto (fun m : Nat => ((m : ℝ) + 1 / 2) ^ 2) atTop atTop :=
    (tendsto_pow_atTop (by norm_num)).comp (tendsto_atTop_add_const_right _ _ tendsto_natCast_atTop_atTop)
  have h2 : Tendsto (fun x : ℝ => x / (x - k ^ 2)) atTop (𝓝 1) := by
    have h3 : Tendsto (fun x : ℝ => 1 + k ^ 2 * (x - k ^ 2)⁻¹) atTop (𝓝 (1 + k ^ 2 * 0)) :=
      tendsto_const_nhds.add (tendsto_const_nhds.mul
        (tendsto_inv_atTop_zero.comp (tendsto_atTop_add_const_right _ _ tendsto_id)))
    rw [mul_zero, add_zero] at h3
    refine h3.congr' ?_
    filter_upwards [eventually_gt_atTop (k ^ 2)] with x hx
    have : x - k ^ 2 ≠ 0 := by linarith
    field_simp
    ring
  exact h2.comp h1

/-- The first moment, that is not zero, determines the decay of the side lobes. -/
theorem decays_of_moments (a : List ℚ) (n : Nat) (h : ∀ j, j < n → moment a j = 0) (hn : moment a n ≠ 0) :
    Decays (2 * n + 1) (cosineSum a) := by
  have hpi := Real.pi_pos
  have key : ∀ f : ℝ, (a.length : ℝ) ≤ f → |lobes (cosineSum a) f| * f ^ (2 * n + 1) =
      |Real.sin (Real.pi * f)| / Real.pi * |∑ k ∈ range a.length,
        ((a.getD k 0 : ℚ) : ℝ) * ((-1) ^ k * (k : ℝ) ^ (2 * n)) * (f ^ 2 / (f ^ 2 - (k : ℝ) ^ 2))| := by
    intro f hf
    have hf0 : 0 ≤ f := le_trans (Nat.cast_nonneg _) hf
    rw [← scaled_sum a n h f hf, lobes_cosineSum a f hf, abs_mul, abs_mul, abs_div, abs_of_pos hpi,
      abs_of_nonneg (pow_nonneg hf0 _), mul_assoc]
  constructor
  · refine ⟨1 / Real.pi * ∑ k ∈ range a.length,
      |((a.getD k 0 : ℚ) : ℝ) * ((-1) ^ k * (k : ℝ) ^ (2 * n))| * 2, 2 * a.length + 1, ?_⟩
    intro f hf
    have hl : (0 : ℝ) ≤ a.length := Nat.cast_nonneg _
    rw [key f (by linarith)]
    refine mul_le_mul ?_ ?_ (abs_nonneg _) (by positivity)
    · exact div_le_div_of_nonneg_right (Real.abs_sin_le_one _) hpi.le
    · refine (Finset.abs_sum_le_sum_abs _ _).trans (Finset.sum_le_sum fun k hk => ?_)
      rw [abs_mul]
      refine mul_le_mul_of_nonneg_left ?_ (abs_nonneg _)
      have hk' : (k : ℝ) < a.length := by exact_mod_cast Finset.mem_range.1 hk
      have hk0 : (0 : ℝ) ≤ k := Nat.cast_nonneg k
      have hd : 0 < f ^ 2 - (k : ℝ) ^ 2 := by nlinarith
      rw [abs_of_nonneg (div_nonneg (sq_nonneg f) hd.le), div_le_iff₀ hd]
      nlinarith
  · refine ⟨1 / Real.pi * |((moment a n : ℚ) : ℝ)|, by positivity, ?_⟩
    have lim : Tendsto (fun m : Nat => ∑ k ∈ range a.length,
        ((a.getD k 0 : ℚ) : ℝ) * ((-1) ^ k * (k : ℝ) ^ (2 * n)) *
          (((m : ℝ) + 1 / 2) ^ 2 / (((m : ℝ) + 1 / 2) ^ 2 - (k : ℝ) ^ 2))) atTop (𝓝 ((moment a n : ℚ) : ℝ)) := by
      rw [moment_cast]
      refine tendsto_finsetSum _ fun k _ => ?_
      have := (tendsto_ratio (k : ℝ)).const_mul (((a.getD k 0 : ℚ) : ℝ) * ((-1) ^ k * (k : ℝ) ^ (2 * n)))
      rwa [mul_one] at this
    refine Tendsto.congr' ?_ ((lim.abs).const_mul (1 / Real.pi))
    filter_upwards [eventually_ge_atTop a.length] with m hm
    have hm' : (a.length : ℝ) ≤ (m : ℝ) + 1 / 2 := by
      have : (a.length : ℝ) ≤ m := by exact_mod_cast hm
      linarith
    rw [key _ hm', abs_sin_half]

/-- scaling a window does not change the decay -/
theorem decays_div (e : Nat) (w : ℝ → ℝ) (d : ℝ) (hd : 0 < d) (h : Decays e w) : Decays e (fun t => w t / d) := by
  have q : ∀ f, lobes (fun t => w t / d) f = lobes w f / d := by
    intro f
    unfold lobes
    rw [← intervalIntegral.integral_div]
    refine intervalIntegral.integral_congr fun t _ => ?_
    show w t / d * _ = w t * _ / d
    ring
  obtain ⟨⟨C, F, h1⟩, c, hc, h2⟩ := h
  constructor
  · refine ⟨C / d, F, fun f hf => ?_⟩
    rw [q, abs_div, abs_of_pos hd, div_mul_eq_mul_div]
    exact div_le_div_of_nonneg_right (h1 f hf) hd.le
  · refine ⟨c / d, div_pos hc hd, ?_⟩
    refine (h2.div_const d).congr fun m => ?_
    rw [q, abs_div, abs_of_pos hd, div_mul_eq_mul_div]

/-- the decay is unique -/
theorem Decays.unique {e e' : Nat} {w : ℝ → ℝ} (h : Decays e w) (h' : Decays e' w) : e = e' := by
  have step : ∀ {e e' : Nat}, Decays e w → Decays e' w → ¬ e < e' := by
    intro e e' ⟨_, c, hc, h1⟩ ⟨⟨C, F, h2⟩, _⟩ hlt
    have t : Tendsto (fun m : Nat => |lobes w (m + 1 / 2)| * ((m : ℝ) + 1 / 2) ^ e * ((m : ℝ) + 1 / 2)) atTop atTop :=
      h1.pos_mul_atTop hc (tendsto_atTop_add_const_right _ _ tendsto_natCast_atTop_atTop)
    have t2 : Tendsto (fun m : Nat => ((m : ℝ) + 1 / 2)) atTop atTop :=
      tendsto_atTop_add_const_right _ _ tendsto_natCast_atTop_atTop
    obtain ⟨m, m1, m2, m3⟩ := ((t.eventually_gt_atTop C).and ((t2.eventually_ge_atTop F).and (t2.eventually_ge_atTop 1))).exists
    have := h2 _ m2
    have hp : ((m : ℝ) + 1 / 2) ^ (e + 1) ≤ ((m : ℝ) + 1 / 2) ^ e' := pow_le_pow_right₀ m3 hlt
    have := mul_le_mul_of_nonneg_left hp (abs_nonneg (lobes w (m + 1 / 2)))
    rw [pow_succ, ← mul_assoc] at this
    linarith
  have a := step h h'
  have b := step h' h
  omega

/-! ### C77 -/

/-- the documented decay of the side lobes of the Nuttall windows (`_internal/_enums.py`) in multiples of 6 dB per octave -/
def Nuttall.decay : Nuttall → Nat
  | .nuttall3 => 5
  | .nuttall3a => 3
  | .nuttall3b => 1
  | .nuttall4 => 7
  | .nuttall4a => 5
  | .nuttall4b => 3
  | .nuttall4c => 1

/-- the flat top windows, whose documentation promises a decay of the side lobes of 18 dB per octave
(`_internal/_enums.py`) -/
def FlatTop.fast : FlatTop → Bool
  | .hft90d | .hft116d | .hft144d | .hft169d | .hft196d | .hft223d | .hft248d => true
  | _ => false

theorem nuttall_moments (f : Nuttall) : ∃ n, f.decay = 2 * n + 1 ∧ (∀ j, j < n → moment f.coefficients j = 0) ∧
    moment f.coefficients n ≠ 0 := by
  cases f
  · exact ⟨2, by decide +kernel⟩
  · exact ⟨1, by decide +kernel⟩
  · exact ⟨0, by decide +kernel⟩
  · exact ⟨3, by decide +kernel⟩
  · exact ⟨2, by decide +kernel⟩
  · exact ⟨1, by decide +kernel⟩
  · exact ⟨0, by decide +kernel⟩

/-- C77: The side lobes of the Nuttall windows decay as it is documented. -/
theorem C77_nuttall (mem : Nat → Nat → ℝ) (f : Nuttall) (plateau : Idx) (rate : R) :
    ∃ w : ℝ → ℝ, Decays f.decay w ∧
      ∀ (L : Nat) (symmetric : Bool), index L plateau = some 0 → 0 < steps L symmetric →
        ∃ s : Signal ℝ R, nuttallWindow mem (some f) plateau rate L symmetric = some (.ok (s, 0)) ∧
          ∀ i, i < L → s.channels.get 0 i = w ((i : ℝ) / steps L symmetric - 1 / 2) := by
  obtain ⟨n, hn, h1, h2⟩ := nuttall_moments f
  refine ⟨cosineSum f.coefficients, hn ▸ decays_of_moments _ n h1 h2, ?_⟩
  intro L symmetric hi hN
  obtain ⟨s, h1, _, _, _, h7⟩ := C76_nuttall mem f plateau rate L symmetric hi hN
  exact ⟨s, h1, h7⟩

theorem flatTop_moments (f : FlatTop) (h : f.fast = true) (hf : f ≠ .hft169d) :
    (∀ j, j < 1 → moment f.coefficients j = 0) ∧ moment f.coefficients 1 ≠ 0 := by
  cases f <;> first | exact absurd h (by decide) | exact absurd rfl hf | decide +kernel

theorem flatTop_decays (mem : Nat → Nat → ℝ) (f : FlatTop) (plateau : Idx) (rate : R) (e : Nat)
    (h : Decays e (cosineSum f.coefficients)) :
    ∃ w : ℝ → ℝ, Decays e w ∧
      ∀ (L : Nat) (symmetric : Bool), index L plateau = some 0 → 0 < steps L symmetric →
        ∃ s : Signal ℝ R, flatTopWindow mem (some f) plateau rate L symmetric = some (.ok (s, 0)) ∧
          ∀ i, i < L → s.channels.get 0 i = w ((i : ℝ) / steps L symmetric - 1 / 2) := by
  have hd : (0 : ℝ) < ((f.divisor : ℚ) : ℝ) := by exact_mod_cast (flatTop_nonneg f).2.1
  refine ⟨fun t => cosineSum f.coefficients t / ((f.divisor : ℚ) : ℝ), decays_div _ _ _ hd h, ?_⟩
  intro L symmetric hi hN
  obtain ⟨s, h1, _, _, _, h7⟩ := C76_flat_top mem f plateau rate L symmetric hi hN
  exact ⟨s, h1, h7⟩

/-- C77: The side lobes of the flat top windows, whose name ends with a "D", decay with 18 dB per octave. Missing: the
HFT169D window, see `C77_hft169d_violated`. -/
theorem C77_flat_top_partial (mem : Nat → Nat → ℝ) (f : FlatTop) (plateau : Idx) (rate : R) (h : f.fast = true)
    (hf : f ≠ .hft169d) :
    ∃ w : ℝ → ℝ, Decays 3 w ∧
      ∀ (L : Nat) (symmetric : Bool), index L plateau = some 0 → 0 < steps L symmetric →
        ∃ s : Signal ℝ R, flatTopWindow mem (some f) plateau rate L symmetric = some (.ok (s, 0)) ∧
          ∀ i, i < L → s.channels.get 0 i = w ((i : ℝ) / steps L symmetric - 1 / 2) := by
  obtain ⟨h1, h2⟩ := flatTop_moments f h hf
  exact flatTop_decays mem f plateau rate 3 (decays_of_moments _ 1 h1 h2)

/-- C77 (violation): The coefficients of the HFT169D window are not accurate enough for the documented decay: their
alternating sum is not zero, but 2e-8. So the window does not vanish at its ends and its side lobes decay with 6 dB per
octave. -/
theorem C77_hft169d_violated (mem : Nat → Nat → ℝ) (plateau : Idx) (rate : R) :
    ∃ w : ℝ → ℝ, (Decays 1 w ∧ ¬ Decays 3 w) ∧
      ∀ (L : Nat) (symmetric : Bool), index L plateau = some 0 → 0 < steps L symmetric →
        ∃ s : Signal ℝ R, flatTopWindow mem (some .hft169d) plateau rate L symmetric = some (.ok (s, 0)) ∧
          ∀ i, i < L → s.channels.get 0 i = w ((i : ℝ) / steps L symmetric - 1 / 2) := by
  have h : Decays 1 (cosineSum FlatTop.hft169d.coefficients) :=
    decays_of_moments _ 0 (fun j hj => absurd hj (by omega)) (by decide +kernel)
  obtain ⟨w, hw, h2⟩ := flatTop_decays mem .hft169d plateau rate 1 h
  exact ⟨w, ⟨hw, fun h3 => absurd (hw.unique h3) (by decide)⟩, h2⟩

/-- C77: The side lobes of the Blackman-Harris window decay with 6 dB per octave. -/
theorem C77_blackman_harris (mem : Nat → Nat → ℝ) (plateau : Idx) (rate : R) :
    ∃ w : ℝ → ℝ, Decays 1 w ∧
      ∀ (L : Nat) (symmetric : Bool), index L plateau = some 0 → 0 < steps L symmetric →
        ∃ s : Signal ℝ R, new mem blackmanHarris "Blackman-Harris window" plateau rate L symmetric = some (.ok (s, 0)) ∧
          ∀ i, i < L → s.channels.get 0 i = w ((i : ℝ) / steps L symmetric - 1 / 2) := by
  refine ⟨cosineSum [0.35875, 0.48829, 0.14128, 0.01168],
    decays_of_moments _ 0 (fun j hj => absurd hj (by omega)) (by decide +kernel), ?_⟩
  intro L symmetric hi hN
  obtain ⟨s, h1, _, _, _, _, _, h7⟩ := new_ok mem blackmanHarris "Blackman-Harris window" plateau rate L symmetric hi hN
  exact ⟨s, h1, fun i h => (h7 i h).trans (generalCosine_eq _ _ _ hN)⟩

theorem sft_moments :
    ((∀ j, j < 1 → moment FlatTop.sft3f.coefficients j = 0) ∧ moment FlatTop.sft3f.coefficients 1 ≠ 0) ∧
    ((∀ j, j < 2 → moment FlatTop.sft4f.coefficients j = 0) ∧ moment FlatTop.sft4f.coefficients 2 ≠ 0) ∧
    ((∀ j, j < 3 → moment FlatTop.sft5f.coefficients j = 0) ∧ moment FlatTop.sft5f.coefficients 3 ≠ 0) := by
  decide +kernel

/-- C77: The side lobes of the flat top windows, that are optimized for a fast decay, decay with 18, 30 and 42 dB per
octave, while those of their counterparts, that are optimized for the suppression of the side lobes, decay with 6 dB per
octave. -/
theorem C77_fast_and_suppressed (mem : Nat → Nat → ℝ) (plateau : Idx) (rate : R) (f : FlatTop) (e : Nat)
    (h : (f, e) ∈ [(FlatTop.sft3f, 3), (.sft4f, 5), (.sft5f, 7), (.sft3m, 1), (.sft4m, 1), (.sft5m, 1), (.hft70, 1),
      (.hft95, 1)]) :
    ∃ w : ℝ → ℝ, Decays e w ∧
      ∀ (L : Nat) (symmetric : Bool), index L plateau = some 0 → 0 < steps L symmetric →
        ∃ s : Signal ℝ R, flatTopWindow mem (some f) plateau rate L symmetric = some (.ok (s, 0)) ∧
          ∀ i, i < L → s.channels.get 0 i = w ((i : ℝ) / steps L symmetric - 1 / 2) := by
  refine flatTop_decays mem f plateau rate e ?_
  obtain ⟨⟨a1, a2⟩, ⟨b1, b2⟩, c1, c2⟩ := sft_moments
  have z : ∀ g : FlatTop, moment g.coefficients 0 ≠ 0 → Decays 1 (cosineSum g.coefficients) := fun g hg =>
    decays_of_moments _ 0 (fun j hj => absurd hj (by omega)) hg
  simp only [List.mem_cons, Prod.mk.injEq, List.not_mem_nil, or_false] at h
  rcases h with h | h | h | h | h | h | h | h <;> obtain ⟨rfl, rfl⟩ := h
  · exact decays_of_moments _ 1 a1 a2
  · exact decays_of_moments _ 2 b1 b2
  · exact decays_of_moments _ 3 c1 c2
  all_goals exact z _ (by decide +kernel)

theorem hann_blackman_sums (N i : Nat) (hN : 0 < N) :
    hanning (N + 1) i = cosineSum [1 / 2, 1 / 2] ((i : ℝ) / N - 1 / 2) ∧
    hamming (N + 1) i = cosineSum [54 / 100, 46 / 100] ((i : ℝ) / N - 1 / 2) ∧
    blackman (N + 1) i = cosineSum [42 / 100, 1 / 2, 8 / 100] ((i : ℝ) / N - 1 / 2) := by
  have hN' : (N : ℝ) ≠ 0 := by exact_mod_cast hN.ne'
  have e1 : Real.pi * (1 - ((N + 1 : Nat) : ℝ) + 2 * i) / (((N + 1 : Nat) : ℝ) - 1) =
      2 * Real.pi * (1 : Nat) * ((i : ℝ) / N - 1 / 2) := by
    push_cast
    rw [show (N : ℝ) + 1 - 1 = N by ring]
    field_simp
    ring
  have e2 : 2 * Real.pi * (1 - ((N + 1 : Nat) : ℝ) + 2 * i) / (((N + 1 : Nat) : ℝ) - 1) =
      2 * Real.pi * (2 : Nat) * ((i : ℝ) / N - 1 / 2) := by
    push_cast
    rw [show (N : ℝ) + 1 - 1 = N by ring]
    field_simp
    ring
  unfold hanning hamming blackman cosineSum
  rw [if_neg (by omega), if_neg (by omega), if_neg (by omega), e1, e2]
  refine ⟨?_, ?_, ?_⟩ <;> simp [Finset.sum_range_succ]

/-- C77: The side lobes of the Blackman window decay like those of the Hann window: with 18 dB per octave. Those of the
Hamming window, which is optimized for the height of the highest side lobe, decay with 6 dB per octave. -/
theorem C77_hann_hamming_blackman (mem : Nat → Nat → ℝ) (plateau : Idx) (rate : R) (function : Nat → Nat → ℝ)
    (label : String) (e : Nat)
    (h : function = hanning ∧ label = "Hann window" ∧ e = 3 ∨ function = hamming ∧ label = "Hamming window" ∧ e = 1 ∨
      function = blackman ∧ label = "Blackman window" ∧ e = 3) :
    ∃ w : ℝ → ℝ, Decays e w ∧
      ∀ (L : Nat) (symmetric : Bool), index L plateau = some 0 → 0 < steps L symmetric →
        ∃ s : Signal ℝ R, new mem function label plateau rate L symmetric = some (.ok (s, 0)) ∧
          ∀ i, i < L → s.channels.get 0 i = w ((i : ℝ) / steps L symmetric - 1 / 2) := by
  obtain ⟨a, n, rfl, h1, h2, h3⟩ : ∃ (a : List ℚ) (n : Nat), e = 2 * n + 1 ∧ (∀ j, j < n → moment a j = 0) ∧
      moment a n ≠ 0 ∧ ∀ N i, 0 < N → function (N + 1) i = cosineSum a ((i : ℝ) / N - 1 / 2) := by
    rcases h with ⟨rfl, _, rfl⟩ | ⟨rfl, _, rfl⟩ | ⟨rfl, _, rfl⟩
    · exact ⟨[1 / 2, 1 / 2], 1, rfl, by decide +kernel, by decide +kernel, fun N i hN => (hann_blackman_sums N i hN).1⟩
    · exact ⟨[54 / 100, 46 / 100], 0, rfl, by decide +kernel, by decide +kernel,
        fun N i hN => (hann_blackman_sums N i hN).2.1⟩
    · exact ⟨[42 / 100, 1 / 2, 8 / 100], 1, rfl, by decide +kernel, by decide +kernel,
        fun N i hN => (hann_blackman_sums N i hN).2.2⟩
  refine ⟨cosineSum a, decays_of_moments _ n h1 h2, ?_⟩
  intro L symmetric hi hN
  obtain ⟨s, h1, _, _, _, _, _, h7⟩ := new_ok mem function label plateau rate L symmetric hi hN
  exact ⟨s, h1, fun i h => (h7 i h).trans (h3 _ i hN)⟩

example : FlatTop.fast .hft90d = true ∧ FlatTop.hft90d ≠ .hft169d := ⟨rfl, by decide⟩

end Windows
end Verif
