import Verif.FilterPhase
import Mathlib.Topology.Connected.TotallyDisconnected
import Mathlib.Topology.Instances.AddCircle.Real

/-
Property C139: the phase of the rolloff filters.
-/

namespace Verif
namespace Filter

open Complex Topology

/-! ### Specification -/

/-- `φ` is the unwrapped phase of the transfer function `H`: it is continuous and vanishes at the end of the pass band, i.e.
at 0 Hz for lowpass filters and at infinitely high frequencies for highpass filters. -/
structure IsPhase (highpass : Bool) (H : ℝ → ℂ) (φ : ℝ → ℝ) : Prop where
  continuous : ContinuousOn φ (Set.Ioi 0)
  value : ∀ f, 0 < f → H f = ‖H f‖ * exp (φ f * I)
  passBand : _root_.Filter.Tendsto φ (if highpass then _root_.Filter.atTop else 𝓝[>] 0) (𝓝 0)

/-- The phase decreases with the frequency (so the group delay is not negative). In the stop band, it approaches 90 degrees
for each order of the filter: for lowpass filters, it falls from 0 to minus this angle, for highpass filters, it falls from
this angle to 0. -/
structure Falls (highpass : Bool) (order : Nat) (φ : ℝ → ℝ) : Prop where
  anti : StrictAntiOn φ (Set.Ioi 0)
  stopBand : _root_.Filter.Tendsto φ (if highpass then 𝓝[>] 0 else _root_.Filter.atTop)
    (𝓝 (if highpass then order * (Real.pi / 2) else -(order * (Real.pi / 2))))

/-- C139: The unwrapped phase is unique. -/
theorem C139_unique {highpass : Bool} {H : ℝ → ℂ} {φ ψ : ℝ → ℝ} (h0 : ∀ f, 0 < f → H f ≠ 0) (hφ : IsPhase highpass H φ)
    (hψ : IsPhase highpass H ψ) : ∀ f, 0 < f → φ f = ψ f := by
  have hm : ∀ f ∈ Set.Ioi (0 : ℝ), φ f - ψ f ∈ (AddSubgroup.zmultiples (2 * Real.pi) : Set ℝ) := by
    intro f hf
    have hn : ((‖H f‖ : ℝ) : ℂ) ≠ 0 := Complex.ofReal_ne_zero.mpr (norm_ne_zero_iff.mpr (h0 f hf))
    have e : exp (φ f * I) = exp (ψ f * I) := mul_left_cancel₀ hn ((hφ.value f hf).symm.trans (hψ.value f hf))
    obtain ⟨n, hn⟩ := Complex.exp_eq_exp_iff_exists_int.mp e
    refine AddSubgroup.mem_zmultiples_iff.mpr ⟨n, ?_⟩
    have h1 : ((φ f : ℝ) : ℂ) = ((ψ f + n * (2 * Real.pi) : ℝ) : ℂ) := by
      apply mul_right_cancel₀ Complex.I_ne_zero
      rw [hn]
      push_cast
      ring
    have := Complex.ofReal_injective h1
    rw [this]
    simp
  have hc : ∀ f ∈ Set.Ioi (0 : ℝ), ∀ g ∈ Set.Ioi (0 : ℝ), φ f - ψ f = φ g - ψ g := by
    intro f hf g hg
    exact isPreconnected_Ioi.constant_of_mapsTo (T := (AddSubgroup.zmultiples (2 * Real.pi) : Set ℝ))
      ⟨inferInstanceAs (DiscreteTopology (AddSubgroup.zmultiples (2 * Real.pi)))⟩ (hφ.continuous.sub hψ.continuous) hm hf hg
  have hl := hφ.passBand.sub hψ.passBand
  intro f hf
  have hconst : _root_.Filter.Tendsto (fun x => φ x - ψ x) (if highpass then _root_.Filter.atTop else 𝓝[>] 0)
      (𝓝 (φ f - ψ f)) := by
    refine tendsto_const_nhds.congr' ?_
    cases highpass with
    | true =>
      simp only [if_true]
      filter_upwards [_root_.Filter.eventually_gt_atTop 0] with x hx using hc f hf x hx
    | false =>
      simp only [Bool.false_eq_true, if_false]
      filter_upwards [self_mem_nhdsWithin] with x hx using hc f hf x hx
  have hne : (if highpass then (_root_.Filter.atTop : _root_.Filter ℝ) else 𝓝[>] 0).NeBot := by
    cases highpass <;> simp <;> infer_instance
  have := tendsto_nhds_unique hconst hl
  linarith

/-! ### filters without zeros -/

/-- the phase of filters, whose transfer function is the inverse of a polynomial -/
theorem phase_falls {highpass : Bool} {cutoff : ℝ} (hc : 0 < cutoff) {n : Nat} (hn : 0 < n) {P : ℝ → ℂ} {φ : ℝ → ℝ}
    (h : HasPhase P n φ) :
    ContinuousOn (fun f => -φ (relative cutoff highpass f)) (Set.Ioi 0) ∧
      _root_.Filter.Tendsto (fun f => -φ (relative cutoff highpass f)) (if highpass then _root_.Filter.atTop else 𝓝[>] 0) (𝓝 0) ∧
      Falls highpass n (fun f => -φ (relative cutoff highpass f)) := by
  have h0 : _root_.Filter.Tendsto φ (𝓝 0) (𝓝 0) := by
    have := h.continuous.tendsto 0
    rwa [h.zero] at this
  cases highpass with
  | false =>
    have e : (fun f => -φ (relative cutoff false f)) = fun f => -φ (f / cutoff) := by funext f; simp [relative]
    rw [e]
    have t : _root_.Filter.Tendsto (fun f : ℝ => f / cutoff) (𝓝[>] 0) (𝓝 0) := by
      have : Continuous fun f : ℝ => f / cutoff := by fun_prop
      have := this.tendsto 0
      rw [zero_div] at this
      exact this.mono_left nhdsWithin_le_nhds
    refine ⟨(h.continuous.comp (by fun_prop)).neg.continuousOn, ?_, ?_, ?_⟩
    · simpa using (h0.comp t).neg
    · intro x _ y _ hxy
      exact neg_lt_neg (h.strict hn (div_lt_div_of_pos_right hxy hc))
    · simpa using (h.limit.comp (_root_.Filter.tendsto_id.atTop_div_const hc)).neg
  | true =>
    have e : (fun f => -φ (relative cutoff true f)) = fun f => φ (cutoff / f) := by
      funext f
      simp [relative, h.odd]
    rw [e]
    refine ⟨?_, ?_, ?_, ?_⟩
    · exact h.continuous.comp_continuousOn (continuousOn_const.div continuousOn_id fun x hx => ne_of_gt hx)
    · exact h0.comp (_root_.Filter.Tendsto.const_div_atTop _root_.Filter.tendsto_id cutoff)
    · intro x hx y _ hxy
      exact h.strict hn (div_lt_div_of_pos_left hc hx hxy)
    · have t : _root_.Filter.Tendsto (fun f : ℝ => cutoff / f) (𝓝[>] 0) _root_.Filter.atTop := by
        simpa [div_eq_mul_inv] using (tendsto_inv_nhdsGT_zero (𝕜 := ℝ)).const_mul_atTop hc
      exact h.limit.comp t

theorem inverse_phase {highpass : Bool} {cutoff : ℝ} (hc : 0 < cutoff) {n : Nat} (hn : 0 < n) {P : ℝ → ℂ} {φ : ℝ → ℝ}
    (h : HasPhase P n φ) {g : ℝ} (hg : 0 < g) {H : ℝ → ℂ} (hH : ∀ f, 0 < f → H f = g / P (relative cutoff highpass f)) :
    (∀ f, 0 < f → H f ≠ 0) ∧ IsPhase highpass H (fun f => -φ (relative cutoff highpass f)) ∧
      Falls highpass n (fun f => -φ (relative cutoff highpass f)) := by
  obtain ⟨h1, h2, h3⟩ := phase_falls (highpass := highpass) hc hn h
  have hv : ∀ f, 0 < f → ∃ ρ : ℝ, 0 < ρ ∧ H f = ρ * exp ((-φ (relative cutoff highpass f) : ℝ) * I) := by
    intro f hf
    obtain ⟨ρ, hρ, e⟩ := h.value (relative cutoff highpass f)
    refine ⟨g / ρ, div_pos hg hρ, ?_⟩
    have : (ρ : ℂ) ≠ 0 := Complex.ofReal_ne_zero.mpr hρ.ne'
    rw [hH f hf, e]
    push_cast
    rw [neg_mul, Complex.exp_neg]
    have := Complex.exp_ne_zero (φ (relative cutoff highpass f) * I)
    field_simp
  refine ⟨fun f hf => ?_, ⟨h1, fun f hf => ?_, h2⟩, h3⟩
  · obtain ⟨ρ, hρ, e⟩ := hv f hf
    rw [e]
    exact mul_ne_zero (Complex.ofReal_ne_zero.mpr hρ.ne') (Complex.exp_ne_zero _)
  · obtain ⟨ρ, hρ, e⟩ := hv f hf
    rw [e, norm_mul, Complex.norm_exp_ofReal_mul_I, mul_one, Complex.norm_real, Real.norm_of_nonneg hρ.le]

/-! ### sections -/

/-- the factors of the sections as functions of the relative frequency -/
noncomputable def sectionValue (cs : List ℝ) (u : ℝ) : ℂ := polyval (cs.map fun (c : ℝ) => (c : ℂ)) (I * u)

theorem sections_scale (A B : ℝ → ℝ) (c k u : ℝ) (order : Nat) (σ : ℂ) (h : (k : ℂ) * σ = I * u) :
    ((sections A B c k order).map fun cs => polyval (cs.map fun (c : ℝ) => (c : ℂ)) σ) =
      (sections A B c 1 order).map fun cs => sectionValue cs u := by
  have two : ∀ a b : ℝ, polyval ([a * k ^ 2, b * k, 1].map fun (c : ℝ) => (c : ℂ)) σ =
      sectionValue [a * 1 ^ 2, b * 1, 1] u := by
    intro a b
    unfold sectionValue
    rw [← h]
    simp [polyval]
    ring
  have one : polyval ([c * k, 1].map fun (c : ℝ) => (c : ℂ)) σ = sectionValue [c * 1, 1] u := by
    unfold sectionValue
    rw [← h]
    simp [polyval]
    ring
  unfold sections
  split
  · rw [List.map_map, List.map_map]
    exact List.map_congr_left fun j _ => two _ _
  · refine List.cons_eq_cons.mpr ⟨one, ?_⟩
    rw [List.map_map, List.map_map]
    exact List.map_congr_left fun j _ => two _ _

/-- the transfer function of a filter, that is the inverse of the product of its sections -/
theorem sections_transfer (n : Nat) (A B : ℝ → ℝ) (c k : ℝ) (order : Nat) (ho : 0 < order) (hk : 0 < k) (hc : 0 < c)
    (hA : ∀ θ, 0 < θ → θ < Real.pi / 2 → 0 < A θ) (hB : ∀ θ, 0 < θ → θ < Real.pi / 2 → 0 < B θ) (highpass : Bool) :
    ∃ t, (productFactory complexEnv (n + 3) ((sections A B c k order).map realPolynomial) highpass >>=
        fun p => p.invert) = .ok t ∧ (∃ p, t = .quotient (.constant 1) p false) ∧ usesTransform false t = highpass ∧
      ∀ f σ, sValue complexEnv f highpass = some σ → ∀ u : ℝ, (k : ℂ) * σ = I * u →
        eval complexEnv f false t = some (1 / ((sections A B c 1 order).map fun cs => sectionValue cs u).prod) := by
  have red : ∀ cs ∈ sections A B c k order, Reduced (cs.map fun (c : ℝ) => (c : ℂ)) := by
    intro cs hcs
    rcases sections_mem hcs with rfl | ⟨θ, h1, h2, rfl⟩
    · exact ⟨_, _, _, rfl, Complex.ofReal_ne_zero.mpr (mul_pos hc hk).ne'⟩
    · exact ⟨_, _, _, rfl, Complex.ofReal_ne_zero.mpr (mul_pos (hA θ h1 h2) (pow_pos hk 2)).ne'⟩
  have ne : sections A B c k order ≠ [] := by
    unfold sections
    split
    · simp; omega
    · simp
  have e : (sections A B c k order).map realPolynomial =
      ((sections A B c k order).map fun cs => cs.map fun (c : ℝ) => (c : ℂ)).map fun cs => .polynomial cs false := by
    rw [List.map_map]
    exact List.map_congr_left fun cs hcs => realPolynomial_reduced (red cs hcs)
  rw [e]
  obtain ⟨p, h1, h2, h3, h4⟩ := polyProduct complexEnv complexEnv_lawful n
    ((sections A B c k order).map fun cs => cs.map fun (c : ℝ) => (c : ℂ)) (by simpa using ne)
    (by
      intro cs hcs
      obtain ⟨cs', h, rfl⟩ := List.mem_map.mp hcs
      exact red cs' h) highpass
  refine ⟨.quotient (.constant 1) p false, by rw [h1]; exact h2, ⟨p, rfl⟩, by simp [usesTransform, h3], ?_⟩
  intro f σ hσ u hu
  have hv := h4 f σ hσ
  rw [List.map_map] at hv
  rw [eval_quotient]
  refine ⟨1, _, rfl, hv, ?_, ?_⟩
  · show ((sections A B c k order).map fun cs => polyval (cs.map fun (c : ℝ) => (c : ℂ)) σ).prod ≠ 0
    rw [sections_scale A B c k u order σ hu]
    exact sections_ne_zero order one_pos hc.le hA hB (by simp)
  · show _ = 1 / ((sections A B c k order).map fun cs => polyval (cs.map fun (c : ℝ) => (c : ℂ)) σ).prod
    rw [sections_scale A B c k u order σ hu]

/-- the phase of a section -/
theorem section_phase {A B : ℝ → ℝ} {c : ℝ} (hc : 0 < c) (hA : ∀ θ, 0 < θ → θ < Real.pi / 2 → 0 < A θ)
    (hB : ∀ θ, 0 < θ → θ < Real.pi / 2 → 0 < B θ) {order : Nat} {cs : List ℝ} (h : cs ∈ sections A B c 1 order) :
    ∃ φ, HasPhase (sectionValue cs) (cs.length - 1) φ := by
  rcases sections_mem h with rfl | ⟨θ, h1, h2, rfl⟩
  · obtain ⟨φ, hφ⟩ := linear_phase hc
    exact ⟨φ, hφ.congr fun u => by simp [sectionValue, polyval]⟩
  · obtain ⟨φ, hφ⟩ := quadratic_phase (hA θ h1 h2) (hB θ h1 h2)
    refine ⟨φ, hφ.congr fun u => ?_⟩
    simp [sectionValue, polyval]
    ring

/-- the sum of the degrees of the sections -/
theorem sections_degree (A B : ℝ → ℝ) (c k : ℝ) (order : Nat) :
    ((sections A B c k order).map fun cs => cs.length - 1).sum = order := by
  unfold sections
  split
  · rw [List.map_map]
    simp [Function.comp_def]
    omega
  · rw [List.map_cons, List.map_map]
    simp [Function.comp_def]
    omega

theorem list_phase (l : List (List ℝ)) (R : Nat → (ℝ → ℝ) → Prop) (h0 : R 0 fun _ => 0)
    (hR : ∀ m n φ ψ, R m φ → R n ψ → R (m + n) fun u => φ u + ψ u)
    (h : ∀ cs ∈ l, ∃ φ, HasPhase (sectionValue cs) (cs.length - 1) φ ∧ R (cs.length - 1) φ) :
    ∃ φ, HasPhase (fun u => (l.map fun cs => sectionValue cs u).prod) ((l.map fun cs => cs.length - 1).sum) φ ∧
      R ((l.map fun cs => cs.length - 1).sum) φ := by
  induction l with
  | nil => exact ⟨_, HasPhase.one, h0⟩
  | cons cs l ih =>
    obtain ⟨φ, h1, h2⟩ := h cs List.mem_cons_self
    obtain ⟨ψ, h3, h4⟩ := ih fun x hx => h x (List.mem_cons_of_mem _ hx)
    refine ⟨fun u => φ u + ψ u, ?_, ?_⟩
    · rw [List.map_cons, List.sum_cons]
      exact (h1.mul h3).congr fun u => by simp
    · rw [List.map_cons, List.sum_cons]
      exact hR _ _ _ _ h2 h4

/-! ### Butterworth filters -/

/-- the symmetry of the phase around the cutoff frequency -/
def Symmetric (n : Nat) (φ : ℝ → ℝ) : Prop := ∀ u, 0 < u → φ u + φ (1 / u) = n * (Real.pi / 2)

theorem angle_zero {x ρ : ℝ} (h1 : -Real.pi < x) (h2 : x < Real.pi) (hρ : 0 < ρ) (h : exp (x * I) = ρ) : x = 0 := by
  have := Complex.arg_mul_cos_add_sin_mul_I one_pos ⟨h1, h2.le⟩
  rw [Complex.ofReal_one, one_mul, ← Complex.exp_mul_I, h, Complex.arg_ofReal_of_nonneg hρ.le] at this
  exact this.symm

theorem linear_symmetric {φ : ℝ → ℝ} (h : HasPhase (fun u => 1 * (I * u) + 1) 1 φ) : Symmetric 1 φ := by
  intro u hu
  have hu' : 0 < 1 / u := by positivity
  obtain ⟨a1, a2⟩ := h.range one_pos hu
  obtain ⟨b1, b2⟩ := h.range one_pos hu'
  obtain ⟨ρ, hρ, e⟩ := h.value u
  obtain ⟨τ, hτ, g⟩ := h.value (1 / u)
  have hp := Real.pi_pos
  have huc : (u : ℂ) ≠ 0 := Complex.ofReal_ne_zero.mpr hu.ne'
  have hρc : (ρ : ℂ) ≠ 0 := Complex.ofReal_ne_zero.mpr hρ.ne'
  have hτc : (τ : ℂ) ≠ 0 := Complex.ofReal_ne_zero.mpr hτ.ne'
  push_cast at a2 b2
  have key := angle_zero (x := φ u + φ (1 / u) - Real.pi / 2) (ρ := (u + 1 / u) / (ρ * τ)) (by linarith) (by linarith)
    (by positivity) (by
      have : exp (((φ u + φ (1 / u) - Real.pi / 2 : ℝ) : ℂ) * I) = exp (φ u * I) * exp (φ (1 / u) * I) * -I := by
        push_cast
        rw [sub_mul, add_mul, Complex.exp_sub, Complex.exp_add, Complex.exp_pi_div_two_mul_I, div_eq_mul_inv, Complex.inv_I]
      rw [this]
      have e' : exp (φ u * I) = (1 * (I * u) + 1) / ρ := by rw [e]; field_simp
      have g' : exp (φ (1 / u) * I) = (1 * (I * (1 / u : ℝ)) + 1) / τ := by rw [g]; field_simp
      rw [e', g']
      push_cast
      field_simp
      ring_nf
      simp
      ring)
  push_cast
  linarith

theorem quadratic_symmetric {b : ℝ} (hb : 0 < b) {φ : ℝ → ℝ} (h : HasPhase (fun u => 1 * (I * u) ^ 2 + b * (I * u) + 1) 2 φ) :
    Symmetric 2 φ := by
  intro u hu
  have hu' : 0 < 1 / u := by positivity
  obtain ⟨a1, a2⟩ := h.range two_pos hu
  obtain ⟨b1, b2⟩ := h.range two_pos hu'
  obtain ⟨ρ, hρ, e⟩ := h.value u
  obtain ⟨τ, hτ, g⟩ := h.value (1 / u)
  have hp := Real.pi_pos
  have huc : (u : ℂ) ≠ 0 := Complex.ofReal_ne_zero.mpr hu.ne'
  have hρc : (ρ : ℂ) ≠ 0 := Complex.ofReal_ne_zero.mpr hρ.ne'
  have hτc : (τ : ℂ) ≠ 0 := Complex.ofReal_ne_zero.mpr hτ.ne'
  push_cast at a2 b2
  have key := angle_zero (x := φ u + φ (1 / u) - Real.pi) (ρ := ((1 - u ^ 2) ^ 2 + (b * u) ^ 2) / u ^ 2 / (ρ * τ)) (by linarith)
    (by linarith) (by positivity) (by
      have : exp (((φ u + φ (1 / u) - Real.pi : ℝ) : ℂ) * I) = exp (φ u * I) * exp (φ (1 / u) * I) * -1 := by
        push_cast
        rw [sub_mul, add_mul, Complex.exp_sub, Complex.exp_add, Complex.exp_pi_mul_I]
        ring
      rw [this]
      have e' : exp (φ u * I) = (1 * (I * u) ^ 2 + b * (I * u) + 1) / ρ := by rw [e]; field_simp
      have g' : exp (φ (1 / u) * I) = (1 * (I * (1 / u : ℝ)) ^ 2 + b * (I * (1 / u : ℝ)) + 1) / τ := by rw [g]; field_simp
      rw [e', g']
      push_cast
      field_simp
      linear_combination -(u ^ 2 * I ^ 2 + I * b * (u ^ 3 + u) + (u ^ 4 + b ^ 2 * u ^ 2 + 1 - u ^ 2) : ℂ) * Complex.I_sq)
  push_cast
  linarith

theorem scaling_both {cutoff : ℝ} (hc : 0 < cutoff) (highpass : Bool) :
    ∃ k, frequencyScaling cutoff highpass = .ok k ∧ 0 < k ∧ ∀ f, (highpass = true → f ≠ 0) →
      ∃ σ, sValue complexEnv f highpass = some σ ∧ (k : ℂ) * σ = I * relative cutoff highpass f := by
  obtain ⟨k, h1, h2⟩ := scaling_pos hc highpass
  obtain ⟨k', h3, -, h4⟩ := scaling_ok hc highpass
  rw [h1] at h3
  cases h3
  exact ⟨k, h1, h2, h4⟩

/-- the phase of the filters, that are the inverse of the product of their sections -/
theorem sections_phase (mem : ℂ) (label : String) {cutoff : ℝ} (hc : 0 < cutoff) (n : Nat) (A B : ℝ → ℝ) (c k : ℝ)
    (order : Nat) (ho : 0 < order) (hk : 0 < k) (hc' : 0 < c) (hA : ∀ θ, 0 < θ → θ < Real.pi / 2 → 0 < A θ)
    (hB : ∀ θ, 0 < θ → θ < Real.pi / 2 → 0 < B θ) (highpass : Bool)
    (hs : ∀ f, (highpass = true → f ≠ 0) →
      ∃ σ, sValue complexEnv f highpass = some σ ∧ (k : ℂ) * σ = I * relative cutoff highpass f)
    (R : Nat → (ℝ → ℝ) → Prop) (h0 : R 0 fun _ => 0) (hR : ∀ m n φ ψ, R m φ → R n ψ → R (m + n) fun u => φ u + ψ u)
    (h1 : ∀ φ, HasPhase (fun u => c * (I * u) + 1) 1 φ → R 1 φ)
    (h2 : ∀ θ φ, 0 < θ → θ < Real.pi / 2 → HasPhase (fun u => A θ * (I * u) ^ 2 + B θ * (I * u) + 1) 2 φ → R 2 φ) :
    ∃ t, (productFactory complexEnv (n + 3) ((sections A B c k order).map realPolynomial) highpass >>=
        fun p => p.invert) = .ok t ∧ ∃ H φ, HasTransfer mem (Channels.new [t] [label]) H ∧ (∀ f, 0 < f → H f ≠ 0) ∧
          IsPhase highpass H (fun f => -φ (relative cutoff highpass f)) ∧
          Falls highpass order (fun f => -φ (relative cutoff highpass f)) ∧ R order φ ∧ ∀ u, φ (-u) = -φ u := by
  obtain ⟨t, ht, -, hu, hv⟩ := sections_transfer n A B c k order ho hk hc' hA hB highpass
  obtain ⟨φ, hφ, hRφ⟩ := list_phase (sections A B c 1 order) R h0 hR fun cs hcs => by
    rcases sections_mem hcs with rfl | ⟨θ, a1, a2, rfl⟩
    · obtain ⟨φ, hφ⟩ := linear_phase hc'
      exact ⟨φ, hφ.congr fun u => by simp [sectionValue, polyval], h1 φ hφ⟩
    · obtain ⟨φ, hφ⟩ := quadratic_phase (hA θ a1 a2) (hB θ a1 a2)
      refine ⟨φ, hφ.congr fun u => ?_, h2 θ φ a1 a2 hφ⟩
      simp [sectionValue, polyval]
      ring
  rw [sections_degree] at hφ hRφ
  have hval : ∀ f, 0 < f → (Channels.new [t] [label] : Channels ℝ ℂ).call complexEnv mem f =
      [some (((1 : ℝ) : ℂ) / ((sections A B c 1 order).map fun cs => sectionValue cs (relative cutoff highpass f)).prod)] := by
    intro f hf
    obtain ⟨σ, hσ, hkσ⟩ := hs f fun _ => hf.ne'
    rw [call_single mem t _ f hf.le, hu, if_neg (fun h => hf.ne' h.1), hv f σ hσ _ hkσ, Complex.ofReal_one]
  obtain ⟨g1, g2, g3⟩ := inverse_phase (highpass := highpass) hc ho hφ one_pos
    (H := fun f => ((1 : ℝ) : ℂ) / ((sections A B c 1 order).map fun cs => sectionValue cs (relative cutoff highpass f)).prod)
    (fun f _ => rfl)
  exact ⟨t, ht, _, φ, hval, g1, g2, g3, hRφ, hφ.odd⟩

/-- C139: The phase of Butterworth filters falls by 90 degrees for each order of the filter. It is symmetric around the cutoff
frequency, where one half of the total phase has been reached. -/
theorem C139_butterworth (mem : ℂ) (n : Nat) (cutoff : ℝ) (hc : 0 < cutoff) (order : Nat) (ho : 0 < order) (highpass : Bool) :
    ∃ a H φ, butterworthFilter complexEnv (n + 3) cutoff order highpass = .ok a ∧ HasTransfer mem a H ∧
      (∀ f, 0 < f → H f ≠ 0) ∧ IsPhase highpass H φ ∧ Falls highpass order φ ∧
      φ cutoff = (if highpass then 1 else -1) * order * (Real.pi / 4) ∧
      ∀ f, 0 < f → φ f + φ (cutoff ^ 2 / f) = (if highpass then 1 else -1) * order * (Real.pi / 2) := by
  obtain ⟨k, hk, hk0, hs⟩ := scaling_both hc highpass
  obtain ⟨t, ht, H, φ, h1, h2, h3, h4, h5, h6⟩ := sections_phase mem "Butterworth" hc n (fun _ => 1) (fun θ => 2 * Real.cos θ) 1 k
    order ho hk0 one_pos (fun _ _ _ => one_pos)
    (fun θ h1 h2 => mul_pos two_pos (Real.cos_pos_of_mem_Ioo ⟨by linarith, h2⟩)) highpass hs Symmetric
    (fun u _ => by simp) (fun m n φ ψ h1 h2 u hu => by
      have := h1 u hu
      have := h2 u hu
      push_cast
      linarith) (fun φ h => linear_symmetric (h.congr fun u => by simp)) (fun θ φ h1 h2 h =>
        quadratic_symmetric (b := 2 * Real.cos θ) (mul_pos two_pos (Real.cos_pos_of_mem_Ioo ⟨by linarith, h2⟩))
          (h.congr fun u => by simp))
  have hb : butterworth complexEnv (n + 3) cutoff order highpass = .ok t := by
    unfold butterworth
    rw [hk]
    rw [← butterworth_factors k order] at ht
    exact ht
  have hsym : ∀ f, 0 < f → -φ (relative cutoff highpass f) + -φ (relative cutoff highpass (cutoff ^ 2 / f)) =
      (if highpass then 1 else -1) * order * (Real.pi / 2) := by
    intro f hf
    cases highpass with
    | false =>
      have := h5 (f / cutoff) (div_pos hf hc)
      rw [show 1 / (f / cutoff) = cutoff ^ 2 / f / cutoff by field_simp] at this
      simp [relative]
      linarith
    | true =>
      have := h5 (cutoff / f) (div_pos hc hf)
      rw [show 1 / (cutoff / f) = cutoff / (cutoff ^ 2 / f) by field_simp] at this
      simp only [relative, if_true, h6]
      linarith
  refine ⟨_, H, _, ?_, h1, h2, h3, h4, ?_, hsym⟩
  · unfold butterworthFilter rolloff
    rw [hb]
    rfl
  · have := hsym cutoff hc
    rw [show cutoff ^ 2 / cutoff = cutoff by field_simp] at this
    show -φ _ = _
    linarith

example : (0 : ℝ) < 1000 ∧ 0 < 3 := by norm_num

/-- C139: The phase of Chebyshev filters of type 1 falls by 90 degrees for each order of the filter. -/
theorem C139_chebyshev1 (mem : ℂ) (n : Nat) (cutoff ripple : ℝ) (hc : 0 < cutoff) (hr : ripple ≠ 0) (order : Nat)
    (ho : 0 < order) (highpass : Bool) :
    ∃ a H φ, chebyshev1Filter complexEnv (n + 3) cutoff ripple order highpass = .ok a ∧ HasTransfer mem a H ∧
      (∀ f, 0 < f → H f ≠ 0) ∧ IsPhase highpass H φ ∧ Falls highpass order φ := by
  obtain ⟨k, hk, hk0, hs⟩ := scaling_both hc highpass
  have he := ripple_pos hr
  have hsq : 0 < Real.sqrt ((10 : ℝ) ^ (|ripple| / 10) - 1) := Real.sqrt_pos.mpr he
  have ho' : (0 : ℝ) < order := by exact_mod_cast ho
  set g := Real.arsinh (1 / Real.sqrt ((10 : ℝ) ^ (|ripple| / 10) - 1)) / order with hg
  have hg0 : 0 < g := div_pos (Real.arsinh_pos_iff.mpr (by positivity)) ho'
  have hsg : 0 < Real.sinh g := Real.sinh_pos_iff.mpr hg0
  have hA : ∀ θ, 0 < 1 / (Real.cosh g ^ 2 - Real.cos θ ^ 2) := fun θ => one_div_pos.mpr (cosh_gt hg0.ne')
  obtain ⟨t, ht, H, φ, h1, h2, h3, h4, -, -⟩ := sections_phase mem "Chebyshev 1" hc n
    (fun θ => 1 / (Real.cosh g ^ 2 - Real.cos θ ^ 2))
    (fun θ => 2 * (1 / (Real.cosh g ^ 2 - Real.cos θ ^ 2)) * Real.sinh g * Real.cos θ) (1 / Real.sinh g) k order ho hk0
    (by positivity) (fun θ _ _ => hA θ) (fun θ h1 h2 => by
      have := hA θ
      have := Real.cos_pos_of_mem_Ioo (x := θ) ⟨by linarith, h2⟩
      positivity) highpass hs (fun _ _ => True) trivial (fun _ _ _ _ _ _ => trivial) (fun _ _ => trivial)
      (fun _ _ _ _ _ => trivial)
  have hb : chebyshev1 complexEnv (n + 3) cutoff ripple order highpass = .ok t := by
    unfold chebyshev1
    rw [hk]
    rw [← chebyshev1_factors k (Real.sinh g) (Real.cosh g ^ 2) order] at ht
    show (if _ then _ else _) = _
    rw [if_neg (by
      rintro (h | h)
      · exact hsq.ne' h
      · exact ho.ne' h)]
    exact ht
  refine ⟨_, H, _, ?_, h1, h2, h3, h4⟩
  unfold chebyshev1Filter rolloff
  rw [if_pos hr, hb]
  rfl

example : (0 : ℝ) < 1000 ∧ (3 : ℝ) ≠ 0 ∧ 0 < 3 := by norm_num

/-! ### Bessel filters -/

/-- the reverse Bessel polynomials -/
noncomputable def besselPolynomial : Nat → Polynomial ℝ
  | 0 => 1
  | 1 => .X + .C 1
  | n + 2 => .X ^ 2 * besselPolynomial n + .C (2 * n + 3) * besselPolynomial (n + 1)

theorem besselPolynomial_eval (n : Nat) (z : ℂ) : ((besselPolynomial n).map Complex.ofRealHom).eval z = reverseBessel n z := by
  induction n using Nat.twoStepInduction with
  | zero => simp [besselPolynomial, reverseBessel]
  | one => simp [besselPolynomial, reverseBessel]
  | more n h1 h2 =>
    simp only [besselPolynomial, reverseBessel, Polynomial.map_add, Polynomial.map_mul, Polynomial.map_pow, Polynomial.map_X,
      Polynomial.map_C, Polynomial.eval_add, Polynomial.eval_mul, Polynomial.eval_pow, Polynomial.eval_X, Polynomial.eval_C,
      h1, h2]
    simp
    ring

theorem besselPolynomial_monic (n : Nat) : (besselPolynomial n).Monic ∧ (besselPolynomial n).natDegree = n := by
  induction n using Nat.twoStepInduction with
  | zero => simp [besselPolynomial]
  | one => exact ⟨Polynomial.monic_X_add_C 1, Polynomial.natDegree_X_add_C 1⟩
  | more n h1 h2 =>
    have m : (Polynomial.X ^ 2 * besselPolynomial n).Monic := (Polynomial.monic_X_pow 2).mul h1.1
    have d : (Polynomial.X ^ 2 * besselPolynomial n).natDegree = n + 2 := by
      rw [(Polynomial.monic_X_pow 2).natDegree_mul h1.1, Polynomial.natDegree_X_pow, h1.2]
      omega
    have lt : (Polynomial.C (2 * n + 3 : ℝ) * besselPolynomial (n + 1)).natDegree <
        (Polynomial.X ^ 2 * besselPolynomial n).natDegree := by
      refine (Polynomial.natDegree_C_mul_le _ _).trans_lt ?_
      rw [h2.2, d]
      omega
    refine ⟨m.add_of_left (Polynomial.degree_lt_degree lt), ?_⟩
    show (Polynomial.X ^ 2 * besselPolynomial n + _).natDegree = _
    rw [Polynomial.natDegree_add_eq_left_of_natDegree_lt lt, d]

/-- C139: The phase of Bessel filters falls by 90 degrees for each order of the filter. -/
theorem C139_bessel (mem : ℂ) (cutoff : ℝ) (hc : 0 < cutoff) (order : Nat) (ho : 0 < order) (highpass : Bool) :
    ∃ a H φ, besselFilter cutoff order highpass = .ok a ∧ HasTransfer mem a H ∧
      (∀ f, 0 < f → H f ≠ 0) ∧ IsPhase highpass H φ ∧ Falls highpass order φ := by
  obtain ⟨a, ha, -, hv⟩ := C38_value mem cutoff hc order highpass
  obtain ⟨hm, hd⟩ := besselPolynomial_monic order
  obtain ⟨φ, hφ⟩ := hurwitz_phase (besselPolynomial order) (by rw [hm.leadingCoeff]; exact one_pos) fun z hz => by
    rw [besselPolynomial_eval]
    exact reverseBessel_hurwitz order hz
  rw [hd] at hφ
  have h0 : ∃ g : ℝ, 0 < g ∧ reverseBessel order 0 = g := by
    obtain ⟨ρ, hρ, e⟩ := hφ.value 0
    rw [hφ.zero, besselPolynomial_eval] at e
    exact ⟨ρ, hρ, by simpa using e⟩
  obtain ⟨g, hg, hg'⟩ := h0
  have hcc : (cutoff : ℂ) ≠ 0 := Complex.ofReal_ne_zero.mpr hc.ne'
  obtain ⟨g1, g2, g3⟩ := inverse_phase (highpass := highpass) hc ho hφ hg
    (H := fun f => reverseBessel order 0 / reverseBessel order (if highpass then cutoff / (I * f) else I * f / cutoff))
    (fun f hf => by
      rw [besselPolynomial_eval, ← hg']
      congr 2
      have hfc : (f : ℂ) ≠ 0 := Complex.ofReal_ne_zero.mpr hf.ne'
      cases highpass with
      | false =>
        simp [relative]
        ring
      | true =>
        simp only [relative, if_true]
        push_cast
        rw [div_mul_eq_div_div, div_eq_mul_inv (cutoff : ℂ) I, Complex.inv_I]
        ring)
  exact ⟨a, _, _, ha, fun f hf => hv f hf.le fun _ => hf.ne', g1, g2, g3⟩

example : (0 : ℝ) < 1000 ∧ 0 < 3 := by norm_num

/-! ### Chebyshev filters of type 2 -/

/-- the product of the enumerators is real and it is positive in the pass band -/
theorem enumerator_real (order : Nat) (u : ℝ) :
    ∃ ν : ℝ, ((sections (fun θ => Real.sin θ ^ 2) (fun _ => 0) 0 1 order).map fun cs => sectionValue cs u).prod = ν ∧
      (u ^ 2 ≤ 1 → 0 < ν) := by
  have key : ∀ l : List (List ℝ), (∀ cs ∈ l, cs ∈ sections (fun θ => Real.sin θ ^ 2) (fun _ => 0) 0 1 order) →
      ∃ ν : ℝ, (l.map fun cs => sectionValue cs u).prod = ν ∧ (u ^ 2 ≤ 1 → 0 < ν) := by
    intro l
    induction l with
    | nil => exact fun _ => ⟨1, by simp, fun _ => one_pos⟩
    | cons cs l ih =>
      intro h
      obtain ⟨ν, h1, h2⟩ := ih fun x hx => h x (List.mem_cons_of_mem _ hx)
      rcases sections_mem (h cs List.mem_cons_self) with rfl | ⟨θ, a1, a2, rfl⟩
      · exact ⟨ν, by rw [List.map_cons, List.prod_cons, h1]; simp [sectionValue, polyval], h2⟩
      · refine ⟨(1 - Real.sin θ ^ 2 * u ^ 2) * ν, ?_, fun hu => mul_pos ?_ (h2 hu)⟩
        · rw [List.map_cons, List.prod_cons, h1]
          simp [sectionValue, polyval]
          left
          linear_combination (Complex.sin θ ^ 2 * u ^ 2) * Complex.I_sq
        · have hcos : 0 < Real.cos θ := Real.cos_pos_of_mem_Ioo ⟨by linarith, a2⟩
          have := Real.sin_sq_add_cos_sq θ
          nlinarith [sq_nonneg (Real.sin θ)]
  exact key _ fun cs h => h

/-- C139: The phase of Chebyshev filters of type 2 falls by 90 degrees for each order of the filter, except for the changes of
the sign at the zeros in the stop band: `ρ` is the magnitude with these changes of the sign. -/
theorem C139_chebyshev2 (mem : ℂ) (n : Nat) (cutoff ripple : ℝ) (hc : 0 < cutoff) (hr : ripple ≠ 0) (order : Nat)
    (ho : 0 < order) (highpass : Bool) :
    ∃ a, ∃ ρ φ : ℝ → ℝ, chebyshev2Filter complexEnv (n + 4) cutoff ripple order highpass = .ok a ∧
      HasTransfer mem a (fun f => ρ f * exp (φ f * I)) ∧ (∀ f, 0 < f → InPassBand cutoff highpass f → 0 < ρ f) ∧
      ContinuousOn φ (Set.Ioi 0) ∧
      _root_.Filter.Tendsto φ (if highpass then _root_.Filter.atTop else 𝓝[>] 0) (𝓝 0) ∧ Falls highpass order φ := by
  obtain ⟨k, hk, hk0, hs⟩ := scaling_both hc highpass
  have ho' : (0 : ℝ) < order := by exact_mod_cast ho
  have hl : 1 < (10 : ℝ) ^ (|ripple| / 20) := Real.one_lt_rpow (by norm_num) (by positivity)
  set g := Real.arsinh (Real.sqrt (((10 : ℝ) ^ (|ripple| / 20)) ^ 2 - 1)) / order with hg
  have hg0 : 0 < g := div_pos (Real.arsinh_pos_iff.mpr (Real.sqrt_pos.mpr (by nlinarith))) ho'
  have hsg : 0 < Real.sinh g := Real.sinh_pos_iff.mpr hg0
  have hmem := fun p hp => sections2_mem (p := p) hk0.ne' hg0 (order := order) hp
  have ne : sections2 k g order ≠ [] := by
    unfold sections2
    split
    · simp; omega
    · simp
  obtain ⟨t, ht, hu, hv⟩ := fractionProduct complexEnv complexEnv_lawful n (sections2 k g order) ne
    (fun p hp => (hmem p hp).1) (fun p hp => (hmem p hp).2.1) (fun p hp => (hmem p hp).2.2) highpass
  have hb : chebyshev2 complexEnv (n + 4) cutoff ripple order highpass = .ok t := by
    unfold chebyshev2
    rw [hk]
    show (if order = 0 then _ else _) = _
    rw [if_neg ho.ne']
    have hfac := chebyshev2_factors k g hk0.ne' hg0.ne' order
    show (_ >>= fun factors => productFactory complexEnv (n + 4) factors highpass) = _
    rw [hfac]
    exact ht
  have hA : ∀ θ, 0 < θ → θ < Real.pi / 2 → 0 < Real.cosh g ^ 2 - Real.cos θ ^ 2 := fun θ _ _ => cosh_gt hg0.ne'
  have hB : ∀ θ, 0 < θ → θ < Real.pi / 2 → 0 < 2 * Real.sinh g * Real.cos θ :=
    fun θ h1 h2 => mul_pos (mul_pos two_pos hsg) (Real.cos_pos_of_mem_Ioo ⟨by linarith, h2⟩)
  set D := fun u : ℝ => ((sections (fun θ => Real.cosh g ^ 2 - Real.cos θ ^ 2) (fun θ => 2 * Real.sinh g * Real.cos θ)
    (Real.sinh g) 1 order).map fun cs => sectionValue cs u).prod with hD
  obtain ⟨φ, hφ, -⟩ := list_phase (sections (fun θ => Real.cosh g ^ 2 - Real.cos θ ^ 2)
    (fun θ => 2 * Real.sinh g * Real.cos θ) (Real.sinh g) 1 order) (fun _ _ => True) trivial (fun _ _ _ _ _ _ => trivial)
    fun cs hcs => by
      obtain ⟨φ, h⟩ := section_phase hsg hA hB hcs
      exact ⟨φ, h, trivial⟩
  rw [sections_degree] at hφ
  choose ν hν hνp using enumerator_real order
  choose τ hτp hτ using hφ.value
  obtain ⟨h1, h2, h3⟩ := phase_falls (highpass := highpass) hc ho hφ
  refine ⟨Channels.new [t] ["Chebyshev 2"], fun f => ν (relative cutoff highpass f) / τ (relative cutoff highpass f),
    fun f => -φ (relative cutoff highpass f), ?_, ?_, ?_, h1, h2, h3⟩
  · unfold chebyshev2Filter rolloff
    rw [hb]
    rfl
  · intro f hf
    obtain ⟨σ, hσ, hkσ⟩ := hs f fun _ => hf.ne'
    have hτc : ((τ (relative cutoff highpass f) : ℝ) : ℂ) ≠ 0 := Complex.ofReal_ne_zero.mpr (hτp _).ne'
    obtain ⟨vs, v1, v2⟩ := sections2_values complexEnv k g order f highpass σ hσ (by
      rw [sections_scale _ _ _ k _ order σ hkσ, hτ]
      exact mul_ne_zero hτc (Complex.exp_ne_zero _))
    rw [call_single mem t _ f hf.le, hu, if_neg (fun h => hf.ne' h.1), hv f vs v1, v2,
      sections_scale _ _ _ k _ order σ hkσ, sections_scale _ _ _ k _ order σ hkσ, hν, hτ]
    congr 2
    push_cast
    rw [neg_mul, Complex.exp_neg]
    have := Complex.exp_ne_zero (φ (relative cutoff highpass f) * I)
    field_simp
  · intro f hf hp
    refine div_pos (hνp _ ?_) (hτp _)
    cases highpass with
    | false =>
      have : f / cutoff ≤ 1 := (div_le_one hc).mpr hp
      have : 0 < f / cutoff := div_pos hf hc
      simp only [relative, Bool.false_eq_true, if_false]
      nlinarith
    | true =>
      have : cutoff / f ≤ 1 := (div_le_one hf).mpr hp
      have : 0 < cutoff / f := div_pos hc hf
      simp only [relative, if_true]
      nlinarith

example : (0 : ℝ) < 1000 ∧ (20 : ℝ) ≠ 0 ∧ 0 < 3 := by norm_num

/-- the hypotheses of `C139_unique` hold for the phase of a Butterworth filter -/
example : ∃ H φ, (∀ f, 0 < f → H f ≠ 0) ∧ IsPhase true H φ := by
  obtain ⟨-, H, φ, -, -, h1, h2, -⟩ := C139_butterworth 0 0 1000 (by norm_num) 3 (by norm_num) true
  exact ⟨H, φ, h1, h2⟩

end Filter
end Verif
