import Verif.BesselProps
import Verif.Chebyshev2Props
import Verif.WeightingProps

/-
C102: the filters, that are defined by formulas, are stable systems with a minimum phase and a real impulse response.
-/

namespace Verif
namespace Filter

open Complex (I)
open scoped ComplexConjugate

/-! ### the specification -/

/-- the environment, in which the frequency variable `s` is the given complex number rather than `2jπf` -/
noncomputable def laplaceEnv (z : ℂ) : Env ℝ ℂ := { complexEnv with s := fun _ => z }

/-- The transfer function of a filter with one channel has the value `x` at the complex frequency `z`. There is no value, where
the transfer function has a pole, because a division by zero has no value. -/
def Laplace (a : Channels ℝ ℂ) (z x : ℂ) : Prop := ∀ mem, a.call (laplaceEnv z) mem 1 = [some x]

/-- There are no poles in the right half plane and on the imaginary axis. -/
def Stable (a : Channels ℝ ℂ) : Prop := ∀ z : ℂ, 0 ≤ z.re → ∃ x, Laplace a z x

/-- There are no zeros in the right half plane. -/
def MinimumPhase (a : Channels ℝ ℂ) : Prop := ∀ z x : ℂ, 0 < z.re → Laplace a z x → x ≠ 0

/-- The values at conjugate frequencies are conjugate, which is the case, when the impulse response is real. -/
def RealSystem (a : Channels ℝ ℂ) : Prop := ∀ z x : ℂ, 0 ≤ z.re → Laplace a z x → Laplace a (conj z) (conj x)

/-! ### the evaluation at complex frequencies -/

theorem laplaceEnv_lawful (z : ℂ) : (laplaceEnv z).Lawful :=
  ⟨complexEnv_lawful.abs_abs, complexEnv_lawful.abs_zero, complexEnv_lawful.exp_zero, complexEnv_lawful.exp_neg⟩

theorem laplace_value {t : Term ℝ ℂ} {z x : ℂ} (label : String) (h : eval (laplaceEnv z) 1 false t = some x)
    (h0 : usesTransform false t = true → z ≠ 0) : Laplace (Channels.new [t] [label]) z x := by
  intro mem
  show [(evalState (laplaceEnv z) mem 1 false t false).1] = _
  by_cases hz : z = 0
  · rw [evalState_zero (laplaceEnv z) mem 1 hz, if_neg (by simpa using fun c => h0 c hz), h]
  · rw [evalState_nonzero (laplaceEnv z) mem 1 hz, h]

theorem laplace_zero {t : Term ℝ ℂ} (label : String) (h : usesTransform false t = true) :
    Laplace (Channels.new [t] [label]) 0 0 := by
  intro mem
  show [(evalState (laplaceEnv 0) mem 1 false t false).1] = _
  rw [evalState_zero (laplaceEnv 0) mem 1 rfl, if_pos (by simpa using h)]

theorem laplace_unique {a : Channels ℝ ℂ} {z x y : ℂ} (hx : Laplace a z x) (hy : Laplace a z y) : x = y := by
  have := (hx 0).symm.trans (hy 0)
  simpa using this

/-- filters, for whose transfer function there is a formula -/
theorem system_stable {t : Term ℝ ℂ} (label : String) {tr : Bool} (hu : usesTransform false t = tr) (H : ℂ → ℂ)
    (hv : ∀ z : ℂ, 0 ≤ z.re → (tr = true → z ≠ 0) → eval (laplaceEnv z) 1 false t = some (H z))
    (h0 : ∀ z : ℂ, 0 < z.re → H z ≠ 0) :
    Stable (Channels.new [t] [label]) ∧ MinimumPhase (Channels.new [t] [label]) := by
  subst hu
  constructor
  · intro z hz
    by_cases h : usesTransform false t = true ∧ z = 0
    · rw [h.2]
      exact ⟨0, laplace_zero label h.1⟩
    · have h' : usesTransform false t = true → z ≠ 0 := fun a b => h ⟨a, b⟩
      exact ⟨H z, laplace_value label (hv z hz h') h'⟩
  · intro z x hz hx
    have h' : usesTransform false t = true → z ≠ 0 := by
      rintro _ rfl
      simp at hz
    rw [laplace_unique hx (laplace_value label (hv z hz.le h') h')]
    exact h0 z hz

theorem system_real {t : Term ℝ ℂ} (label : String) {tr : Bool} (hu : usesTransform false t = tr) (H : ℂ → ℂ)
    (hv : ∀ z : ℂ, 0 ≤ z.re → (tr = true → z ≠ 0) → eval (laplaceEnv z) 1 false t = some (H z))
    (hc : ∀ z, H (conj z) = conj (H z)) : RealSystem (Channels.new [t] [label]) := by
  subst hu
  intro z x hz hx
  by_cases h : usesTransform false t = true ∧ z = 0
  · obtain ⟨h1, rfl⟩ := h
    rw [laplace_unique hx (laplace_zero label h1), map_zero]
    exact laplace_zero label h1
  · have h' : usesTransform false t = true → z ≠ 0 := fun a b => h ⟨a, b⟩
    rw [laplace_unique hx (laplace_value label (hv z hz h') h'), ← hc]
    refine laplace_value label (hv _ (by simpa using hz) ?_) ?_
    · simpa using h'
    · simpa using h'

/-! ### polynomials -/

/-- the frequency variable of lowpass and highpass filters -/
noncomputable def variableS (highpass : Bool) (z : ℂ) : ℂ := if highpass then z⁻¹ else z

theorem variableS_value {highpass : Bool} {z : ℂ} (h : highpass = true → z ≠ 0) :
    sValue (laplaceEnv z) 1 highpass = some (variableS highpass z) := by
  cases highpass with
  | false => rfl
  | true =>
    show (if z = 0 then none else some z⁻¹) = _
    rw [if_neg (h rfl)]
    rfl

theorem variableS_re {highpass : Bool} {z : ℂ} (h : 0 ≤ z.re) : 0 ≤ (variableS highpass z).re := by
  cases highpass with
  | false => exact h
  | true =>
    show 0 ≤ (z⁻¹).re
    rw [Complex.inv_re]
    exact div_nonneg h (Complex.normSq_nonneg z)

theorem variableS_pos {highpass : Bool} {z : ℂ} (h : 0 < z.re) : 0 < (variableS highpass z).re := by
  cases highpass with
  | false => exact h
  | true =>
    show 0 < (z⁻¹).re
    rw [Complex.inv_re]
    refine div_pos h (Complex.normSq_pos.mpr ?_)
    rintro rfl
    simp at h

theorem variableS_conj (highpass : Bool) (z : ℂ) : variableS highpass (conj z) = conj (variableS highpass z) := by
  cases highpass with
  | false => rfl
  | true => exact (map_inv₀ (starRingEnd ℂ) z).symm

theorem polyval_conj (cs : List ℝ) (s : ℂ) :
    polyval (cs.map fun (c : ℝ) => (c : ℂ)) (conj s) = conj (polyval (cs.map fun (c : ℝ) => (c : ℂ)) s) := by
  induction cs using List.reverseRecOn with
  | nil => simp [polyval]
  | append_singleton l a ih =>
    unfold polyval at ih ⊢
    rw [List.map_append, List.foldl_append, List.foldl_append, ih]
    simp

theorem prod_polyval_conj (l : List (List ℝ)) (s : ℂ) :
    (l.map fun cs => polyval (cs.map fun (c : ℝ) => (c : ℂ)) (conj s)).prod =
      conj (l.map fun cs => polyval (cs.map fun (c : ℝ) => (c : ℂ)) s).prod := by
  induction l with
  | nil => simp
  | cons a l ih => rw [List.map_cons, List.prod_cons, ih, polyval_conj, List.map_cons, List.prod_cons, map_mul]

/-- quadratic polynomials with positive coefficients have no zeros in the closed right half plane -/
theorem quadratic_ne_zero {a b c : ℝ} (ha : 0 < a) (hb : 0 < b) (hc : 0 < c) {s : ℂ} (hs : 0 ≤ s.re) :
    (a : ℂ) * s ^ 2 + b * s + c ≠ 0 := by
  intro h
  have hr := congrArg Complex.re h
  have hi := congrArg Complex.im h
  simp [pow_two] at hr hi
  have h1 : s.im * (2 * a * s.re + b) = 0 := by linear_combination hi
  have h2 : 0 < 2 * a * s.re + b := by positivity
  have h3 : s.im = 0 := (mul_eq_zero.mp h1).resolve_right h2.ne'
  rw [h3] at hr
  have : 0 ≤ a * (s.re * s.re) := by positivity
  have : 0 ≤ b * s.re := by positivity
  linarith

theorem linear_ne_zero {a c : ℝ} (ha : 0 ≤ a) (hc : 0 < c) {s : ℂ} (hs : 0 ≤ s.re) : (a : ℂ) * s + c ≠ 0 := by
  intro h
  have hr := congrArg Complex.re h
  simp at hr
  have : 0 ≤ a * s.re := by positivity
  linarith

theorem sections_mem {A B : ℝ → ℝ} {c k : ℝ} {order : Nat} {cs : List ℝ} (h : cs ∈ sections A B c k order) :
    cs = [c * k, 1] ∨ ∃ θ, 0 < θ ∧ θ < Real.pi / 2 ∧ cs = [A θ * k ^ 2, B θ * k, 1] := by
  unfold sections at h
  split at h
  · obtain ⟨j, hj, rfl⟩ := List.mem_map.mp h
    obtain ⟨a1, a2⟩ := angle_even (List.mem_range.mp hj)
    exact .inr ⟨_, a1, a2, rfl⟩
  · next he =>
    rcases List.mem_cons.mp h with rfl | h
    · exact .inl rfl
    · obtain ⟨j, hj, rfl⟩ := List.mem_map.mp h
      obtain ⟨a1, a2⟩ := (angle_odd (List.mem_range.mp hj)).resolve_right he
      exact .inr ⟨_, a1, a2, rfl⟩

/-- the sections of the filters have no zeros in the closed right half plane -/
theorem sections_ne_zero {A B : ℝ → ℝ} {c k : ℝ} (order : Nat) (hk : 0 < k) (hc : 0 ≤ c)
    (hA : ∀ θ, 0 < θ → θ < Real.pi / 2 → 0 < A θ) (hB : ∀ θ, 0 < θ → θ < Real.pi / 2 → 0 < B θ) {s : ℂ}
    (hs : 0 ≤ s.re) :
    ((sections A B c k order).map fun cs => polyval (cs.map fun (c : ℝ) => (c : ℂ)) s).prod ≠ 0 := by
  apply List.prod_ne_zero
  intro h0
  obtain ⟨cs, hcs, h⟩ := List.mem_map.mp h0
  rcases sections_mem hcs with rfl | ⟨θ, h1, h2, rfl⟩
  · refine linear_ne_zero (a := c * k) (c := 1) (by positivity) one_pos hs ?_
    rw [← h]
    simp [polyval]
  · refine quadratic_ne_zero (mul_pos (hA θ h1 h2) (pow_pos hk 2)) (mul_pos (hB θ h1 h2) hk) one_pos hs ?_
    rw [← h]
    simp [polyval]
    ring

theorem scaling_pos {cutoff : ℝ} (hc : 0 < cutoff) (highpass : Bool) :
    ∃ k, frequencyScaling cutoff highpass = .ok k ∧ 0 < k := by
  have hp : (0 : ℝ) < 2 * Real.pi * cutoff := by positivity
  cases highpass with
  | false =>
    refine ⟨1 / (2 * Real.pi * cutoff), ?_, by positivity⟩
    unfold frequencyScaling
    rw [if_neg (by simp), if_neg hp.ne']
  | true => exact ⟨_, rfl, hp⟩

/-- filters, that are the inverse of the product of their sections -/
theorem sections_system (label : String) (n : Nat) (A B : ℝ → ℝ) (c k : ℝ) (order : Nat) (ho : 0 < order) (hk : 0 < k)
    (hc : 0 < c) (hA : ∀ θ, 0 < θ → θ < Real.pi / 2 → 0 < A θ) (hB : ∀ θ, 0 < θ → θ < Real.pi / 2 → 0 < B θ)
    (highpass : Bool) :
    ∃ t, (productFactory complexEnv (n + 3) ((sections A B c k order).map realPolynomial) highpass >>=
        fun p => p.invert) = .ok t ∧ Stable (Channels.new [t] [label]) ∧ MinimumPhase (Channels.new [t] [label]) ∧
      RealSystem (Channels.new [t] [label]) := by
  have red : ∀ cs ∈ sections A B c k order, Reduced (cs.map fun (c : ℝ) => (c : ℂ)) := by
    intro cs hcs
    rcases sections_mem hcs with rfl | ⟨θ, h1, h2, rfl⟩
    · exact ⟨_, _, _, rfl, Complex.ofReal_ne_zero.mpr (mul_pos hc hk).ne'⟩
    · exact ⟨_, _, _, rfl, Complex.ofReal_ne_zero.mpr (mul_pos (hA θ h1 h2) (pow_pos hk 2)).ne'⟩
  have ne : sections A B c k order ≠ [] := by
    unfold sections
    split
    · simp; omega
    · simp
  have e : (sections A B c k order).map realPolynomial =
      ((sections A B c k order).map fun cs => cs.map fun (c : ℝ) => (c : ℂ)).map fun cs => .polynomial cs false := by
    rw [List.map_map]
    exact List.map_congr_left fun cs hcs => realPolynomial_reduced (red cs hcs)
  rw [e]
  obtain ⟨p, h1, h2, h3, h4⟩ := polyProduct_env n
    ((sections A B c k order).map fun cs => cs.map fun (c : ℝ) => (c : ℂ)) (by simpa using ne)
    (by
      intro cs hcs
      obtain ⟨cs', h, rfl⟩ := List.mem_map.mp hcs
      exact red cs' h) highpass
  set P := fun s : ℂ => ((sections A B c k order).map fun cs => polyval (cs.map fun (c : ℝ) => (c : ℂ)) s).prod with hP
  have hu : usesTransform false (.quotient (.constant 1) p false : Term ℝ ℂ) = highpass := by simp [usesTransform, h3]
  have hv : ∀ z : ℂ, 0 ≤ z.re → (highpass = true → z ≠ 0) →
      eval (laplaceEnv z) 1 false (.quotient (.constant 1) p false) = some (1 / P (variableS highpass z)) := by
    intro z hz hz0
    have hv := h4 (laplaceEnv z) (laplaceEnv_lawful z) 1 _ (variableS_value hz0)
    rw [List.map_map] at hv
    rw [eval_quotient]
    exact ⟨1, _, rfl, hv, sections_ne_zero order hk hc.le hA hB (variableS_re hz), rfl⟩
  refine ⟨.quotient (.constant 1) p false, by rw [h1]; exact h2, ?_, ?_, ?_⟩
  · exact (system_stable label hu _ hv fun z hz => one_div_ne_zero
      (sections_ne_zero order hk hc.le hA hB (variableS_re hz.le))).1
  · exact (system_stable label hu _ hv fun z hz => one_div_ne_zero
      (sections_ne_zero order hk hc.le hA hB (variableS_re hz.le))).2
  · refine system_real label hu _ hv fun z => ?_
    rw [map_div₀, map_one, variableS_conj, hP]
    simp only
    rw [prod_polyval_conj]

/-! ### C102 -/

/-- C102: Butterworth filters are stable, have a minimum phase and a real impulse response. -/
theorem C102_butterworth (n : Nat) (cutoff : ℝ) (hc : 0 < cutoff) (order : Nat) (ho : 0 < order) (highpass : Bool) :
    ∃ a, butterworthFilter complexEnv (n + 3) cutoff order highpass = .ok a ∧ Stable a ∧ MinimumPhase a ∧
      RealSystem a := by
  obtain ⟨k, hk, hk0⟩ := scaling_pos hc highpass
  obtain ⟨t, ht, h⟩ := sections_system "Butterworth" n (fun _ => 1) (fun θ => 2 * Real.cos θ) 1 k order ho hk0 one_pos
    (fun _ _ _ => one_pos) (fun θ h1 h2 => mul_pos two_pos (Real.cos_pos_of_mem_Ioo ⟨by linarith, h2⟩)) highpass
  refine ⟨_, ?_, h⟩
  have hb : butterworth complexEnv (n + 3) cutoff order highpass = .ok t := by
    unfold butterworth
    rw [hk]
    rw [← butterworth_factors k order] at ht
    exact ht
  unfold butterworthFilter rolloff
  rw [hb]
  rfl

example : (0 : ℝ) < 1000 ∧ 0 < 3 := by norm_num

/-- C102: Chebyshev filters of type 1 are stable, have a minimum phase and a real impulse response. -/
theorem C102_chebyshev1 (n : Nat) (cutoff ripple : ℝ) (hc : 0 < cutoff) (order : Nat) (ho : 0 < order)
    (highpass : Bool) :
    ∃ a, chebyshev1Filter complexEnv (n + 3) cutoff ripple order highpass = .ok a ∧ Stable a ∧ MinimumPhase a ∧
      RealSystem a := by
  obtain ⟨k, hk, hk0⟩ := scaling_pos hc highpass
  by_cases hr : ripple = 0
  · obtain ⟨t, ht, h⟩ := sections_system "Chebyshev 1" n (fun _ => 1) (fun θ => 2 * Real.cos θ) 1 k order ho hk0 one_pos
      (fun _ _ _ => one_pos) (fun θ h1 h2 => mul_pos two_pos (Real.cos_pos_of_mem_Ioo ⟨by linarith, h2⟩)) highpass
    refine ⟨_, ?_, h⟩
    have hb : butterworth complexEnv (n + 3) cutoff order highpass = .ok t := by
      unfold butterworth
      rw [hk]
      rw [← butterworth_factors k order] at ht
      exact ht
    unfold chebyshev1Filter rolloff
    rw [if_neg (by simpa using hr), hb]
    rfl
  · have he := ripple_pos hr
    have hsq : 0 < Real.sqrt ((10 : ℝ) ^ (|ripple| / 10) - 1) := Real.sqrt_pos.mpr he
    have ho' : (0 : ℝ) < order := by exact_mod_cast ho
    set g := Real.arsinh (1 / Real.sqrt ((10 : ℝ) ^ (|ripple| / 10) - 1)) / order with hg
    have hg0 : 0 < g := div_pos (Real.arsinh_pos_iff.mpr (by positivity)) ho'
    have hsg : 0 < Real.sinh g := Real.sinh_pos_iff.mpr hg0
    have hA : ∀ θ, 0 < 1 / (Real.cosh g ^ 2 - Real.cos θ ^ 2) := fun θ => one_div_pos.mpr (cosh_gt hg0.ne')
    obtain ⟨t, ht, h⟩ := sections_system "Chebyshev 1" n (fun θ => 1 / (Real.cosh g ^ 2 - Real.cos θ ^ 2))
      (fun θ => 2 * (1 / (Real.cosh g ^ 2 - Real.cos θ ^ 2)) * Real.sinh g * Real.cos θ) (1 / Real.sinh g) k order ho hk0
      (by positivity) (fun θ _ _ => hA θ) (fun θ h1 h2 => by
        have := hA θ
        have := Real.cos_pos_of_mem_Ioo (x := θ) ⟨by linarith, h2⟩
        positivity) highpass
    refine ⟨_, ?_, h⟩
    have hb : chebyshev1 complexEnv (n + 3) cutoff ripple order highpass = .ok t := by
      unfold chebyshev1
      rw [hk]
      rw [← chebyshev1_factors k (Real.sinh g) (Real.cosh g ^ 2) order] at ht
      show (if _ then _ else _) = _
      rw [if_neg (by
        rintro (h | h)
        · exact hsq.ne' h
        · exact ho.ne' h)]
      exact ht
    unfold chebyshev1Filter rolloff
    rw [if_pos hr, hb]
    rfl

example : ∃ ripple : ℝ, ripple ≠ 0 ∧ 0 < Real.sinh ripple := ⟨1, one_ne_zero, Real.sinh_pos_iff.mpr one_pos⟩

/-- C102: Chebyshev filters of type 2 are stable, have a minimum phase (the zeros are on the imaginary axis) and a real
impulse response. -/
theorem C102_chebyshev2 (n : Nat) (cutoff ripple : ℝ) (hc : 0 < cutoff) (hr : ripple ≠ 0) (order : Nat) (ho : 0 < order)
    (highpass : Bool) :
    ∃ a, chebyshev2Filter complexEnv (n + 4) cutoff ripple order highpass = .ok a ∧ Stable a ∧ MinimumPhase a ∧
      RealSystem a := by
  obtain ⟨k, hk, hk0⟩ := scaling_pos hc highpass
  have ho' : (0 : ℝ) < order := by exact_mod_cast ho
  have hl : 1 < (10 : ℝ) ^ (|ripple| / 20) := Real.one_lt_rpow (by norm_num) (by positivity)
  set g := Real.arsinh (Real.sqrt (((10 : ℝ) ^ (|ripple| / 20)) ^ 2 - 1)) / order with hg
  have hg0 : 0 < g := div_pos (Real.arsinh_pos_iff.mpr (Real.sqrt_pos.mpr (by nlinarith))) ho'
  have hsg : 0 < Real.sinh g := Real.sinh_pos_iff.mpr hg0
  have hmem := fun p hp => sections2_mem (p := p) hk0.ne' hg0 (order := order) hp
  have ne : sections2 k g order ≠ [] := by
    unfold sections2
    split
    · simp; omega
    · simp
  obtain ⟨t, ht, hu, hv⟩ := fractionProduct_env n (sections2 k g order) ne
    (fun p hp => (hmem p hp).1) (fun p hp => (hmem p hp).2.1) (fun p hp => (hmem p hp).2.2) highpass
  have hb : chebyshev2 complexEnv (n + 4) cutoff ripple order highpass = .ok t := by
    unfold chebyshev2
    rw [hk]
    show (if order = 0 then _ else _) = _
    rw [if_neg ho.ne']
    have hfac := chebyshev2_factors k g hk0.ne' hg0.ne' order
    show (_ >>= fun factors => productFactory complexEnv (n + 4) factors highpass) = _
    rw [hfac]
    exact ht complexEnv
  set N := fun s : ℂ => ((sections (fun θ => Real.sin θ ^ 2) (fun _ => 0) 0 k order).map fun cs =>
    polyval (cs.map fun (c : ℝ) => (c : ℂ)) s).prod with hN
  set D := fun s : ℂ => ((sections (fun θ => Real.cosh g ^ 2 - Real.cos θ ^ 2) (fun θ => 2 * Real.sinh g * Real.cos θ)
    (Real.sinh g) k order).map fun cs => polyval (cs.map fun (c : ℝ) => (c : ℂ)) s).prod with hD
  have D0 : ∀ s : ℂ, 0 ≤ s.re → D s ≠ 0 := fun s hs => sections_ne_zero order hk0 hsg.le
    (fun θ _ _ => cosh_gt hg0.ne')
    (fun θ h1 h2 => mul_pos (mul_pos two_pos hsg) (Real.cos_pos_of_mem_Ioo ⟨by linarith, h2⟩)) hs
  have N0 : ∀ s : ℂ, 0 < s.re → N s ≠ 0 := by
    intro s hs
    apply List.prod_ne_zero
    intro h0
    obtain ⟨cs, hcs, h⟩ := List.mem_map.mp h0
    rcases sections_mem hcs with rfl | ⟨θ, h1, h2, rfl⟩
    · simp [polyval] at h
    · have hsin : 0 < Real.sin θ := Real.sin_pos_of_pos_of_lt_pi h1 (by linarith [Real.pi_pos])
      have h3 : ((Real.sin θ ^ 2 * k ^ 2 : ℝ) : ℂ) * s ^ 2 + 1 = 0 := by
        rw [← h]
        simp [polyval]
        ring
      have hp : 0 < Real.sin θ ^ 2 * k ^ 2 := by positivity
      generalize Real.sin θ ^ 2 * k ^ 2 = q at hp h3
      have hi := congrArg Complex.im h3
      have hr := congrArg Complex.re h3
      simp [pow_two] at hi hr
      have h4 : s.im = 0 := by
        have : q * s.re * (2 * s.im) = 0 := by linear_combination q * (hi.resolve_left hp.ne')
        have := (mul_eq_zero.mp this).resolve_left (by positivity)
        linarith
      rw [h4] at hr
      have : 0 < q * (s.re * s.re) := by positivity
      linarith
  have hH : ∀ z : ℂ, 0 ≤ z.re → (highpass = true → z ≠ 0) →
      eval (laplaceEnv z) 1 false t = some (N (variableS highpass z) / D (variableS highpass z)) := by
    intro z hz hz0
    obtain ⟨vs, v1, v2⟩ := sections2_values (laplaceEnv z) k g order 1 highpass _ (variableS_value hz0)
      (D0 _ (variableS_re hz))
    rw [hv (laplaceEnv z) (laplaceEnv_lawful z) 1 vs v1, v2]
  refine ⟨Channels.new [t] ["Chebyshev 2"], ?_, ?_, ?_, ?_⟩
  · unfold chebyshev2Filter rolloff
    rw [hb]
    rfl
  · exact (system_stable _ hu _ hH fun z hz => div_ne_zero (N0 _ (variableS_pos hz)) (D0 _ (variableS_re hz.le))).1
  · exact (system_stable _ hu _ hH fun z hz => div_ne_zero (N0 _ (variableS_pos hz)) (D0 _ (variableS_re hz.le))).2
  · refine system_real _ hu _ hH fun z => ?_
    rw [map_div₀, variableS_conj, hN, hD]
    simp only
    rw [prod_polyval_conj, prod_polyval_conj]

example : (0 : ℝ) < 1000 ∧ (20 : ℝ) ≠ 0 ∧ 0 < 3 := by norm_num

/-- the zeros of the reverse Bessel polynomials are in the left half plane -/
theorem reverseBessel_hurwitz (n : Nat) {s : ℂ} (hs : 0 ≤ s.re) : reverseBessel n s ≠ 0 := by
  by_cases h0 : s = 0
  · rw [h0, reverseBessel_zero]
    exact_mod_cast (coefficient_pos 0 n).ne'
  have hi : 0 ≤ (s⁻¹).re := by
    rw [Complex.inv_re]
    exact div_nonneg hs (Complex.normSq_nonneg s)
  have key : ∀ n, reverseBessel n s ≠ 0 ∧ 0 < (reverseBessel (n + 1) s / (s * reverseBessel n s)).re := by
    intro n
    induction n with
    | zero =>
      refine ⟨by simp [reverseBessel], ?_⟩
      rw [show reverseBessel (0 + 1) s / (s * reverseBessel 0 s) = 1 + s⁻¹ by
        simp only [reverseBessel, mul_one]
        rw [add_div, div_self h0, one_div], Complex.add_re, Complex.one_re]
      linarith
    | succ n ih =>
      obtain ⟨h1, h2⟩ := ih
      have h3 : reverseBessel (n + 1) s ≠ 0 := by
        intro h
        rw [h, zero_div] at h2
        simp at h2
      refine ⟨h3, ?_⟩
      have e : reverseBessel (n + 1 + 1) s / (s * reverseBessel (n + 1) s) =
          ((2 * n + 3 : ℝ) : ℂ) * s⁻¹ + (reverseBessel (n + 1) s / (s * reverseBessel n s))⁻¹ := by
        rw [reverseBessel]
        push_cast
        field_simp
      rw [e, Complex.add_re, Complex.re_ofReal_mul, Complex.inv_re (reverseBessel (n + 1) s / _)]
      have h4 : 0 < Complex.normSq (reverseBessel (n + 1) s / (s * reverseBessel n s)) := by
        refine Complex.normSq_pos.mpr fun h => ?_
        rw [h] at h2
        simp at h2
      have h5 := div_pos h2 h4
      have : 0 ≤ (2 * n + 3 : ℝ) * (s⁻¹).re := by positivity
      linarith
  exact (key n).1

/-- C102: Bessel filters are stable, have a minimum phase and a real impulse response. -/
theorem C102_bessel (cutoff : ℝ) (hc : 0 < cutoff) (order : Nat) (ho : 0 < order) (highpass : Bool) :
    ∃ a, besselFilter cutoff order highpass = .ok a ∧ Stable a ∧ MinimumPhase a ∧ RealSystem a := by
  obtain ⟨k, hk, hk0⟩ := scaling_pos hc highpass
  set cs := (List.range (order + 1)).map fun (j : Nat) =>
        (besselCoefficient (order - j) j : ℝ) / besselCoefficient 0 order * k ^ (order - j) with hcs
  have c0 : (besselCoefficient 0 order : ℂ) ≠ 0 := by exact_mod_cast (coefficient_pos 0 order).ne'
  have hb : bessel cutoff order highpass =
      div (.constant 1) (polynomialFactory (cs.map fun (c : ℝ) => (c : ℂ)) highpass) := by
    unfold bessel
    rw [hk, hcs, ← bessel_coefficients]
    rfl
  have red : Reduced (cs.map fun (c : ℝ) => (c : ℂ)) := by
    obtain ⟨m, rfl⟩ : ∃ m, order = m + 1 := ⟨order - 1, by omega⟩
    have : ∃ d l, List.range (m + 1 + 1) = 0 :: d :: l := by
      rw [List.range_succ_eq_map, List.range_succ_eq_map]
      exact ⟨_, _, rfl⟩
    obtain ⟨d, l, hl⟩ := this
    rw [hcs, hl]
    refine ⟨_, _, _, rfl, ?_⟩
    apply Complex.ofReal_ne_zero.mpr
    refine mul_ne_zero (div_ne_zero ?_ ?_) (pow_ne_zero _ hk0.ne')
    · exact_mod_cast (coefficient_pos _ _).ne'
    · exact_mod_cast (coefficient_pos _ _).ne'
  have e : ∀ s : ℂ, polyval (cs.map fun (c : ℝ) => (c : ℂ)) s =
      reverseBessel order (k * s) / reverseBessel order 0 := by
    intro s
    rw [hcs, List.map_map, polyval_range, reverseBessel_zero, reverseBessel_sum, Finset.sum_div]
    refine Finset.sum_congr rfl fun i hi => ?_
    have hi := Finset.mem_range.mp hi
    simp only [Function.comp]
    rw [show order - (order - i) = i by omega]
    push_cast
    ring
  have ne : ∀ s : ℂ, 0 ≤ s.re → polyval (cs.map fun (c : ℝ) => (c : ℂ)) s ≠ 0 := by
    intro s hs
    rw [e]
    refine div_ne_zero (reverseBessel_hurwitz order ?_) (reverseBessel_hurwitz order (by simp))
    rw [Complex.re_ofReal_mul]
    positivity
  set t : Term ℝ ℂ := .quotient (.constant 1) (.polynomial (cs.map fun (c : ℝ) => (c : ℂ)) highpass) false with ht
  have hu : usesTransform false t = highpass := by simp [ht, usesTransform]
  have hv : ∀ z : ℂ, 0 ≤ z.re → (highpass = true → z ≠ 0) → eval (laplaceEnv z) 1 false t =
      some (1 / polyval (cs.map fun (c : ℝ) => (c : ℂ)) (variableS highpass z)) := by
    intro z hz hz0
    rw [ht, eval_quotient]
    refine ⟨1, _, rfl, ?_, ne _ (variableS_re hz), rfl⟩
    rw [eval_polynomial]
    exact ⟨_, by simpa using variableS_value hz0, rfl⟩
  refine ⟨Channels.new [t] ["Bessel"], ?_, ?_, ?_, ?_⟩
  · unfold besselFilter rolloff
    rw [hb, polynomialFactory_reduced red]
    simp [div, Bind.bind, Except.bind, ht]
  · exact (system_stable _ hu _ hv fun z hz => one_div_ne_zero (ne _ (variableS_re hz.le))).1
  · exact (system_stable _ hu _ hv fun z hz => one_div_ne_zero (ne _ (variableS_re hz.le))).2
  · refine system_real _ hu _ hv fun z => ?_
    rw [map_div₀, map_one, variableS_conj, polyval_conj]

example : reverseBessel 2 (-1) = 1 := by
  norm_num [reverseBessel]

/-! ### the weighting filters -/

/-- terms without poles in the closed right half plane and without zeros in the open right half plane -/
def StableTerm (t : Term ℝ ℂ) : Prop :=
  usesTransform false t = false ∧
    ∀ z : ℂ, 0 ≤ z.re → ∃ x, eval (laplaceEnv z) 1 false t = some x ∧ (0 < z.re → x ≠ 0)

theorem quotient_stable {a b : List ℂ} (ha : ∀ z : ℂ, 0 < z.re → polyval a z ≠ 0)
    (hb : ∀ z : ℂ, 0 ≤ z.re → polyval b z ≠ 0) :
    StableTerm (.quotient (.polynomial a false) (.polynomial b false) false) := by
  refine ⟨by simp [usesTransform], fun z hz => ⟨polyval a z / polyval b z, ?_, ?_⟩⟩
  · rw [eval_quotient]
    exact ⟨_, _, rfl, rfl, hb z hz, rfl⟩
  · exact fun h => div_ne_zero (ha z h) (hb z hz)

theorem inverse_stable {b : List ℂ} (hb : ∀ z : ℂ, 0 ≤ z.re → polyval b z ≠ 0) :
    StableTerm (.quotient (.constant 1) (.polynomial b false) false) := by
  refine ⟨by simp [usesTransform], fun z hz => ⟨1 / polyval b z, ?_, ?_⟩⟩
  · rw [eval_quotient]
    exact ⟨1, _, rfl, rfl, hb z hz, rfl⟩
  · exact fun _ => one_div_ne_zero (hb z hz)

theorem pole_stable {a : ℂ} (ha : 0 < a.re) : ∀ z : ℂ, 0 ≤ z.re → polyval [1, 2 * Real.pi * a] z ≠ 0 := by
  intro z hz h
  have hr := congrArg Complex.re h
  rw [show polyval [1, 2 * Real.pi * a] z = z + ((2 * Real.pi : ℝ) : ℂ) * a by simp [polyval], Complex.add_re,
    Complex.re_ofReal_mul, Complex.zero_re] at hr
  have : 0 < 2 * Real.pi * a.re := by positivity
  linarith

theorem identity_stable : ∀ z : ℂ, 0 < z.re → polyval [1, 0] z ≠ 0 := by
  rintro z hz h
  simp [polyval] at h
  rw [h] at hz
  simp at hz

theorem quadratic_stable {b c : ℝ} (hb : 0 < b) (hc : 0 < c) :
    ∀ z : ℂ, 0 ≤ z.re → polyval [1, 2 * Real.pi * (b : ℂ), (2 * Real.pi * (c : ℂ)) ^ 2] z ≠ 0 := by
  intro z hz h
  refine quadratic_ne_zero (a := 1) (b := 2 * Real.pi * b) (c := (2 * Real.pi * c) ^ 2) one_pos (by positivity)
    (by positivity) hz ?_
  rw [← h]
  simp [polyval]
  ring

theorem cTerms_stable : ∀ t ∈ cTerms, StableTerm t := by
  obtain ⟨h1, h4, _, _⟩ := f_facts
  have h1 : 0 < ((f1 : ℝ) : ℂ).re := h1
  have h4 : 0 < ((f4 : ℝ) : ℂ).re := h4
  intro t ht
  simp only [cTerms, List.mem_cons, List.not_mem_nil, or_false] at ht
  rcases ht with rfl | rfl | rfl | rfl
  · exact quotient_stable identity_stable (pole_stable h1)
  · exact inverse_stable (pole_stable h1)
  · exact quotient_stable identity_stable (pole_stable h4)
  · exact inverse_stable (pole_stable h4)

/-- the terms of the weighting filters -/
theorem generator_stable (w : Weighting) : ∃ l, w.generator 1000 = .ok l ∧ ∀ t ∈ l, StableTerm t := by
  have cons : ∀ {t : Term ℝ ℂ} {l : List (Term ℝ ℂ)}, StableTerm t → (∀ t ∈ l, StableTerm t) →
      ∀ u ∈ t :: l, StableTerm u := by
    intro t l ht hl u hu
    rcases List.mem_cons.mp hu with rfl | hu
    · exact ht
    · exact hl u hu
  have nil : ∀ t ∈ ([] : List (Term ℝ ℂ)), StableTerm t := by simp
  cases w with
  | c => exact ⟨cTerms, cFactors_ok, cTerms_stable⟩
  | b =>
    refine ⟨.quotient (.polynomial [1, 0] false) (.polynomial [1, 2 * Real.pi * ((158.5 : ℝ) : ℂ)] false) false :: cTerms,
      ?_, cons (quotient_stable identity_stable (pole_stable (by norm_num))) cTerms_stable⟩
    show bFactors 1000 = _
    unfold bFactors
    rw [cFactors_ok]
    simp only [highpassFactor, div, Bind.bind, Except.bind]
    push_cast
    rfl
  | a =>
    have hr : (5 : ℝ) ^ (0.5 : ℝ) = Real.sqrt 5 := by
      rw [Real.sqrt_eq_rpow]
      norm_num
    have hr5 : Real.sqrt 5 < 3 := by
      rw [Real.sqrt_lt' (by norm_num)]
      norm_num
    have hf : (0 : ℝ) < (10 : ℝ) ^ (2.45 : ℝ) := Real.rpow_pos_of_pos (by norm_num) _
    have h2 : 0 < iecF2 := mul_pos (by linarith) hf
    have h3 : 0 < iecF3 := mul_pos (by have := Real.sqrt_nonneg 5; linarith) hf
    refine ⟨.quotient (.polynomial [1, 0] false) (.polynomial [1, 2 * Real.pi * (iecF2 : ℂ)] false) false ::
      .quotient (.polynomial [1, 0] false) (.polynomial [1, 2 * Real.pi * (iecF3 : ℂ)] false) false :: cTerms, ?_,
      cons (quotient_stable identity_stable (pole_stable h2)) (cons (quotient_stable identity_stable (pole_stable h3))
        cTerms_stable)⟩
    show aFactors 1000 = _
    unfold aFactors
    dsimp only
    rw [cFactors_ok, hr, show (1.5 - Real.sqrt 5 / 2) * (10 : ℝ) ^ (2.45 : ℝ) = iecF2 by unfold iecF2; ring,
      show (1.5 + Real.sqrt 5 / 2) * (10 : ℝ) ^ (2.45 : ℝ) = iecF3 by unfold iecF3; ring]
    simp only [highpassFactor, div, Bind.bind, Except.bind]
    push_cast
    rfl
  | d =>
    have pos : ∀ x : ℝ, 0 < x → 0 < Real.sqrt x := fun x h => Real.sqrt_pos.mpr h
    refine ⟨[.quotient (.polynomial [1, 0] false) (.polynomial [1, 2 * Real.pi * (Real.sqrt 79919.29 : ℝ)] false) false,
      .quotient (.constant 1) (.polynomial [1, 2 * Real.pi * (Real.sqrt 1345600.0 : ℝ)] false) false,
      .quotient
        (.polynomial [1, 2 * Real.pi * (Real.sqrt 1080768.16 : ℝ), (2 * Real.pi * (Real.sqrt 1037918.48 : ℝ)) ^ 2] false)
        (.polynomial [1, 2 * Real.pi * (Real.sqrt 11723776.0 : ℝ), (2 * Real.pi * (Real.sqrt 9837328.0 : ℝ)) ^ 2] false)
        false], ?_, cons (quotient_stable identity_stable (pole_stable (pos _ (by norm_num))))
          (cons (inverse_stable (pole_stable (pos _ (by norm_num))))
            (cons (quotient_stable (fun z hz => quadratic_stable (pos _ (by norm_num)) (pos _ (by norm_num)) z hz.le)
              (quadratic_stable (pos _ (by norm_num)) (pos _ (by norm_num)))) nil))⟩
    show dFactors 1000 = _
    unfold dFactors
    dsimp only
    simp only [highpassFactor, lowpassFactor, div, Term.invert]
    push_cast
    rfl
  | u =>
    refine ⟨[12200, 12200, 7850 - 8800 * I, 7850 + 8800 * I, 2900 - 12150 * I, 2900 + 12150 * I].map fun (f : ℂ) =>
      .quotient (.constant 1) (.polynomial [1, 2 * Real.pi * f] false) false, rfl, ?_⟩
    intro t ht
    obtain ⟨f, hf, rfl⟩ := List.mem_map.mp ht
    apply inverse_stable
    apply pole_stable
    simp only [List.mem_cons, List.not_mem_nil, or_false] at hf
    rcases hf with rfl | rfl | rfl | rfl | rfl | rfl <;> simp

/-- the weighting filters are products of the terms and a complex number -/
theorem weighting_term (w : Weighting) {l : List (Term ℝ ℂ)} (hl : w.generator 1000 = .ok l) :
    ∃ vs : List ℂ, l.mapM (fun tf => eval complexEnv 1000 false tf) = some vs ∧ 1 / vs.prod ≠ 0 ∧
      w.filter complexEnv = .ok (Channels.new [.product (.constant (1 / vs.prod) :: l) false] [w.label]) := by
  obtain ⟨a, h, _⟩ := C40_weighting w 0
  unfold Weighting.filter weightingFunction at h ⊢
  dsimp only at h ⊢
  rw [hl] at h ⊢
  replace h : ((match l.mapM fun tf => eval complexEnv 1000 false tf with
    | none => (.error .zeroDivisionError : Py (Term ℝ ℂ))
    | some values => if values.prod = 0 then .error .zeroDivisionError
        else .ok (.product (.constant (1 / values.prod) :: l) false)) >>= fun t =>
      (.ok (Channels.new [t] [w.label]) : Py (Channels ℝ ℂ))) = .ok a := h
  show ∃ vs : List ℂ, l.mapM (fun tf => eval complexEnv 1000 false tf) = some vs ∧ 1 / vs.prod ≠ 0 ∧ ((match l.mapM fun tf => eval complexEnv 1000 false tf with
    | none => (.error .zeroDivisionError : Py (Term ℝ ℂ))
    | some values => if values.prod = 0 then .error .zeroDivisionError
        else .ok (.product (.constant (1 / values.prod) :: l) false)) >>= fun t =>
      (.ok (Channels.new [t] [w.label]) : Py (Channels ℝ ℂ))) = _
  cases hm : l.mapM fun tf => eval complexEnv 1000 false tf with
  | none =>
    rw [hm] at h
    cases h
  | some vs =>
    rw [hm] at h
    dsimp only at h
    by_cases h0 : vs.prod = 0
    · rw [if_pos h0] at h
      cases h
    · refine ⟨vs, rfl, one_div_ne_zero h0, ?_⟩
      dsimp only
      rw [if_neg h0]
      rfl

/-- C102: The weighting filters are stable and have a minimum phase. Missing: their impulse responses are not real, see
`C102_weighting_violated`. -/
theorem C102_weighting_partial (w : Weighting) :
    ∃ a, w.filter complexEnv = .ok a ∧ Stable a ∧ MinimumPhase a := by
  obtain ⟨l, hl, hs⟩ := generator_stable w
  obtain ⟨ws, hws, hg, ha⟩ := weighting_term w hl
  generalize 1 / ws.prod = g at hg ha
  clear hws
  have values : ∀ z : ℂ, 0 ≤ z.re → ∃ vs, List.Forall₂ (fun t x => eval (laplaceEnv z) 1 false t = some x) l vs ∧
      (0 < z.re → vs.prod ≠ 0) := by
    intro z hz
    clear hl ha
    induction l with
    | nil => exact ⟨[], .nil, by simp⟩
    | cons t l ih =>
      obtain ⟨vs, h1, h2⟩ := ih fun u hu => hs u (List.mem_cons_of_mem _ hu)
      obtain ⟨x, h3, h4⟩ := (hs t List.mem_cons_self).2 z hz
      refine ⟨x :: vs, .cons h3 h1, fun h => ?_⟩
      rw [List.prod_cons]
      exact mul_ne_zero (h4 h) (h2 h)
  have hu : usesTransform false (.product (.constant g :: l) false : Term ℝ ℂ) = false := by
    show usesTransformList false (.constant g :: l) = false
    exact usesTransformList_all (by simp) (by
      intro t ht
      rcases List.mem_cons.mp ht with rfl | ht
      · rfl
      · exact (hs t ht).1)
  choose! V hV using values
  have h := system_stable (t := .product (.constant g :: l) false) w.label hu (fun z => g * (V z).prod)
    (fun z hz _ => by
      rw [eval_product _ _ _ _ (by simp)]
      exact ⟨g :: V z, .cons rfl (hV z hz).1, by rw [List.prod_cons]⟩)
    (fun z hz => mul_ne_zero hg ((hV z hz.le).2 hz))
  exact ⟨_, ha, h⟩

/-- C102: The impulse response of the C-weighting filter is not real: the product of its terms is divided by the complex
value of this product at 1000 Hz and not by the magnitude of this value (`_weighting.py:120-133`), so that the phases at
1000 Hz and at -1000 Hz are not opposite. -/
theorem C102_weighting_violated : ∃ a, Weighting.c.filter complexEnv = .ok a ∧ ¬RealSystem a := by
  obtain ⟨vs, hvs, hg, ha⟩ := weighting_term .c cFactors_ok
  rw [values_mapM (cValues_ok 1000)] at hvs
  obtain rfl := Option.some.inj hvs
  refine ⟨_, ha, fun hreal => ?_⟩
  obtain ⟨h1, h4, _, hp⟩ := f_facts
  set g := 1 / (cValues 1000).prod with hgdef
  set a := Channels.new [.product (.constant g :: cTerms) false] [Weighting.c.label] with hadef
  have hr1 : 0 < ((f1 : ℝ) : ℂ).re := h1
  have hr4 : 0 < ((f4 : ℝ) : ℂ).re := h4
  set P := fun z : ℂ => polyval [1, 2 * Real.pi * ((f1 : ℝ) : ℂ)] z * polyval [1, 2 * Real.pi * ((f4 : ℝ) : ℂ)] z with hP
  have val : ∀ z : ℂ, 0 ≤ z.re → Laplace a z (g * (z / P z) ^ 2) := by
    intro z hz
    have n1 := pole_stable hr1 z hz
    have n4 := pole_stable hr4 z hz
    have hz1 : polyval [1, 0] z = z := by simp [polyval]
    refine laplace_value _ ?_ (by simp [usesTransform, usesTransformList, cTerms])
    rw [eval_product _ _ _ _ (by simp)]
    refine ⟨[g, z / polyval [1, 2 * Real.pi * ((f1 : ℝ) : ℂ)] z, 1 / polyval [1, 2 * Real.pi * ((f1 : ℝ) : ℂ)] z,
      z / polyval [1, 2 * Real.pi * ((f4 : ℝ) : ℂ)] z, 1 / polyval [1, 2 * Real.pi * ((f4 : ℝ) : ℂ)] z], ?_, ?_⟩
    · have q1 : ∀ b : List ℂ, polyval b z ≠ 0 → eval (laplaceEnv z) 1 false
          (.quotient (.polynomial [1, 0] false) (.polynomial b false) false) = some (z / polyval b z) := by
        intro b hb
        rw [eval_quotient]
        exact ⟨z, _, congrArg some hz1, rfl, hb, rfl⟩
      have q2 : ∀ b : List ℂ, polyval b z ≠ 0 → eval (laplaceEnv z) 1 false
          (.quotient (.constant 1) (.polynomial b false) false) = some (1 / polyval b z) := by
        intro b hb
        rw [eval_quotient]
        exact ⟨1, _, rfl, rfl, hb, rfl⟩
      exact .cons rfl (.cons (q1 _ n1) (.cons (q2 _ n1) (.cons (q1 _ n4) (.cons (q2 _ n4) .nil))))
    · simp only [List.prod_cons, List.prod_nil, hP]
      ring
  have one := val 1 (by simp)
  have real := hreal 1 _ (by simp) one
  rw [map_one] at real
  have hPr : conj (P 1) = P 1 := by simp [hP, polyval, Complex.conj_ofNat]
  have hP0 : P 1 ≠ 0 := mul_ne_zero (pole_stable hr1 1 (by simp)) (pole_stable hr4 1 (by simp))
  have h := laplace_unique one real
  have h7 : conj (1 / P 1) = 1 / P 1 := by rw [map_div₀, map_one, hPr]
  rw [map_mul, map_pow, h7] at h
  have hgr : g = conj g := mul_right_cancel₀ (pow_ne_zero 2 (one_div_ne_zero hP0)) h
  have hvr : conj (cValues 1000).prod = (cValues 1000).prod := by
    rw [hgdef, map_div₀, map_one, one_div, one_div] at hgr
    exact (inv_injective hgr).symm
  set Q : ℂ := ((f1 : ℂ) + I * (1000 : ℝ)) * ((f4 : ℂ) + I * (1000 : ℝ)) with hQ
  have hQ0 : Q ≠ 0 := mul_ne_zero (pole_ne h1) (pole_ne h4)
  have hprod : (cValues 1000).prod = -(1000 / (2 * Real.pi)) ^ 2 / Q ^ 2 := by
    simp only [cValues, List.prod_cons, List.prod_nil, hQ]
    have e1 := pole_ne (f := 1000) h1
    have e4 := pole_ne (f := 1000) h4
    have e0 := s_ne
    have hpi : (Real.pi : ℂ) ≠ 0 := by exact_mod_cast Real.pi_ne_zero
    have hI := Complex.I_sq
    generalize (f1 : ℂ) + I * (1000 : ℝ) = u at e1 ⊢
    generalize (f4 : ℂ) + I * (1000 : ℝ) = v at e4 ⊢
    field_simp
    push_cast
    linear_combination (1000 ^ 2 : ℂ) * hI
  have hQr : conj Q ^ 2 = Q ^ 2 := by
    rw [hprod, map_div₀, map_neg, map_pow, map_pow, map_div₀, map_mul, Complex.conj_ofReal] at hvr
    simp only [map_ofNat] at hvr
    have c0 : -((1000 : ℂ) / (2 * Real.pi)) ^ 2 ≠ 0 :=
      neg_ne_zero.mpr (pow_ne_zero 2 (div_ne_zero (by norm_num) s_ne))
    have hc0 : conj Q ≠ 0 := by simpa using hQ0
    rw [div_eq_div_iff (pow_ne_zero 2 hc0) (pow_ne_zero 2 hQ0)] at hvr
    exact (mul_left_cancel₀ c0 hvr).symm
  have hre : Q.re = f1 * f4 - 1000 ^ 2 := by
    simp [hQ]
    norm_num
  have him : Q.im = 1000 * (f1 + f4) := by
    simp [hQ]
    ring
  have h2 : Q.re * Q.im = 0 := by
    have := congrArg Complex.im hQr
    simp [pow_two] at this
    linarith
  have h3 : Q.im ≠ 0 := by
    rw [him]
    positivity
  have h5 := (mul_eq_zero.mp h2).resolve_right h3
  rw [hre] at h5
  have h6 : f1 ^ 2 * f4 ^ 2 = 1000 ^ 4 := by
    rw [← mul_pow, show f1 * f4 = 1000 ^ 2 by linarith]
    norm_num
  rw [hp, iecC, fL_sq] at h6
  have := fH_sq.2
  linarith

example : ∃ a, Weighting.c.filter complexEnv = .ok a := (C40_weighting .c 0).imp fun _ h => h.1

end Filter
end Verif
