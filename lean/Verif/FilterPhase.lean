import Verif.ChebyshevOptimalProps
import Verif.BesselDelayProps
import Verif.StabilityProps
import Mathlib.Analysis.SpecialFunctions.Trigonometric.Arctan
import Mathlib.Analysis.Polynomial.Basic
import Mathlib.Analysis.Complex.Polynomial.Basic

/-
Lemmas for C139: the phase of polynomials, that have no zeros in the right half plane.
-/

namespace Verif
namespace Filter

open Complex Polynomial Topology

/-- `φ` is the continuous phase of the values `P u` of a polynomial of the degree `n` on the imaginary axis. -/
structure HasPhase (P : ℝ → ℂ) (n : Nat) (φ : ℝ → ℝ) : Prop where
  continuous : Continuous φ
  odd : ∀ u, φ (-u) = -φ u
  monotone : Monotone φ
  strict : 0 < n → StrictMono φ
  limit : _root_.Filter.Tendsto φ _root_.Filter.atTop (𝓝 (n * (Real.pi / 2)))
  value : ∀ u, ∃ ρ : ℝ, 0 < ρ ∧ P u = ρ * exp (φ u * I)

theorem HasPhase.mul {P Q : ℝ → ℂ} {m n : Nat} {φ ψ : ℝ → ℝ} (hP : HasPhase P m φ) (hQ : HasPhase Q n ψ) :
    HasPhase (fun u => P u * Q u) (m + n) (fun u => φ u + ψ u) where
  continuous := hP.continuous.add hQ.continuous
  odd u := by rw [hP.odd, hQ.odd]; ring
  monotone := hP.monotone.add hQ.monotone
  strict h := by
    rcases Nat.eq_zero_or_pos m with h0 | h0
    · exact hP.monotone.add_strictMono (hQ.strict (by omega))
    · exact (hP.strict h0).add_monotone hQ.monotone
  limit := by
    have := hP.limit.add hQ.limit
    rw [← add_mul] at this
    rwa [Nat.cast_add]
  value u := by
    obtain ⟨a, ha, e⟩ := hP.value u
    obtain ⟨b, hb, g⟩ := hQ.value u
    refine ⟨a * b, mul_pos ha hb, ?_⟩
    rw [e, g]
    push_cast
    rw [add_mul, Complex.exp_add]
    ring

theorem HasPhase.one : HasPhase (fun _ => 1) 0 (fun _ => 0) where
  continuous := continuous_const
  odd _ := by simp
  monotone := monotone_const
  strict h := absurd h (lt_irrefl _)
  limit := by simp
  value _ := ⟨1, one_pos, by simp⟩

theorem HasPhase.congr {P Q : ℝ → ℂ} {n : Nat} {φ : ℝ → ℝ} (h : HasPhase P n φ) (e : ∀ u, P u = Q u) : HasPhase Q n φ := by
  rwa [← funext e]

theorem arctan_exp (x : ℝ) : (1 + x * I : ℂ) = (Real.sqrt (1 + x ^ 2) : ℝ) * exp (Real.arctan x * I) := by
  have h : Real.sqrt (1 + x ^ 2) ≠ 0 := (Real.sqrt_pos.mpr (by positivity)).ne'
  have hc : ((Real.sqrt (1 + x ^ 2) : ℝ) : ℂ) ≠ 0 := Complex.ofReal_ne_zero.mpr h
  rw [Complex.exp_mul_I, ← Complex.ofReal_cos, ← Complex.ofReal_sin, Real.cos_arctan, Real.sin_arctan]
  push_cast
  field_simp

/-- the sum of the phases of the factors -/
noncomputable def rootPhase (s : Multiset ℂ) (u : ℝ) : ℝ := (s.map fun r => Real.arctan ((u - r.im) / -r.re)).sum

theorem rootPhase_props (s : Multiset ℂ) (hs : ∀ r ∈ s, r.re < 0) :
    Continuous (rootPhase s) ∧ Monotone (rootPhase s) ∧ (0 < s.card → StrictMono (rootPhase s)) ∧
      _root_.Filter.Tendsto (rootPhase s) _root_.Filter.atTop (𝓝 (s.card * (Real.pi / 2))) ∧
      ∀ u : ℝ, ∃ ρ : ℝ, 0 < ρ ∧ (s.map fun r => I * u - r).prod = ρ * exp (rootPhase s u * I) := by
  induction s using Multiset.induction with
  | empty =>
    have e : rootPhase 0 = fun _ => 0 := by funext u; simp [rootPhase]
    rw [e]
    exact ⟨continuous_const, monotone_const, by simp, by simp, fun u => ⟨1, one_pos, by simp⟩⟩
  | cons r s ih =>
    obtain ⟨h1, h2, h3, h4, h5⟩ := ih fun x hx => hs x (Multiset.mem_cons_of_mem hx)
    have hr : 0 < -r.re := by linarith [hs r (Multiset.mem_cons_self r s)]
    have e : rootPhase (r ::ₘ s) = fun u => Real.arctan ((u - r.im) / -r.re) + rootPhase s u := by
      funext u
      simp [rootPhase]
    have mono : StrictMono fun u : ℝ => Real.arctan ((u - r.im) / -r.re) := by
      intro x y hxy
      exact Real.arctan_strictMono (div_lt_div_of_pos_right (by linarith) hr)
    rw [e]
    refine ⟨(Real.continuous_arctan.comp (by fun_prop)).add h1, mono.monotone.add h2, fun _ => mono.add_monotone h2, ?_, ?_⟩
    · rw [Multiset.card_cons]
      have : _root_.Filter.Tendsto (fun u : ℝ => Real.arctan ((u - r.im) / -r.re)) _root_.Filter.atTop (𝓝 (Real.pi / 2)) := by
        refine (Real.tendsto_arctan_atTop.mono_right nhdsWithin_le_nhds).comp ?_
        exact (_root_.Filter.tendsto_atTop_add_const_right _ (-r.im) _root_.Filter.tendsto_id).atTop_div_const hr
      have := this.add h4
      convert this using 2
      push_cast
      ring
    · intro u
      obtain ⟨ρ, hρ, h⟩ := h5 u
      refine ⟨-r.re * Real.sqrt (1 + ((u - r.im) / -r.re) ^ 2) * ρ, ?_, ?_⟩
      · have : 0 < Real.sqrt (1 + ((u - r.im) / -r.re) ^ 2) := Real.sqrt_pos.mpr (by positivity)
        positivity
      · rw [Multiset.map_cons, Multiset.prod_cons, h]
        have e2 : (I * u - r : ℂ) = -r.re * (1 + (((u - r.im) / -r.re : ℝ) : ℂ) * I) := by
          have : (r.re : ℂ) ≠ 0 := Complex.ofReal_ne_zero.mpr (by linarith)
          push_cast
          rw [mul_add, ← mul_assoc, mul_div_cancel₀ _ (neg_ne_zero.mpr this)]
          conv_lhs => rw [← Complex.re_add_im r]
          ring
        rw [e2, arctan_exp]
        push_cast
        rw [add_mul, Complex.exp_add]
        ring

/-- polynomials with real coefficients, whose zeros are in the left half plane -/
theorem hurwitz_phase (P : ℝ[X]) (hl : 0 < P.leadingCoeff)
    (h0 : ∀ z : ℂ, 0 ≤ z.re → (P.map Complex.ofRealHom).eval z ≠ 0) :
    ∃ φ, HasPhase (fun u => (P.map Complex.ofRealHom).eval (I * u)) P.natDegree φ := by
  set Q := P.map Complex.ofRealHom with hQ
  have hP0 : P ≠ 0 := leadingCoeff_ne_zero.mp hl.ne'
  have hQ0 : Q ≠ 0 := (Polynomial.map_ne_zero_iff Complex.ofRealHom.injective).mpr hP0
  have hsplit : Q.Splits := IsAlgClosed.splits Q
  have hroots : ∀ r ∈ Q.roots, r.re < 0 := by
    intro r hr
    by_contra h
    exact h0 r (not_lt.mp h) ((mem_roots hQ0).mp hr)
  have hcard : Q.roots.card = P.natDegree := by
    rw [← hsplit.natDegree_eq_card_roots, hQ, natDegree_map]
  have hconj : Q.roots.map (starRingEnd ℂ) = Q.roots := by
    have := hsplit.roots_map (starRingEnd ℂ)
    rw [← this, hQ, Polynomial.map_map]
    congr 2
    ext x
    simp
  have hodd : ∀ u, rootPhase Q.roots (-u) = -rootPhase Q.roots u := by
    intro u
    unfold rootPhase
    conv_lhs => rw [← hconj]
    rw [Multiset.map_map, ← Multiset.sum_map_neg', Multiset.map_map]
    congr 1
    refine Multiset.map_congr rfl fun r _ => ?_
    rw [Function.comp_apply, Function.comp_apply, ← Real.arctan_neg]
    simp only [Complex.conj_re, Complex.conj_im]
    congr 1
    ring
  obtain ⟨h1, h2, h3, h4, h5⟩ := rootPhase_props Q.roots hroots
  rw [hcard] at h3 h4
  refine ⟨rootPhase Q.roots, h1, hodd, h2, h3, h4, fun u => ?_⟩
  obtain ⟨ρ, hρ, h⟩ := h5 u
  refine ⟨P.leadingCoeff * ρ, mul_pos hl hρ, ?_⟩
  rw [hsplit.eval_eq_prod_roots, h, hQ, leadingCoeff_map]
  push_cast
  rw [mul_assoc]
  rfl

/-! ### sections -/

theorem HasPhase.zero {P : ℝ → ℂ} {n : Nat} {φ : ℝ → ℝ} (h : HasPhase P n φ) : φ 0 = 0 := by
  have := h.odd 0
  rw [neg_zero] at this
  linarith

theorem HasPhase.range {P : ℝ → ℂ} {n : Nat} {φ : ℝ → ℝ} (h : HasPhase P n φ) (hn : 0 < n) {u : ℝ} (hu : 0 < u) :
    0 < φ u ∧ φ u < n * (Real.pi / 2) := by
  refine ⟨by rw [← h.zero]; exact h.strict hn hu, ?_⟩
  exact (h.strict hn (lt_add_one u)).trans_le (h.monotone.ge_of_tendsto h.limit (u + 1))

theorem linear_phase {a : ℝ} (ha : 0 < a) : ∃ φ, HasPhase (fun u => a * (I * u) + 1) 1 φ := by
  obtain ⟨φ, h⟩ := hurwitz_phase (C a * X + C 1) (by rw [leadingCoeff_linear ha.ne']; exact ha) fun z hz => by
    have := linear_ne_zero ha.le one_pos hz
    simpa using this
  rw [natDegree_linear ha.ne'] at h
  exact ⟨φ, h.congr fun u => by simp⟩

theorem quadratic_phase {a b : ℝ} (ha : 0 < a) (hb : 0 < b) :
    ∃ φ, HasPhase (fun u => a * (I * u) ^ 2 + b * (I * u) + 1) 2 φ := by
  obtain ⟨φ, h⟩ := hurwitz_phase (C a * X ^ 2 + C b * X + C 1) (by rw [leadingCoeff_quadratic ha.ne']; exact ha)
    fun z hz => by
      have := quadratic_ne_zero ha hb one_pos hz
      simpa using this
  rw [natDegree_quadratic ha.ne'] at h
  exact ⟨φ, h.congr fun u => by simp⟩

end Filter
end Verif
