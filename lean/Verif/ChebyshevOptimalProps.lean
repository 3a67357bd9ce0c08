import Verif.Chebyshev2Props
import Mathlib.Analysis.SpecialFunctions.Trigonometric.Chebyshev.Extremal

/-
C119: the Chebyshev filters have the steepest transition between the pass band and the stop band, the Butterworth filters
are maximally flat.
-/

namespace Verif
namespace Filter

open Polynomial (C X)
open Polynomial.Chebyshev (T)

/-! ### The polynomials -/

theorem T_square (n : Nat) (x : ℝ) : (T ℝ n).eval (2 * x ^ 2 - 1) = 2 * (T ℝ n).eval x ^ 2 - 1 := by
  have h1 := congrArg (Polynomial.eval x) (Polynomial.Chebyshev.T_mul ℝ (n : ℤ) 2)
  have h2 := congrArg (Polynomial.eval x) (Polynomial.Chebyshev.T_mul ℝ 2 (n : ℤ))
  rw [mul_comm (n : ℤ) 2, h2] at h1
  simpa [Polynomial.Chebyshev.T_two] using h1.symm

/-- a polynomial, that is between zero and one for arguments between zero and `b`, is less than the square of the Chebyshev
polynomial above -/
theorem below_chebyshev (n : Nat) (R : Polynomial ℝ) (hR : R.degree ≤ n) (b : ℝ) (hb : 0 < b)
    (h : ∀ u, 0 < u → u ≤ b → 0 ≤ R.eval u ∧ R.eval u ≤ 1) (x : ℝ) (hx : 1 ≤ x) :
    R.eval (b * x ^ 2) ≤ (T ℝ n).eval x ^ 2 := by
  have h : ∀ u, 0 ≤ u → u ≤ b → 0 ≤ R.eval u ∧ R.eval u ≤ 1 := by
    have hcl : IsClosed {u : ℝ | 0 ≤ R.eval u ∧ R.eval u ≤ 1} :=
      (isClosed_le continuous_const R.continuous).inter (isClosed_le R.continuous continuous_const)
    have hsub : Set.Ioc 0 b ⊆ {u : ℝ | 0 ≤ R.eval u ∧ R.eval u ≤ 1} := fun u hu => h u hu.1 hu.2
    have := closure_minimal hsub hcl
    rw [closure_Ioc hb.ne] at this
    exact fun u h1 h2 => this ⟨h1, h2⟩
  set P : Polynomial ℝ := C 2 * R.comp (C (b / 2) * (X + 1)) - 1 with hP
  have ev : ∀ y, P.eval y = 2 * R.eval (b / 2 * (y + 1)) - 1 := by
    intro y
    simp [hP]
  have hdeg : P.degree ≤ n := by
    refine (Polynomial.degree_sub_le _ _).trans (max_le ?_ ?_)
    · apply Polynomial.degree_le_of_natDegree_le
      refine (Polynomial.natDegree_C_mul_le _ _).trans ?_
      rw [Polynomial.natDegree_comp]
      have h1 : (C (b / 2) * (X + 1) : Polynomial ℝ).natDegree ≤ 1 := by
        refine (Polynomial.natDegree_C_mul_le _ _).trans ?_
        rw [← Polynomial.C_1, Polynomial.natDegree_X_add_C]
      calc _ ≤ n * 1 := Nat.mul_le_mul (Polynomial.natDegree_le_of_degree_le hR) h1
        _ = n := mul_one n
    · refine Polynomial.degree_one_le.trans ?_
      exact_mod_cast Nat.zero_le n
  have hbnd : ∀ y ∈ Set.Icc (-1 : ℝ) 1, |P.eval y| ≤ 1 := by
    intro y hy
    obtain ⟨h1, h2⟩ := h (b / 2 * (y + 1)) (by have := hy.1; apply mul_nonneg <;> linarith) (by have := hy.2; nlinarith)
    rw [ev, abs_le]
    constructor <;> linarith
  have key := Polynomial.Chebyshev.eval_iterate_derivative_le_of_forall_abs_le_one (k := 0) (x := 2 * x ^ 2 - 1)
    (by nlinarith) hdeg hbnd
  simp only [Function.iterate_zero, id_eq] at key
  rw [ev, T_square] at key
  rw [show b / 2 * (2 * x ^ 2 - 1 + 1) = b * x ^ 2 by ring] at key
  linarith

/-- a polynomial, that is bounded by a multiple of a power near zero, is divisible by that power -/
theorem dvd_of_bound (n : Nat) (Q : Polynomial ℝ) (K δ : ℝ) (hδ : 0 < δ)
    (h : ∀ u, 0 < u → u ≤ δ → |Q.eval u| ≤ K * u ^ n) : X ^ n ∣ Q := by
  induction n generalizing K with
  | zero => simp
  | succ n ih =>
    have hK : 0 ≤ K := by
      have := (abs_nonneg _).trans (h δ hδ le_rfl)
      exact nonneg_of_mul_nonneg_left this (by positivity)
    obtain ⟨P, rfl⟩ := ih (K * δ) (by
      intro u hu hd
      refine (h u hu hd).trans ?_
      rw [pow_succ, mul_comm (u ^ n), ← mul_assoc]
      gcongr)
    have hP : ∀ u, 0 < u → u ≤ δ → |P.eval u| ≤ K * u := by
      intro u hu hd
      have := h u hu hd
      rw [Polynomial.eval_mul, Polynomial.eval_pow, Polynomial.eval_X, abs_mul, abs_of_pos (pow_pos hu n), pow_succ,
        mul_comm (u ^ n) u, ← mul_assoc, mul_comm (u ^ n)] at this
      exact le_of_mul_le_mul_right this (pow_pos hu n)
    have hcl : IsClosed {u : ℝ | |P.eval u| ≤ K * u} :=
      isClosed_le P.continuous.abs (continuous_const.mul continuous_id)
    have hsub : Set.Ioc 0 δ ⊆ {u : ℝ | |P.eval u| ≤ K * u} := fun u hu => hP u hu.1 hu.2
    have h0 := closure_minimal hsub hcl
    rw [closure_Ioc hδ.ne] at h0
    have h0 : |P.eval 0| ≤ K * 0 := h0 ⟨le_rfl, hδ.le⟩
    have h0 : P.eval 0 = 0 := by
      rw [mul_zero] at h0
      exact abs_eq_zero.1 (le_antisymm h0 (abs_nonneg _))
    have : X ∣ P := by
      rw [Polynomial.X_dvd_iff, Polynomial.coeff_zero_eq_eval_zero]
      exact h0
    obtain ⟨P', rfl⟩ := this
    exact ⟨P', by ring⟩

/-! ### Specification -/

/-- the filter has one channel and `H` is its transfer function for positive frequencies -/
def HasTransfer (mem : ℂ) (a : Channels ℝ ℂ) (H : ℝ → ℂ) : Prop :=
  ∀ f, 0 < f → a.call complexEnv mem f = [some (H f)]

/-- the squared magnitude is that of a filter, whose transfer function is the inverse of a polynomial of the degree `n` -/
def AllPole (n : Nat) (highpass : Bool) (H : ℝ → ℂ) : Prop :=
  ∃ R : Polynomial ℝ, R.degree ≤ n ∧
    ∀ f, 0 < f → ‖H f‖ ^ 2 * R.eval ((if highpass then 1 / f else f) ^ 2) = 1

/-- The frequency belongs to the pass band of the filter. The cutoff frequency belongs to both bands. -/
def InPassBand (cutoff : ℝ) (highpass : Bool) (f : ℝ) : Prop := if highpass then cutoff ≤ f else f ≤ cutoff

/-- The frequency belongs to the stop band of the filter. -/
def InStopBand (cutoff : ℝ) (highpass : Bool) (f : ℝ) : Prop := if highpass then f ≤ cutoff else cutoff ≤ f

/-- the maximum of the squared magnitude of a Chebyshev filter of type 1 -/
noncomputable def peak (ripple : ℝ) (order : Nat) : ℝ := if order % 2 = 0 then 10 ^ (|ripple| / 10) else 1

/-- the squared magnitude is that of a filter, for which the ratio between the energy, that passes the filter, and the
energy, that does not, is a polynomial of the degree `n` -/
def MaximallyFlat (n : Nat) (highpass : Bool) (H : ℝ → ℂ) : Prop :=
  ∃ R : Polynomial ℝ, R.degree ≤ n ∧
    ∀ f, 0 < f → ‖H f‖ ^ 2 < 1 ∧ ‖H f‖ ^ 2 / (1 - ‖H f‖ ^ 2) = R.eval ((if highpass then f else 1 / f) ^ 2)

/-! ### C119 -/

theorem peak_eq (ripple : ℝ) (order : Nat) :
    peak ripple order = 1 + (10 ^ (|ripple| / 10) - 1) * (T ℝ order).eval 0 ^ 2 := by
  unfold peak
  split
  · rename_i h
    have hT0 : (T ℝ order).eval 0 ^ 2 = 1 := by
      have ev : Even (order : ℤ) := ⟨order / 2, by omega⟩
      rw [Polynomial.Chebyshev.T_eval_zero_of_even ℝ ev]
      rcases Int.even_or_odd ((order : ℤ) / 2) with h | h
      · rw [Int.negOnePow_even _ h]; simp
      · rw [Int.negOnePow_odd _ h]; simp
    rw [hT0]
    ring
  · rename_i h
    rw [Polynomial.Chebyshev.T_eval_zero_of_odd ℝ ⟨(order : ℤ) / 2, by omega⟩]
    ring

/-- the transfer function of the Chebyshev filter of type 1 -/
theorem chebyshev1_transfer (mem : ℂ) (n : Nat) (cutoff ripple : ℝ) (hc : 0 < cutoff) (hr : ripple ≠ 0) (order : Nat)
    (ho : 0 < order) (highpass : Bool) :
    ∃ a H, chebyshev1Filter complexEnv (n + 3) cutoff ripple order highpass = .ok a ∧ HasTransfer mem a H ∧
      ∀ f, 0 < f → ‖H f‖ ^ 2 = peak ripple order /
        (1 + (10 ^ (|ripple| / 10) - 1) * (T ℝ order).eval (if highpass then cutoff / f else f / cutoff) ^ 2) := by
  obtain ⟨a, h1, -, h2⟩ := C62_magnitude mem n cutoff ripple hc hr order ho highpass
  have h2 : ∀ f, ∃ x, 0 < f → a.call complexEnv mem f = [some x] ∧
      ‖x‖ ^ 2 = chebyshev1Spec cutoff ripple order highpass f := by
    intro f
    by_cases hf : 0 < f
    · obtain ⟨x, hx⟩ := h2 f hf.le
      exact ⟨x, fun _ => hx⟩
    · exact ⟨0, fun h => absurd h hf⟩
  choose H hH using h2
  refine ⟨a, H, h1, fun f hf => (hH f hf).1, fun f hf => ?_⟩
  rw [(hH f hf).2, peak_eq]
  unfold chebyshev1Spec
  dsimp only
  cases highpass
  · simp
  · simp [hf.ne']

/-- C119: Of all filters, whose transfer function is the inverse of a polynomial, whose magnitude does not vary more than
the given ripple in the pass band, and which have the same order and cutoff frequency, the Chebyshev filter of type 1 has
the least magnitude (relative to the maximum in the pass band) at each frequency of the stop band. -/
theorem C119_type1 (mem : ℂ) (n : Nat) (cutoff ripple : ℝ) (hc : 0 < cutoff) (hr : ripple ≠ 0) (order : Nat)
    (ho : 0 < order) (highpass : Bool) :
    ∃ a H, chebyshev1Filter complexEnv (n + 3) cutoff ripple order highpass = .ok a ∧ HasTransfer mem a H ∧
      AllPole order highpass H ∧
      (∀ f, 0 < f → InPassBand cutoff highpass f →
        peak ripple order / 10 ^ (|ripple| / 10) ≤ ‖H f‖ ^ 2 ∧ ‖H f‖ ^ 2 ≤ peak ripple order) ∧
      ∀ (b : Channels ℝ ℂ) (G : ℝ → ℂ) (p : ℝ), HasTransfer mem b G → AllPole order highpass G → 0 < p →
        (∀ f, 0 < f → InPassBand cutoff highpass f → p / 10 ^ (|ripple| / 10) ≤ ‖G f‖ ^ 2 ∧ ‖G f‖ ^ 2 ≤ p) →
        ∀ f, 0 < f → InStopBand cutoff highpass f → ‖H f‖ ^ 2 / peak ripple order ≤ ‖G f‖ ^ 2 / p := by
  obtain ⟨a, H, h1, h2, h3⟩ := chebyshev1_transfer mem n cutoff ripple hc hr order ho highpass
  have he := ripple_pos hr
  have hpk : 0 < peak ripple order := by
    rw [peak_eq]
    positivity
  set e := (10 : ℝ) ^ (|ripple| / 10) - 1 with hedef
  have hρ : (10 : ℝ) ^ (|ripple| / 10) = 1 + e := by rw [hedef]; ring
  rw [hρ]
  refine ⟨a, H, h1, h2, ?_, ?_, ?_⟩
  · set c : ℝ := if highpass then cutoff else 1 / cutoff with hcdef
    have harg : ∀ f : ℝ, 0 < f → (if highpass then cutoff / f else f / cutoff) = c * (if highpass then 1 / f else f) := by
      intro f hf
      rw [hcdef]
      cases highpass
      · simp
        ring
      · simp
        ring
    -- the square of the Chebyshev polynomial is a polynomial of the squared frequency
    refine ⟨C (1 / peak ripple order) * (1 + C e * (C (1 / 2) * (1 + (T ℝ order).comp (C (2 * c ^ 2) * X - 1)))), ?_, ?_⟩
    · apply Polynomial.degree_le_of_natDegree_le
      refine (Polynomial.natDegree_C_mul_le _ _).trans ?_
      refine (Polynomial.natDegree_add_le _ _).trans (max_le (by simp) ?_)
      refine (Polynomial.natDegree_C_mul_le _ _).trans ?_
      refine (Polynomial.natDegree_C_mul_le _ _).trans ?_
      refine (Polynomial.natDegree_add_le _ _).trans (max_le (by simp) ?_)
      rw [Polynomial.natDegree_comp, Polynomial.Chebyshev.natDegree_T]
      have : (C (2 * c ^ 2) * X - 1 : Polynomial ℝ).natDegree ≤ 1 := by
        refine (Polynomial.natDegree_sub_le _ _).trans (max_le ?_ (by simp))
        refine (Polynomial.natDegree_C_mul_le _ _).trans ?_
        exact Polynomial.natDegree_X_le
      calc _ ≤ order * 1 := Nat.mul_le_mul (by simp) this
        _ = order := mul_one _
    · intro f hf
      rw [h3 f hf, harg f hf]
      generalize (if highpass then 1 / f else f) = x
      have hT := T_square order (c * x)
      have : (2 * (c * x) ^ 2 - 1 : ℝ) = 2 * c ^ 2 * x ^ 2 - 1 := by ring
      rw [this] at hT
      simp only [Polynomial.eval_mul, Polynomial.eval_C, Polynomial.eval_add, Polynomial.eval_one, Polynomial.eval_comp,
        Polynomial.eval_sub, Polynomial.eval_X]
      rw [hT]
      have : 0 < 1 + e * (T ℝ order).eval (c * x) ^ 2 := by positivity
      field_simp
      ring
  · intro f hf hp
    rw [h3 f hf]
    have hx : |(if highpass then cutoff / f else f / cutoff)| ≤ 1 := by
      cases highpass
      · have hp : f ≤ cutoff := hp
        simp only [Bool.false_eq_true, if_false]
        rw [abs_of_pos (by positivity), div_le_one hc]
        exact hp
      · have hp : cutoff ≤ f := hp
        simp only [if_true]
        rw [abs_of_pos (by positivity), div_le_one hf]
        exact hp
    have hT := Polynomial.Chebyshev.abs_eval_T_real_le_one order hx
    have hT := (sq_le_one_iff_abs_le_one _).mpr hT
    have hT0 := sq_nonneg ((T ℝ order).eval (if highpass then cutoff / f else f / cutoff))
    generalize (T ℝ order).eval (if highpass then cutoff / f else f / cutoff) ^ 2 = q at *
    constructor
    · apply div_le_div_of_nonneg_left hpk.le (by positivity)
      nlinarith
    · apply div_le_self hpk.le
      nlinarith
  · intro b G p _ hG hp0 hpass f hf hs
    obtain ⟨R, hR, hv⟩ := hG
    -- the relative attenuation as a polynomial
    set b : ℝ := if highpass then 1 / cutoff ^ 2 else cutoff ^ 2 with hb
    have hb0 : 0 < b := by
      rw [hb]
      split <;> positivity
    have key := below_chebyshev order (C (1 / e) * (C p * R - 1)) ?_ b hb0 ?_
      (if highpass then cutoff / f else f / cutoff) ?_
    · have harg : b * (if highpass then cutoff / f else f / cutoff) ^ 2 = (if highpass then 1 / f else f) ^ 2 := by
        rw [hb]
        cases highpass
        · simp
          field_simp
        · simp
          field_simp
      rw [harg] at key
      rw [h3 f hf]
      have hgr := hv f hf
      simp only [Polynomial.eval_mul, Polynomial.eval_C, Polynomial.eval_sub, Polynomial.eval_one] at key
      generalize Polynomial.eval ((if highpass then 1 / f else f) ^ 2) R = r at *
      have hT0 := sq_nonneg ((T ℝ order).eval (if highpass then cutoff / f else f / cutoff))
      generalize (T ℝ order).eval (if highpass then cutoff / f else f / cutoff) ^ 2 = q at *
      have hg : 0 < ‖G f‖ ^ 2 := by
        rcases (sq_nonneg ‖G f‖).lt_or_eq with h | h
        · exact h
        · rw [← h] at hgr
          simp at hgr
      generalize ‖G f‖ ^ 2 = g at *
      rw [div_div, mul_comm, ← div_div, div_self hpk.ne', div_le_div_iff₀ (by positivity) hp0]
      have : p * r ≤ 1 + e * q := by
        have : 1 / e * (p * r - 1) * e ≤ q * e := by gcongr
        have h2 : 1 / e * (p * r - 1) * e = p * r - 1 := by field_simp
        linarith
      have h2 : g * (p * r) ≤ g * (1 + e * q) := by gcongr
      have h3 : g * (p * r) = p := by
        calc g * (p * r) = p * (g * r) := by ring
          _ = p := by rw [hgr, mul_one]
      linarith
    · apply Polynomial.degree_le_of_natDegree_le
      refine (Polynomial.natDegree_C_mul_le _ _).trans ?_
      refine (Polynomial.natDegree_sub_le _ _).trans (max_le ?_ (by simp))
      exact (Polynomial.natDegree_C_mul_le _ _).trans (Polynomial.natDegree_le_of_degree_le hR)
    · intro u hu hub
      set g : ℝ := if highpass then 1 / Real.sqrt u else Real.sqrt u with hg
      have hsu : 0 < Real.sqrt u := Real.sqrt_pos.2 hu
      have hg0 : 0 < g := by
        rw [hg]
        split <;> positivity
      have hgu : (if highpass then 1 / g else g) ^ 2 = u := by
        rw [hg]
        cases highpass
        · simp [Real.sq_sqrt hu.le]
        · simp [Real.sq_sqrt hu.le]
      have hgp : InPassBand cutoff highpass g := by
        unfold InPassBand
        rw [hg]
        rw [hb] at hub
        cases highpass
        · simp only [Bool.false_eq_true, if_false] at hub ⊢
          rw [Real.sqrt_le_left hc.le]
          exact hub
        · simp only [if_true] at hub ⊢
          rw [le_div_iff₀ hsu, ← le_div_iff₀' hc, Real.sqrt_le_left (by positivity), div_pow, one_pow]
          exact hub
      obtain ⟨q1, q2⟩ := hpass g hg0 hgp
      have hr := hv g hg0
      rw [hgu] at hr
      simp only [Polynomial.eval_mul, Polynomial.eval_C, Polynomial.eval_sub, Polynomial.eval_one]
      generalize R.eval u = r at *
      have hgp : 0 < ‖G g‖ ^ 2 := lt_of_lt_of_le (by positivity) q1
      generalize ‖G g‖ ^ 2 = w at *
      have hr' : r = 1 / w := by
        field_simp
        linarith
      rw [hr']
      constructor
      · apply mul_nonneg (by positivity)
        rw [sub_nonneg, mul_one_div, one_le_div hgp]
        exact q2
      · rw [one_div_mul_eq_div, div_le_one he, sub_le_iff_le_add, mul_one_div, div_le_iff₀ hgp]
        rw [div_le_iff₀ (by positivity)] at q1
        linarith
    · unfold InStopBand at hs
      cases highpass
      · simp only [Bool.false_eq_true, if_false] at hs ⊢
        rw [one_le_div hc]
        exact hs
      · simp only [if_true] at hs ⊢
        rw [one_le_div hf]
        exact hs

/-- C119: Of all filters, that are maximally flat at the end of the pass band, whose magnitude does not exceed the given
attenuation in the stop band, and which have the same order and cutoff frequency, the Chebyshev filter of type 2 has the
greatest magnitude at each frequency of the pass band. -/
theorem C119_type2 (mem : ℂ) (n : Nat) (cutoff ripple : ℝ) (hc : 0 < cutoff) (hr : ripple ≠ 0) (order : Nat)
    (ho : 0 < order) (highpass : Bool) :
    ∃ a H, chebyshev2Filter complexEnv (n + 4) cutoff ripple order highpass = .ok a ∧ HasTransfer mem a H ∧
      MaximallyFlat order highpass H ∧
      (∀ f, 0 < f → InStopBand cutoff highpass f → ‖H f‖ ^ 2 ≤ 1 / 10 ^ (|ripple| / 10)) ∧
      ∀ (b : Channels ℝ ℂ) (G : ℝ → ℂ), HasTransfer mem b G → MaximallyFlat order highpass G →
        (∀ f, 0 < f → InStopBand cutoff highpass f → ‖G f‖ ^ 2 ≤ 1 / 10 ^ (|ripple| / 10)) →
        ∀ f, 0 < f → InPassBand cutoff highpass f → ‖G f‖ ≤ ‖H f‖ := by
  obtain ⟨a, h1, -, h2, -⟩ := C63_magnitude_partial mem n cutoff ripple hc hr order ho highpass
  have h2 : ∀ f, ∃ x, 0 < f → a.call complexEnv mem f = [some x] ∧
      ‖x‖ ^ 2 = chebyshev2Spec cutoff ripple order highpass f := by
    intro f
    by_cases hf : 0 < f
    · obtain ⟨x, hx⟩ := h2 f hf
      exact ⟨x, fun _ => hx⟩
    · exact ⟨0, fun h => absurd h hf⟩
  choose H hH using h2
  have he := ripple_pos hr
  have h3 : ∀ f, 0 < f → ‖H f‖ ^ 2 = chebyshev2Spec cutoff ripple order highpass f := fun f hf => (hH f hf).2
  unfold chebyshev2Spec at h3
  dsimp only at h3
  set e := (10 : ℝ) ^ (|ripple| / 10) - 1 with hedef
  have hρ : (10 : ℝ) ^ (|ripple| / 10) = 1 + e := by rw [hedef]; ring
  rw [hρ]
  refine ⟨a, H, h1, fun f hf => (hH f hf).1, ?_, ?_, ?_⟩
  · set c : ℝ := if highpass then 1 / cutoff else cutoff with hcdef
    have harg : ∀ f : ℝ, 0 < f → (if highpass then f / cutoff else cutoff / f) = c * (if highpass then f else 1 / f) := by
      intro f hf
      rw [hcdef]
      cases highpass
      · simp
        ring
      · simp
        ring
    refine ⟨C (1 / e) * (C (1 / 2) * (1 + (T ℝ order).comp (C (2 * c ^ 2) * X - 1))), ?_, ?_⟩
    · apply Polynomial.degree_le_of_natDegree_le
      refine (Polynomial.natDegree_C_mul_le _ _).trans ?_
      refine (Polynomial.natDegree_C_mul_le _ _).trans ?_
      refine (Polynomial.natDegree_add_le _ _).trans (max_le (by simp) ?_)
      rw [Polynomial.natDegree_comp, Polynomial.Chebyshev.natDegree_T]
      have : (C (2 * c ^ 2) * X - 1 : Polynomial ℝ).natDegree ≤ 1 := by
        refine (Polynomial.natDegree_sub_le _ _).trans (max_le ?_ (by simp))
        refine (Polynomial.natDegree_C_mul_le _ _).trans ?_
        exact Polynomial.natDegree_X_le
      calc _ ≤ order * 1 := Nat.mul_le_mul (by simp) this
        _ = order := mul_one _
    · intro f hf
      rw [h3 f hf, harg f hf]
      generalize (if highpass then f else 1 / f) = x
      have hT := T_square order (c * x)
      have : (2 * (c * x) ^ 2 - 1 : ℝ) = 2 * c ^ 2 * x ^ 2 - 1 := by ring
      rw [this] at hT
      simp only [Polynomial.eval_mul, Polynomial.eval_C, Polynomial.eval_add, Polynomial.eval_one, Polynomial.eval_comp,
        Polynomial.eval_sub, Polynomial.eval_X]
      rw [hT]
      have hq := sq_nonneg ((T ℝ order).eval (c * x))
      generalize (T ℝ order).eval (c * x) ^ 2 = q at *
      have hqe : 0 < q + e := by positivity
      constructor
      · rw [div_lt_one hqe]
        linarith
      · rw [show 1 - q / (q + e) = e / (q + e) by field_simp; ring, div_div_div_cancel_right₀ hqe.ne']
        field_simp
        ring
  · intro f hf hs
    rw [h3 f hf]
    have hx : |(if highpass then f / cutoff else cutoff / f)| ≤ 1 := by
      cases highpass
      · have hs : cutoff ≤ f := hs
        simp only [Bool.false_eq_true, if_false]
        rw [abs_of_pos (by positivity), div_le_one hf]
        exact hs
      · have hs : f ≤ cutoff := hs
        simp only [if_true]
        rw [abs_of_pos (by positivity), div_le_one hc]
        exact hs
    have hT := Polynomial.Chebyshev.abs_eval_T_real_le_one order hx
    have hT := (sq_le_one_iff_abs_le_one _).mpr hT
    have hT0 := sq_nonneg ((T ℝ order).eval (if highpass then f / cutoff else cutoff / f))
    generalize (T ℝ order).eval (if highpass then f / cutoff else cutoff / f) ^ 2 = q at *
    rw [div_le_div_iff₀ (by positivity) (by positivity)]
    nlinarith
  · intro b G _ hG hstop f hf hp
    obtain ⟨R, hR, hv⟩ := hG
    set b : ℝ := if highpass then cutoff ^ 2 else 1 / cutoff ^ 2 with hb
    have hb0 : 0 < b := by
      rw [hb]
      split <;> positivity
    have key := below_chebyshev order (C e * R) ?_ b hb0 ?_ (if highpass then f / cutoff else cutoff / f) ?_
    · have harg : b * (if highpass then f / cutoff else cutoff / f) ^ 2 = (if highpass then f else 1 / f) ^ 2 := by
        rw [hb]
        cases highpass
        · simp
          field_simp
        · simp
          field_simp
      rw [harg] at key
      obtain ⟨hlt, hgr⟩ := hv f hf
      simp only [Polynomial.eval_mul, Polynomial.eval_C] at key
      rw [← hgr] at key
      refine le_of_sq_le_sq ?_ (norm_nonneg _)
      rw [h3 f hf]
      have hT0 := sq_nonneg ((T ℝ order).eval (if highpass then f / cutoff else cutoff / f))
      generalize (T ℝ order).eval (if highpass then f / cutoff else cutoff / f) ^ 2 = q at *
      generalize ‖G f‖ ^ 2 = g at *
      have h1g : 0 < 1 - g := by linarith
      rw [le_div_iff₀ (by positivity)]
      rw [mul_div_assoc', div_le_iff₀ h1g] at key
      linarith
    · apply Polynomial.degree_le_of_natDegree_le
      exact (Polynomial.natDegree_C_mul_le _ _).trans (Polynomial.natDegree_le_of_degree_le hR)
    · intro u hu hub
      set g : ℝ := if highpass then Real.sqrt u else 1 / Real.sqrt u with hg
      have hsu : 0 < Real.sqrt u := Real.sqrt_pos.2 hu
      have hg0 : 0 < g := by
        rw [hg]
        split <;> positivity
      have hgu : (if highpass then g else 1 / g) ^ 2 = u := by
        rw [hg]
        cases highpass
        · simp [Real.sq_sqrt hu.le]
        · simp [Real.sq_sqrt hu.le]
      have hgs : InStopBand cutoff highpass g := by
        unfold InStopBand
        rw [hg]
        rw [hb] at hub
        cases highpass
        · simp only [Bool.false_eq_true, if_false] at hub ⊢
          rw [le_div_iff₀ hsu, ← le_div_iff₀' hc, Real.sqrt_le_left (by positivity), div_pow, one_pow]
          exact hub
        · simp only [if_true] at hub ⊢
          rw [Real.sqrt_le_left hc.le]
          exact hub
      have q1 := hstop g hg0 hgs
      obtain ⟨hlt, hr⟩ := hv g hg0
      rw [hgu] at hr
      simp only [Polynomial.eval_mul, Polynomial.eval_C]
      rw [← hr]
      have hw := sq_nonneg ‖G g‖
      generalize ‖G g‖ ^ 2 = w at *
      have h1w : 0 < 1 - w := by linarith
      constructor
      · positivity
      · rw [mul_div_assoc', div_le_one h1w]
        rw [le_div_iff₀ (by positivity)] at q1
        linarith
    · unfold InPassBand at hp
      cases highpass
      · simp only [Bool.false_eq_true, if_false] at hp ⊢
        rw [one_le_div hf]
        exact hp
      · simp only [if_true] at hp ⊢
        rw [one_le_div hc]
        exact hp

/-- the transfer function of the Butterworth filter -/
theorem butterworth_transfer (mem : ℂ) (n : Nat) (cutoff : ℝ) (hc : 0 < cutoff) (order : Nat) (ho : 0 < order)
    (highpass : Bool) :
    ∃ a H, butterworthFilter complexEnv (n + 3) cutoff order highpass = .ok a ∧ HasTransfer mem a H ∧
      ∀ f, 0 < f → ‖H f‖ ^ 2 = 1 / (1 + (if highpass then cutoff / f else f / cutoff) ^ (2 * order)) := by
  obtain ⟨a, h1, -, h2⟩ := C37_magnitude mem n cutoff hc order ho highpass
  have h2 : ∀ f, ∃ x, 0 < f → a.call complexEnv mem f = [some x] ∧
      ‖x‖ ^ 2 = butterworthSpec cutoff order highpass f := by
    intro f
    by_cases hf : 0 < f
    · obtain ⟨x, hx⟩ := h2 f hf.le
      exact ⟨x, fun _ => hx⟩
    · exact ⟨0, fun h => absurd h hf⟩
  choose H hH using h2
  refine ⟨a, H, h1, fun f hf => (hH f hf).1, fun f hf => ?_⟩
  rw [(hH f hf).2]
  unfold butterworthSpec
  cases highpass
  · simp
  · simp only [if_true]
    rw [← inv_div f cutoff, inv_pow]
    have : 0 < (f / cutoff) ^ (2 * order) := by positivity
    field_simp
    ring

/-- C119: Butterworth filters are maximally flat. A filter of the same order, whose transfer function is the inverse of a
polynomial, whose squared magnitude deviates from one by no more than a multiple of the power `2 * order` of the frequency
near 0 Hz (or of the inverse frequency for a highpass), and that attenuates the cutoff frequency by 3 dB, has the same
magnitude as the Butterworth filter. -/
theorem C119_butterworth (mem : ℂ) (n : Nat) (cutoff : ℝ) (hc : 0 < cutoff) (order : Nat) (ho : 0 < order)
    (highpass : Bool) :
    ∃ a H, butterworthFilter complexEnv (n + 3) cutoff order highpass = .ok a ∧ HasTransfer mem a H ∧
      AllPole order highpass H ∧ MaximallyFlat order highpass H ∧ ‖H cutoff‖ ^ 2 = 1 / 2 ∧
      (∀ f, 0 < f → 1 - ‖H f‖ ^ 2 ≤ (if highpass then cutoff / f else f / cutoff) ^ (2 * order)) ∧
      ∀ (b : Channels ℝ ℂ) (G : ℝ → ℂ) (K : ℝ), HasTransfer mem b G → AllPole order highpass G →
        ‖G cutoff‖ ^ 2 = 1 / 2 →
        (∀ f, 0 < f → InPassBand cutoff highpass f →
          |1 - ‖G f‖ ^ 2| ≤ K * (if highpass then 1 / f else f) ^ (2 * order)) →
        ∀ f, 0 < f → ‖G f‖ = ‖H f‖ := by
  obtain ⟨a, H, h1, h2, h3⟩ := butterworth_transfer mem n cutoff hc order ho highpass
  set c : ℝ := if highpass then cutoff else 1 / cutoff with hcdef
  have hc0 : 0 < c := by
    rw [hcdef]
    split <;> positivity
  have harg : ∀ f : ℝ, 0 < f → (if highpass then cutoff / f else f / cutoff) = c * (if highpass then 1 / f else f) := by
    intro f hf
    rw [hcdef]
    cases highpass
    · simp
      ring
    · simp
      ring
  have hpos : ∀ f : ℝ, 0 < f → 0 < (if highpass then 1 / f else f) := by
    intro f hf
    split <;> positivity
  have hcc : (if highpass then cutoff / cutoff else cutoff / cutoff) = 1 := by
    rw [ite_self, div_self hc.ne']
  refine ⟨a, H, h1, h2, ⟨1 + C (c ^ (2 * order)) * X ^ order, ?_, ?_⟩, ⟨C ((1 / c) ^ (2 * order)) * X ^ order, ?_, ?_⟩, ?_,
    ?_, ?_⟩
  · apply Polynomial.degree_le_of_natDegree_le
    refine (Polynomial.natDegree_add_le _ _).trans (max_le (by simp) ?_)
    exact Polynomial.natDegree_C_mul_X_pow_le _ _
  · intro f hf
    rw [h3 f hf, harg f hf]
    have := hpos f hf
    generalize (if highpass then 1 / f else f) = x at *
    simp only [Polynomial.eval_add, Polynomial.eval_one, Polynomial.eval_mul, Polynomial.eval_C, Polynomial.eval_pow,
      Polynomial.eval_X]
    rw [← pow_mul, ← mul_pow, one_div_mul_cancel]
    positivity
  · exact Polynomial.degree_C_mul_X_pow_le _ _
  · intro f hf
    have e : (if highpass then f else 1 / f) = 1 / (if highpass then 1 / f else f) := by
      cases highpass <;> simp
    rw [h3 f hf, harg f hf, e]
    have := hpos f hf
    generalize (if highpass then 1 / f else f) = x at *
    simp only [Polynomial.eval_mul, Polynomial.eval_C, Polynomial.eval_pow, Polynomial.eval_X]
    rw [← pow_mul, ← mul_pow, div_mul_div_comm, one_mul, one_div_pow]
    have : 0 < (c * x) ^ (2 * order) := by positivity
    generalize (c * x) ^ (2 * order) = q at *
    constructor
    · rw [div_lt_one (by positivity)]
      linarith
    · rw [show 1 - 1 / (1 + q) = q / (1 + q) by field_simp; ring, div_div_div_cancel_right₀ (by positivity)]
  · rw [h3 cutoff hc, hcc]
    norm_num
  · intro f hf
    rw [h3 f hf, harg f hf]
    have := hpos f hf
    have : 0 < (c * (if highpass then 1 / f else f)) ^ (2 * order) := by positivity
    generalize (c * (if highpass then 1 / f else f)) ^ (2 * order) = q at *
    rw [sub_le_iff_le_add, ← sub_le_iff_le_add', le_div_iff₀ (by positivity)]
    nlinarith
  · intro b G K _ hG hcut hflat
    obtain ⟨R, hR, hv⟩ := hG
    -- the deviation from one as a polynomial
    have hpow : ∀ x : ℝ, x ^ (2 * order) = (x ^ 2) ^ order := fun x => pow_mul x 2 order
    have hcont : ∃ B, ∀ u, 0 ≤ u → u ≤ 1 / c ^ 2 → |R.eval u| ≤ B := by
      obtain ⟨B, hB⟩ := (isCompact_Icc (a := (0 : ℝ)) (b := 1 / c ^ 2)).exists_bound_of_continuousOn R.continuous.continuousOn
      exact ⟨B, fun u h1 h2 => hB u ⟨h1, h2⟩⟩
    obtain ⟨B, hB⟩ := hcont
    have hdvd : X ^ order ∣ R - 1 := by
      refine dvd_of_bound order (R - 1) (K * B) (1 / c ^ 2) (by positivity) ?_
      intro u hu hub
      set g : ℝ := if highpass then 1 / Real.sqrt u else Real.sqrt u with hg
      have hsu : 0 < Real.sqrt u := Real.sqrt_pos.2 hu
      have hg0 : 0 < g := by
        rw [hg]
        split <;> positivity
      have hgu : (if highpass then 1 / g else g) ^ 2 = u := by
        rw [hg]
        cases highpass
        · simp [Real.sq_sqrt hu.le]
        · simp [Real.sq_sqrt hu.le]
      have hgp : InPassBand cutoff highpass g := by
        unfold InPassBand
        rw [hg]
        rw [hcdef] at hub
        cases highpass
        · simp only [Bool.false_eq_true, if_false, one_div_pow, one_div_one_div] at hub ⊢
          rw [Real.sqrt_le_left hc.le]
          exact hub
        · simp only [if_true] at hub ⊢
          rw [le_div_iff₀ hsu, ← le_div_iff₀' hc, Real.sqrt_le_left (by positivity), div_pow, one_pow]
          exact hub
      have q := hflat g hg0 hgp
      have hr := hv g hg0
      rw [hpow, hgu] at q
      rw [hgu] at hr
      have hBu := hB u hu.le hub
      rw [Polynomial.eval_sub, Polynomial.eval_one]
      generalize R.eval u = r at *
      generalize ‖G g‖ ^ 2 = w at *
      have e : r - 1 = (1 - w) * r := by linear_combination hr
      rw [e, abs_mul]
      calc _ ≤ K * u ^ order * B := by
            have := (abs_nonneg _).trans q
            gcongr
        _ = K * B * u ^ order := by ring
    obtain ⟨P, hP⟩ := hdvd
    have hconst : ∃ k : ℝ, R = 1 + C k * X ^ order := by
      by_cases hP0 : P = 0
      · refine ⟨0, ?_⟩
        rw [hP0, mul_zero, sub_eq_zero] at hP
        rw [hP]
        simp
      · have hd : (R - 1).natDegree ≤ order :=
          (Polynomial.natDegree_sub_le _ _).trans (max_le (Polynomial.natDegree_le_of_degree_le hR) (by simp))
        rw [hP, Polynomial.natDegree_mul (pow_ne_zero _ Polynomial.X_ne_zero) hP0, Polynomial.natDegree_X_pow] at hd
        have : P.natDegree = 0 := by omega
        obtain ⟨k, rfl⟩ := Polynomial.natDegree_eq_zero.1 this
        exact ⟨k, by rw [mul_comm (C k), ← hP]; ring⟩
    obtain ⟨k, rfl⟩ := hconst
    simp only [Polynomial.eval_add, Polynomial.eval_one, Polynomial.eval_mul, Polynomial.eval_C, Polynomial.eval_pow,
      Polynomial.eval_X] at hv
    have hk : k = c ^ (2 * order) := by
      have h := hv cutoff hc
      have e1 : (if highpass then 1 / cutoff else cutoff) = 1 / c := by
        rw [hcdef]
        cases highpass <;> simp
      rw [hcut, e1, ← hpow, one_div_pow] at h
      have : 0 < c ^ (2 * order) := by positivity
      field_simp at h
      linarith
    intro f hf
    have h := hv f hf
    rw [hk, ← hpow, ← mul_pow, ← harg f hf] at h
    have h4 := h3 f hf
    have : 0 < (if highpass then cutoff / f else f / cutoff) := by
      split <;> positivity
    have : 0 < (if highpass then cutoff / f else f / cutoff) ^ (2 * order) := by positivity
    generalize (if highpass then cutoff / f else f / cutoff) ^ (2 * order) = q at *
    have h5 : ‖G f‖ ^ 2 = ‖H f‖ ^ 2 := by
      rw [h4]
      field_simp
      linarith
    exact (sq_eq_sq₀ (norm_nonneg _) (norm_nonneg _)).1 h5

/-- C119: The squared magnitudes of a lowpass and a highpass Butterworth filter with the same order and cutoff frequency add
up to one. -/
theorem C119_complementary (mem : ℂ) (n : Nat) (cutoff : ℝ) (hc : 0 < cutoff) (order : Nat) (ho : 0 < order) :
    ∃ a b G H, butterworthFilter complexEnv (n + 3) cutoff order false = .ok a ∧
      butterworthFilter complexEnv (n + 3) cutoff order true = .ok b ∧ HasTransfer mem a G ∧ HasTransfer mem b H ∧
      ∀ f, 0 < f → ‖G f‖ ^ 2 + ‖H f‖ ^ 2 = 1 := by
  obtain ⟨a, G, a1, a2, a3⟩ := butterworth_transfer mem n cutoff hc order ho false
  obtain ⟨b, H, b1, b2, b3⟩ := butterworth_transfer mem n cutoff hc order ho true
  refine ⟨a, b, G, H, a1, b1, a2, b2, fun f hf => ?_⟩
  rw [a3 f hf, b3 f hf]
  simp only [Bool.false_eq_true, if_false, if_true]
  rw [← inv_div f cutoff, inv_pow]
  have : 0 < (f / cutoff) ^ (2 * order) := by positivity
  field_simp
  ring

/-- C119 (violation): The documentation says, that Butterworth filters are optimized for a fast transition between the pass
band and the stop band, while maintaining a monotonic magnitude response. There is another filter of the order 3 with a
monotonic magnitude response, that attenuates the cutoff frequency by 3 dB, too, and all frequencies of the stop band
more than the Butterworth filter. -/
theorem C119_transition_violated (mem : ℂ) (n : Nat) (cutoff : ℝ) (hc : 0 < cutoff) :
    ∃ a b G H, butterworthFilter complexEnv (n + 3) cutoff 3 false = .ok a ∧ HasTransfer mem a H ∧ HasTransfer mem b G ∧
      AllPole 3 false G ∧ ‖G cutoff‖ ^ 2 = 1 / 2 ∧ (∀ f g, 0 < f → f < g → ‖G g‖ < ‖G f‖) ∧
      ∀ f, cutoff < f → ‖G f‖ < ‖H f‖ := by
  obtain ⟨a, H, a1, a2, a3⟩ := butterworth_transfer mem n cutoff hc 3 (by norm_num) false
  set k : ℝ := 1 / (2 * Real.pi * cutoff) with hk
  have hpi := Real.pi_pos
  have hk0 : 0 < k := by positivity
  set G : ℝ → ℂ := fun f => 1 / polyval [((81 / 50 * k ^ 3 : ℝ) : ℂ), ((56 / 25 * k ^ 2 : ℝ) : ℂ), ((23 / 10 * k : ℝ) : ℂ), 1]
    (2 * Complex.I * Real.pi * f) with hG
  have hval : ∀ f : ℝ, polyval [((81 / 50 * k ^ 3 : ℝ) : ℂ), ((56 / 25 * k ^ 2 : ℝ) : ℂ), ((23 / 10 * k : ℝ) : ℂ), 1]
      (2 * Complex.I * Real.pi * f) = ((1 - 56 / 25 * (f / cutoff) ^ 2 : ℝ) : ℂ) +
        ((23 / 10 * (f / cutoff) - 81 / 50 * (f / cutoff) ^ 3 : ℝ) : ℂ) * Complex.I := by
    intro f
    have e : (k : ℂ) * (2 * Complex.I * Real.pi * f) = ((f / cutoff : ℝ) : ℂ) * Complex.I := by
      rw [hk]
      have : (cutoff : ℂ) ≠ 0 := by exact_mod_cast hc.ne'
      have : (Real.pi : ℂ) ≠ 0 := by exact_mod_cast hpi.ne'
      push_cast
      field_simp
    have : ∀ σ : ℂ, polyval [((81 / 50 * k ^ 3 : ℝ) : ℂ), ((56 / 25 * k ^ 2 : ℝ) : ℂ), ((23 / 10 * k : ℝ) : ℂ), 1] σ =
        81 / 50 * (k * σ) ^ 3 + 56 / 25 * (k * σ) ^ 2 + 23 / 10 * (k * σ) + 1 := by
      intro σ
      simp [polyval]
      ring
    rw [this, e]
    have hI : Complex.I ^ 2 = -1 := Complex.I_sq
    have hI3 : Complex.I ^ 3 = -Complex.I := Complex.I_pow_three
    push_cast
    rw [mul_pow, mul_pow, hI, hI3]
    ring
  have hnorm : ∀ f : ℝ, ‖polyval [((81 / 50 * k ^ 3 : ℝ) : ℂ), ((56 / 25 * k ^ 2 : ℝ) : ℂ), ((23 / 10 * k : ℝ) : ℂ), 1]
      (2 * Complex.I * Real.pi * f)‖ ^ 2 =
        1 + 81 / 100 * ((f / cutoff) ^ 2) - 1521.5 / 625 * ((f / cutoff) ^ 2) ^ 2 + 6561 / 2500 * ((f / cutoff) ^ 2) ^ 3 := by
    intro f
    rw [hval f, Complex.sq_norm, Complex.normSq_add_mul_I]
    ring
  -- the polynomial increases
  have hinc : ∀ u v : ℝ, 0 ≤ u → u < v → 1 + 81 / 100 * u - 1521.5 / 625 * u ^ 2 + 6561 / 2500 * u ^ 3 <
      1 + 81 / 100 * v - 1521.5 / 625 * v ^ 2 + 6561 / 2500 * v ^ 3 := by
    intro u v hu huv
    have h1 : 0 < 81 / 100 - 1521.5 / 625 * (u + v) + 6561 / 2500 * (u ^ 2 + u * v + v ^ 2) := by
      nlinarith [sq_nonneg (u - v), sq_nonneg (u + v - 0.6184)]
    have h2 : 0 < (v - u) * (81 / 100 - 1521.5 / 625 * (u + v) + 6561 / 2500 * (u ^ 2 + u * v + v ^ 2)) :=
      mul_pos (by linarith) h1
    nlinarith
  have hge : ∀ u : ℝ, 0 ≤ u → 0 < 1 + 81 / 100 * u - 1521.5 / 625 * u ^ 2 + 6561 / 2500 * u ^ 3 := by
    intro u hu
    rcases hu.lt_or_eq with h | h
    · have := hinc 0 u le_rfl h
      norm_num at this ⊢
      linarith
    · rw [← h]
      norm_num
  have hGn : ∀ f : ℝ, ‖G f‖ ^ 2 = 1 /
      (1 + 81 / 100 * ((f / cutoff) ^ 2) - 1521.5 / 625 * ((f / cutoff) ^ 2) ^ 2 + 6561 / 2500 * ((f / cutoff) ^ 2) ^ 3) := by
    intro f
    rw [hG]
    dsimp only
    rw [norm_div, norm_one, div_pow, one_pow, hnorm]
  refine ⟨a, Channels.new [.quotient (.constant 1) (.polynomial [((81 / 50 * k ^ 3 : ℝ) : ℂ), ((56 / 25 * k ^ 2 : ℝ) : ℂ),
    ((23 / 10 * k : ℝ) : ℂ), 1] false) false] ["filter"], G, H, a1, a2, ?_, ?_, ?_, ?_, ?_⟩
  · intro f hf
    rw [call_single mem _ _ f hf.le, if_neg (fun h => hf.ne' h.1)]
    congr 1
    rw [eval_quotient]
    refine ⟨1, _, rfl, ?_, ?_, rfl⟩
    · rw [eval_polynomial]
      exact ⟨_, rfl, rfl⟩
    · intro h
      have h1 := hnorm f
      have h2 := hge ((f / cutoff) ^ 2) (by positivity)
      rw [← h1] at h2
      have h : polyval [((81 / 50 * k ^ 3 : ℝ) : ℂ), ((56 / 25 * k ^ 2 : ℝ) : ℂ), ((23 / 10 * k : ℝ) : ℂ), 1]
        (2 * Complex.I * Real.pi * f) = 0 := h
      rw [h] at h2
      simp at h2
  · refine ⟨1 + C (81 / 100 / cutoff ^ 2) * X + C (-(1521.5 / 625) / cutoff ^ 4) * X ^ 2
      + C (6561 / 2500 / cutoff ^ 6) * X ^ 3, ?_, ?_⟩
    · apply Polynomial.degree_le_of_natDegree_le
      compute_degree!
    · intro f hf
      have h := hge ((f / cutoff) ^ 2) (by positivity)
      rw [hGn]
      simp only [Bool.false_eq_true, if_false, Polynomial.eval_add, Polynomial.eval_one, Polynomial.eval_mul,
        Polynomial.eval_C, Polynomial.eval_pow, Polynomial.eval_X]
      have e : 1 + 81 / 100 / cutoff ^ 2 * f ^ 2 + -(1521.5 / 625) / cutoff ^ 4 * (f ^ 2) ^ 2
          + 6561 / 2500 / cutoff ^ 6 * (f ^ 2) ^ 3 =
          1 + 81 / 100 * ((f / cutoff) ^ 2) - 1521.5 / 625 * ((f / cutoff) ^ 2) ^ 2
            + 6561 / 2500 * ((f / cutoff) ^ 2) ^ 3 := by
        field_simp
        ring
      rw [e, one_div_mul_cancel h.ne']
  · rw [hGn, div_self hc.ne']
    norm_num
  · intro f g hf hfg
    refine lt_of_pow_lt_pow_left₀ 2 (norm_nonneg _) ?_
    rw [hGn, hGn]
    apply one_div_lt_one_div_of_lt (hge _ (by positivity))
    apply hinc _ _ (by positivity)
    gcongr
  · intro f hf
    have hf0 : 0 < f := hc.trans hf
    refine lt_of_pow_lt_pow_left₀ 2 (norm_nonneg _) ?_
    rw [hGn, a3 f hf0]
    simp only [Bool.false_eq_true, if_false]
    apply one_div_lt_one_div_of_lt (by positivity)
    have hu : 1 < (f / cutoff) ^ 2 := by
      have : 1 < f / cutoff := (one_lt_div hc).2 hf
      nlinarith
    rw [show 2 * 3 = 6 from rfl, show (f / cutoff) ^ 6 = ((f / cutoff) ^ 2) ^ 3 by ring]
    generalize (f / cutoff) ^ 2 = u at *
    have : 0 < u * (u - 1) * (1015.25 / 625 * u - 81 / 100) :=
      mul_pos (mul_pos (by linarith) (by linarith)) (by linarith)
    nlinarith

-- the hypotheses of the theorems are satisfiable: the Butterworth filter is one of the filters, with which the Chebyshev
-- filters are compared
example : ∃ (b : Channels ℝ ℂ) (G : ℝ → ℂ), HasTransfer 0 b G ∧ AllPole 4 false G ∧ MaximallyFlat 4 false G ∧
    (∀ f, 0 < f → InPassBand 1000 false f → 1 / 2 ≤ ‖G f‖ ^ 2 ∧ ‖G f‖ ^ 2 ≤ 1) ∧
    ∀ f, 0 < f → InStopBand 1000 false f → ‖G f‖ ^ 2 ≤ 1 / 2 := by
  obtain ⟨b, G, h1, h2, h3, h4, -, -, -⟩ := C119_butterworth 0 0 1000 (by norm_num) 4 (by norm_num) false
  obtain ⟨b', G', h1', h2', h5⟩ := butterworth_transfer 0 0 1000 (by norm_num) 4 (by norm_num) false
  rw [h1] at h1'
  cases h1'
  have e : ∀ f, 0 < f → ‖G f‖ ^ 2 = 1 / (1 + (f / 1000) ^ 8) := by
    intro f hf
    have := (h2 f hf).symm.trans (h2' f hf)
    simp only [List.cons.injEq, Option.some.injEq, and_true] at this
    rw [this, h5 f hf]
    simp
  refine ⟨b, G, h2, h3, h4, ?_, ?_⟩
  · intro f hf hp
    have hp : f ≤ 1000 := hp
    have h0 : 0 < f / 1000 := by positivity
    have : (f / 1000) ^ 8 ≤ 1 := pow_le_one₀ h0.le (by rw [div_le_one (by norm_num)]; exact hp)
    rw [e f hf]
    constructor
    · exact one_div_le_one_div_of_le (by positivity) (by linarith)
    · rw [div_le_one (by positivity)]
      have : 0 < (f / 1000) ^ 8 := by positivity
      linarith
  · intro f hf hp
    have hp : 1000 ≤ f := hp
    have : 1 ≤ (f / 1000) ^ 8 := one_le_pow₀ (by rw [one_le_div (by norm_num)]; exact hp)
    rw [e f hf]
    exact one_div_le_one_div_of_le (by norm_num) (by linarith)

end Filter
end Verif
