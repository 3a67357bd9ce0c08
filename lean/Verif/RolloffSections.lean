import Verif.Rolloff
import Verif.RolloffMath
import Verif.TermProps
import Verif.FilterProps

/-
Filters, that are the inverse of a product of polynomials of first and second order.
-/

namespace Verif
namespace Filter

open Complex (I)

/-! ### products of polynomials -/

theorem anyM_false {β : Type} {p : β → Py Bool} {l : List β} (h : ∀ a ∈ l, p a = .ok false) : anyM p l = .ok false := by
  induction l with
  | nil => rfl
  | cons a l ih =>
    show (p a >>= fun b => if b then .ok true else anyM p l) = _
    rw [h a List.mem_cons_self]
    exact ih fun b hb => h b (List.mem_cons_of_mem _ hb)

/-- polynomials, that are not changed by their factory -/
def Reduced (cs : List ℂ) : Prop := ∃ c d l, cs = c :: d :: l ∧ c ≠ 0

theorem polynomialFactory_reduced {cs : List ℂ} (h : Reduced cs) (tr : Bool) :
    (polynomialFactory cs tr : Term ℝ ℂ) = .polynomial cs tr := by
  obtain ⟨c, d, l, rfl, hc⟩ := h
  simp [polynomialFactory, List.dropWhile_cons, hc]

theorem isZero_reduced {cs : List ℂ} (h : Reduced cs) (n : Nat) (tr : Bool) :
    isZero (n + 1) (.polynomial cs tr : Term ℝ ℂ) = .ok false := by
  obtain ⟨c, d, l, rfl, hc⟩ := h
  simp [isZero, hc]

theorem usesTransformList_all {l : List (Term ℝ ℂ)} {t b : Bool} (hl : l ≠ []) (h : ∀ a ∈ l, usesTransform t a = b) :
    usesTransformList t l = b := by
  induction l with
  | nil => exact absurd rfl hl
  | cons a l ih =>
    rw [usesTransformList, h a List.mem_cons_self]
    by_cases e : l = []
    · subst e
      simp [usesTransformList]
    · rw [ih e fun c hc => h c (List.mem_cons_of_mem _ hc), Bool.or_self]

/-- the product of polynomials, as it is created by its factory. It does not depend on the environment. -/
theorem polyProduct_env (n : Nat) (l : List (List ℂ)) (hl : l ≠ []) (hr : ∀ cs ∈ l, Reduced cs) (tr : Bool) :
    ∃ p : Term ℝ ℂ, (∀ E : Env ℝ ℂ, productFactory E (n + 3) (l.map fun cs => .polynomial cs false) tr = .ok p) ∧
      p.invert = .ok (.quotient (.constant 1) p false) ∧ usesTransform false p = tr ∧
      ∀ E : Env ℝ ℂ, E.Lawful → ∀ f σ, sValue E f tr = some σ →
        eval E f false p = some ((l.map fun cs => polyval cs σ).prod) := by
  have hz : anyM (isZero (n + 2)) (l.map fun cs => (.polynomial cs false : Term ℝ ℂ)) = .ok false := by
    apply anyM_false
    intro a ha
    obtain ⟨cs, hcs, rfl⟩ := List.mem_map.mp ha
    exact isZero_reduced (hr cs hcs) _ _
  have hlen : (l.map fun cs => (.polynomial cs false : Term ℝ ℂ)).length ≠ 0 := by
    simpa using hl
  have key : ∃ p : Term ℝ ℂ, (∀ E : Env ℝ ℂ, productFactory E (n + 3) (l.map fun cs => .polynomial cs false) tr = .ok p) ∧
      p.invert = .ok (.quotient (.constant 1) p false) ∧ usesTransform false p = tr := by
    match l, hl, hr, hz, hlen with
    | [a], _, hr, hz, _ =>
      have ha := hr a List.mem_cons_self
      refine ⟨.polynomial a tr, ?_, rfl, by simp [usesTransform]⟩
      intro E
      show (anyM (isZero (n + 2)) _ >>= _) = _
      rw [hz]
      cases tr with
      | false => rfl
      | true => exact congrArg Except.ok (polynomialFactory_reduced ha true)
    | [a, b], _, hr, hz, _ =>
      have ha := hr a List.mem_cons_self
      have hb := hr b (List.mem_cons_of_mem _ List.mem_cons_self)
      refine ⟨.product [.polynomial a tr, .polynomial b tr] false, ?_, rfl, by
        simp [usesTransform, usesTransformList]⟩
      intro E
      show (anyM (isZero (n + 2)) _ >>= _) = _
      rw [hz]
      cases tr with
      | false => rfl
      | true =>
        show mul E (n + 2) (polynomialFactory a true) (polynomialFactory b true) = _
        rw [polynomialFactory_reduced ha, polynomialFactory_reduced hb]
        rfl
    | a :: b :: c :: l, _, hr, hz, _ =>
      refine ⟨.product ((a :: b :: c :: l).map fun cs => .polynomial cs false) tr, ?_, rfl, ?_⟩
      · intro E
        show (anyM (isZero (n + 2)) _ >>= _) = _
        rw [hz]
        rfl
      · rw [usesTransform, usesTransformList_all (b := tr) (by simp)]
        · simp
        · intro x hx
          obtain ⟨cs, _, rfl⟩ := List.mem_map.mp hx
          cases tr <;> rfl
  obtain ⟨p, h1, h2, h3⟩ := key
  refine ⟨p, h1, h2, h3, ?_⟩
  intro E hE f σ hσ
  refine ((sound hE (n + 3)).prodF false _ tr p ?_ (by simp) (h1 E)).2 f false _ ?_
  · intro a ha
    obtain ⟨cs, hcs, rfl⟩ := List.mem_map.mp ha
    obtain ⟨c, d, l', rfl, _⟩ := hr cs hcs
    exact .polynomial _ _ (by simp) (by simp)
  · rw [eval_product E f false tr (by simpa using hl)]
    refine ⟨_, ?_, rfl⟩
    clear h1 h2 h3 hz hlen hl
    induction l with
    | nil => exact .nil
    | cons a l ih =>
      refine .cons ?_ (ih fun cs hcs => hr cs (List.mem_cons_of_mem _ hcs))
      rw [eval_polynomial]
      exact ⟨σ, by simpa using hσ, rfl⟩

@[inherit_doc polyProduct_env]
theorem polyProduct (E : Env ℝ ℂ) (hE : E.Lawful) (n : Nat) (l : List (List ℂ)) (hl : l ≠ []) (hr : ∀ cs ∈ l, Reduced cs)
    (tr : Bool) :
    ∃ p, productFactory E (n + 3) (l.map fun cs => .polynomial cs false) tr = .ok p ∧
      p.invert = .ok (.quotient (.constant 1) p false) ∧ usesTransform false p = tr ∧
      ∀ f σ, sValue E f tr = some σ → eval E f false p = some ((l.map fun cs => polyval cs σ).prod) := by
  obtain ⟨p, h1, h2, h3, h4⟩ := polyProduct_env n l hl hr tr
  exact ⟨p, h1 E, h2, h3, h4 E hE⟩

/-! ### the frequency scaling -/

/-- the frequency relative to the cutoff frequency, as it is seen by the prototype filter -/
noncomputable def relative (cutoff : ℝ) (highpass : Bool) (f : ℝ) : ℝ := if highpass then -(cutoff / f) else f / cutoff

theorem scaling_ok {cutoff : ℝ} (hc : 0 < cutoff) (highpass : Bool) :
    ∃ k, frequencyScaling cutoff highpass = .ok k ∧ k ≠ 0 ∧ ∀ f, (highpass = true → f ≠ 0) →
      ∃ σ, sValue complexEnv f highpass = some σ ∧ (k : ℂ) * σ = I * relative cutoff highpass f := by
  have hp : (0 : ℝ) < 2 * Real.pi * cutoff := by positivity
  have hpc : (Real.pi : ℂ) ≠ 0 := by exact_mod_cast Real.pi_ne_zero
  have hcc : (cutoff : ℂ) ≠ 0 := by exact_mod_cast hc.ne'
  cases highpass with
  | false =>
    refine ⟨1 / (2 * Real.pi * cutoff), ?_, by positivity, ?_⟩
    · unfold frequencyScaling
      rw [if_neg (by simp), if_neg hp.ne']
    · intro f _
      refine ⟨complexEnv.s f, rfl, ?_⟩
      show _ * (2 * I * Real.pi * f) = I * ((f / cutoff : ℝ) : ℂ)
      push_cast
      field_simp
  | true =>
    refine ⟨2 * Real.pi * cutoff, rfl, hp.ne', ?_⟩
    intro f hf
    have hfc : (f : ℂ) ≠ 0 := by exact_mod_cast hf rfl
    have hs : complexEnv.s f = 2 * I * Real.pi * f := rfl
    have h0 : complexEnv.s f ≠ 0 := by
      rw [hs]
      simp [hpc, hfc, Complex.I_ne_zero]
    refine ⟨(complexEnv.s f)⁻¹, by simp [sValue, h0], ?_⟩
    rw [hs]
    show _ = I * ((-(cutoff / f) : ℝ) : ℂ)
    push_cast
    field_simp
    rw [Complex.I_sq, neg_neg]

/-! ### sections of first and second order -/

/-- the coefficients of the sections of a filter, where the sections of second order depend on the angle of the pole -/
noncomputable def sections (A B : ℝ → ℝ) (c k : ℝ) (order : Nat) : List (List ℝ) :=
  if order % 2 = 0 then
    (List.range (order / 2)).map fun (j : Nat) =>
      [A ((2 * j + 1) * Real.pi / (2 * order)) * k ^ 2, B ((2 * j + 1) * Real.pi / (2 * order)) * k, 1]
  else
    [c * k, 1] :: (List.range (order / 2)).map fun (j : Nat) =>
      [A ((j + 1) * Real.pi / order) * k ^ 2, B ((j + 1) * Real.pi / order) * k, 1]

theorem realPolynomial_reduced {cs : List ℝ} (h : Reduced (cs.map fun (c : ℝ) => (c : ℂ))) :
    realPolynomial cs = .polynomial (cs.map fun (c : ℝ) => (c : ℂ)) false := polynomialFactory_reduced h false

theorem prod_list_range (m : Nat) (F : Nat → ℂ) : ((List.range m).map F).prod = ∏ k ∈ Finset.range m, F k := by
  induction m with
  | zero => rfl
  | succ m ih => rw [List.range_succ, List.map_append, List.prod_append, ih, Finset.prod_range_succ]; simp

/-- the squared magnitude of a section of second order -/
theorem section_two (a b k u : ℝ) (σ : ℂ) (h : (k : ℂ) * σ = I * u) :
    ((‖polyval [((a * k ^ 2 : ℝ) : ℂ), ((b * k : ℝ) : ℂ), 1] σ‖ ^ 2 : ℝ) : ℂ) =
      (1 - a * u ^ 2) ^ 2 + (b * u) ^ 2 := by
  have e : polyval [((a * k ^ 2 : ℝ) : ℂ), ((b * k : ℝ) : ℂ), 1] σ = ⟨1 - a * u ^ 2, b * u⟩ := by
    simp only [polyval, List.foldl]
    push_cast
    have : (0 * σ + a * k ^ 2 : ℂ) * σ * σ = a * (k * σ) ^ 2 := by ring
    rw [show ((0 * σ + a * k ^ 2 : ℂ) * σ + b * k) * σ + 1 = a * (k * σ) ^ 2 + b * (k * σ) + 1 by ring, h, mul_pow,
      Complex.I_sq]
    apply Complex.ext <;> simp [← Complex.ofReal_pow]
    ring
  rw [e, Complex.sq_norm, Complex.normSq_mk]
  push_cast
  ring

theorem section_one (c k u : ℝ) (σ : ℂ) (h : (k : ℂ) * σ = I * u) :
    ((‖polyval [((c * k : ℝ) : ℂ), 1] σ‖ ^ 2 : ℝ) : ℂ) = 1 + (c * u) ^ 2 := by
  have e : polyval [((c * k : ℝ) : ℂ), 1] σ = ⟨1, c * u⟩ := by
    simp only [polyval, List.foldl]
    push_cast
    rw [show (0 * σ + c * k : ℂ) * σ + 1 = c * (k * σ) + 1 by ring, h]
    apply Complex.ext <;> simp
  rw [e, Complex.sq_norm, Complex.normSq_mk]
  push_cast
  ring

/-- the angles of the poles in the sections of second order are in the first quadrant -/
theorem angle_even {order j : Nat} (h : j < order / 2) :
    0 < (2 * j + 1) * Real.pi / (2 * order) ∧ (2 * j + 1) * Real.pi / (2 * order) < Real.pi / 2 := by
  have ho : (0 : ℝ) < order := by exact_mod_cast (by omega : 0 < order)
  have hj : (2 * j + 1 : ℝ) < order := by exact_mod_cast (by omega : 2 * j + 1 < order)
  have hp := Real.pi_pos
  constructor
  · positivity
  · rw [div_lt_div_iff₀ (by positivity) (by norm_num)]
    nlinarith

theorem angle_odd {order j : Nat} (h : j < order / 2) :
    0 < (j + 1) * Real.pi / order ∧ (j + 1) * Real.pi / order < Real.pi / 2 ∨ order % 2 = 0 := by
  by_cases he : order % 2 = 0
  · exact .inr he
  · left
    have ho : (0 : ℝ) < order := by exact_mod_cast (by omega : 0 < order)
    have hj : (2 * (j + 1) : ℝ) < order := by exact_mod_cast (by omega : 2 * (j + 1) < order)
    have hp := Real.pi_pos
    constructor
    · positivity
    · rw [div_lt_div_iff₀ (by positivity) (by norm_num)]
      nlinarith

/-- the product of the squared magnitudes of the sections -/
theorem sections_norm (A B : ℝ → ℝ) (c k u : ℝ) (order : Nat) (ho : 0 < order) (σ : ℂ) (h : (k : ℂ) * σ = I * u)
    (F : ℝ → ℂ) (hF : ∀ θ, 0 < θ → θ < Real.pi / 2 → F θ * F (-θ) = (1 - A θ * u ^ 2) ^ 2 + (B θ * u) ^ 2)
    (hF0 : F 0 = 1 + (c * u) ^ 2) :
    ((‖((sections A B c k order).map fun cs => polyval (cs.map fun (c : ℝ) => (c : ℂ)) σ).prod‖ ^ 2 : ℝ) : ℂ) =
      ∏ j ∈ Finset.range order, F (poleAngle order j) := by
  have two : ∀ (g : Nat → ℝ) (m : Nat), (∀ j < m, 0 < g j ∧ g j < Real.pi / 2) →
      (((‖(((List.range m).map fun (j : Nat) => [A (g j) * k ^ 2, B (g j) * k, 1]).map
        fun cs => polyval (cs.map fun (c : ℝ) => (c : ℂ)) σ).prod‖ ^ 2 : ℝ) : ℂ) =
          ∏ j ∈ Finset.range m, (F (g j) * F (-(g j)))) := by
    intro g m hg
    rw [List.map_map, prod_list_range, norm_prod, ← Finset.prod_pow, Complex.ofReal_prod]
    refine Finset.prod_congr rfl fun j hj => ?_
    obtain ⟨g1, g2⟩ := hg j (Finset.mem_range.mp hj)
    rw [hF _ g1 g2, ← section_two (A (g j)) (B (g j)) k u σ h]
    simp
  unfold sections
  split
  · next he =>
    obtain ⟨m, rfl⟩ : ∃ m, order = 2 * m := ⟨order / 2, by omega⟩
    rw [two (fun j => (2 * j + 1) * Real.pi / (2 * (2 * m : Nat))) _ fun j hj => angle_even hj,
      prod_pairs_even m (by omega), show 2 * m / 2 = m by omega]
  · next he =>
    obtain ⟨m, rfl⟩ : ∃ m, order = 2 * m + 1 := ⟨order / 2, by omega⟩
    rw [List.map_cons, List.prod_cons, norm_mul, mul_pow, Complex.ofReal_mul,
      two (fun j => (j + 1) * Real.pi / (2 * m + 1 : Nat)) _ fun j hj => (angle_odd hj).resolve_right he,
      prod_pairs_odd m, hF0, ← section_one c k u σ h, show (2 * m + 1) / 2 = m by omega]
    simp

/-- a filter, that is the inverse of the product of its sections -/
theorem sections_filter (n : Nat) (A B : ℝ → ℝ) (c k : ℝ) (order : Nat) (ho : 0 < order) (hk : k ≠ 0) (hc : c ≠ 0)
    (hA : ∀ θ, 0 < θ → θ < Real.pi / 2 → A θ ≠ 0) (highpass : Bool) :
    ∃ t, (productFactory complexEnv (n + 3) ((sections A B c k order).map realPolynomial) highpass >>=
        fun p => p.invert) = .ok t ∧ usesTransform false t = highpass ∧
      ∀ f σ, sValue complexEnv f highpass = some σ → ∀ u : ℝ, (k : ℂ) * σ = I * u → ∀ F : ℝ → ℂ,
        (∀ θ, 0 < θ → θ < Real.pi / 2 → F θ * F (-θ) = (1 - A θ * u ^ 2) ^ 2 + (B θ * u) ^ 2) →
        F 0 = 1 + (c * u) ^ 2 → ∀ r : ℝ, ∏ j ∈ Finset.range order, F (poleAngle order j) = r → r ≠ 0 →
        ∃ x, eval complexEnv f false t = some x ∧ ‖x‖ ^ 2 = 1 / r := by
  have red : ∀ cs ∈ sections A B c k order, Reduced (cs.map fun (c : ℝ) => (c : ℂ)) := by
    have two : ∀ θ, 0 < θ → θ < Real.pi / 2 → Reduced (([A θ * k ^ 2, B θ * k, 1]).map fun (c : ℝ) => (c : ℂ)) := by
      intro θ h1 h2
      refine ⟨_, _, _, rfl, ?_⟩
      exact Complex.ofReal_ne_zero.mpr (mul_ne_zero (hA θ h1 h2) (pow_ne_zero _ hk))
    intro cs hcs
    unfold sections at hcs
    split at hcs
    · obtain ⟨j, hj, rfl⟩ := List.mem_map.mp hcs
      obtain ⟨a1, a2⟩ := angle_even (List.mem_range.mp hj)
      exact two _ a1 a2
    · next he =>
      rcases List.mem_cons.mp hcs with rfl | hcs
      · refine ⟨_, _, _, rfl, ?_⟩
        exact Complex.ofReal_ne_zero.mpr (mul_ne_zero hc hk)
      · obtain ⟨j, hj, rfl⟩ := List.mem_map.mp hcs
        obtain ⟨a1, a2⟩ := (angle_odd (List.mem_range.mp hj)).resolve_right he
        exact two _ a1 a2
  have ne : sections A B c k order ≠ [] := by
    unfold sections
    split
    · simp; omega
    · simp
  have e : (sections A B c k order).map realPolynomial =
      ((sections A B c k order).map fun cs => cs.map fun (c : ℝ) => (c : ℂ)).map fun cs => .polynomial cs false := by
    rw [List.map_map]
    exact List.map_congr_left fun cs hcs => realPolynomial_reduced (red cs hcs)
  rw [e]
  obtain ⟨p, h1, h2, h3, h4⟩ := polyProduct complexEnv complexEnv_lawful n
    ((sections A B c k order).map fun cs => cs.map fun (c : ℝ) => (c : ℂ)) (by simpa using ne)
    (by
      intro cs hcs
      obtain ⟨cs', h, rfl⟩ := List.mem_map.mp hcs
      exact red cs' h) highpass
  refine ⟨.quotient (.constant 1) p false, ?_, ?_, ?_⟩
  · rw [h1]
    exact h2
  · simp [usesTransform, h3]
  · intro f σ hσ u hu F hF hF0 r hr hr0
    have hv := h4 f σ hσ
    rw [List.map_map] at hv
    have hn := sections_norm A B c k u order ho σ hu F hF hF0
    rw [hr] at hn
    have hn := Complex.ofReal_injective hn
    set P := ((sections A B c k order).map fun cs => polyval (cs.map fun (c : ℝ) => (c : ℂ)) σ).prod with hP
    have hP0 : P ≠ 0 := by
      intro h
      rw [h] at hn
      simp at hn
      exact hr0 hn.symm
    refine ⟨1 / P, ?_, ?_⟩
    · rw [eval_quotient]
      exact ⟨1, P, rfl, hv, hP0, rfl⟩
    · rw [norm_div, div_pow, hn]
      simp

end Filter
end Verif
