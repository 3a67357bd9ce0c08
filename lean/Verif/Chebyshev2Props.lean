import Verif.RolloffProps
import Mathlib.Topology.Algebra.Polynomial

/-
C63: the magnitude of Chebyshev filters of type 2.
-/

namespace Verif
namespace Filter

open Complex (I)

/-! ### products of quotients -/

/-- the enumerators of the factors of a Chebyshev filter of type 2 -/
def Enumerator (a : Term ℝ ℂ) : Prop := (∃ v, v ≠ 0 ∧ a = .constant v) ∨ ∃ cs, Reduced cs ∧ a = .polynomial cs false

theorem isZero_enumerator {a : Term ℝ ℂ} (h : Enumerator a) (n : Nat) : isZero (n + 1) a = .ok false := by
  rcases h with ⟨v, hv, rfl⟩ | ⟨cs, hcs, rfl⟩
  · simp [isZero, hv]
  · exact isZero_reduced hcs n false

/-- the factor, that consists of an enumerator and the coefficients of a denominator -/
def fraction (tr : Bool) (p : Term ℝ ℂ × List ℂ) : Term ℝ ℂ := .quotient p.1 (.polynomial p.2 false) tr

theorem invertTransform_fraction (E : Env ℝ ℂ) (n : Nat) (p : Term ℝ ℂ × List ℂ) (h : Enumerator p.1)
    (hne : p.1 ≠ .polynomial p.2 false) : invertTransform E (n + 2) (fraction false p) = .ok (fraction true p) := by
  show (isZero (n + 1) p.1 >>= _) = _
  rw [isZero_enumerator h]
  show (termEq (n + 1) p.1 (.polynomial p.2 false) >>= _) = _
  have : termEq (n + 1) p.1 (.polynomial p.2 false) = .ok false := by
    rcases h with ⟨v, hv, e⟩ | ⟨cs, hcs, e⟩
    · rw [e]
      simp [termEq, hv, constantEq]
    · rw [e] at hne ⊢
      have : cs ≠ p.2 := fun h => hne (by rw [h])
      simp [termEq, this]
  rw [this]
  rfl

theorem usesTransform_fraction (t tr : Bool) (p : Term ℝ ℂ × List ℂ) (h : Enumerator p.1) :
    usesTransform t (fraction tr p) = (t ^^ tr) := by
  rcases h with ⟨v, hv, e⟩ | ⟨cs, hcs, e⟩ <;> simp [fraction, usesTransform, e]

theorem fractionProduct_env (n : Nat) (l : List (Term ℝ ℂ × List ℂ)) (hl : l ≠ [])
    (h1 : ∀ p ∈ l, Enumerator p.1) (h2 : ∀ p ∈ l, p.2 ≠ []) (h3 : ∀ p ∈ l, p.1 ≠ .polynomial p.2 false) (tr : Bool) :
    ∃ t : Term ℝ ℂ, (∀ E : Env ℝ ℂ, productFactory E (n + 4) (l.map (fraction false)) tr = .ok t) ∧ usesTransform false t = tr ∧
      ∀ E : Env ℝ ℂ, E.Lawful → ∀ f vs, List.Forall₂ (fun p x => eval E f tr (fraction false p) = some x) l vs →
        eval E f false t = some vs.prod := by
  have hz : anyM (isZero (n + 3)) (l.map (fraction false)) = .ok false := by
    apply anyM_false
    intro a ha
    obtain ⟨p, hp, rfl⟩ := List.mem_map.mp ha
    exact isZero_enumerator (h1 p hp) (n + 1)
  have key : ∃ t : Term ℝ ℂ, (∀ E : Env ℝ ℂ, productFactory E (n + 4) (l.map (fraction false)) tr = .ok t) ∧
      usesTransform false t = tr := by
    match l, hl, h1, h3, hz with
    | [a], _, h1, h3, hz =>
      have ha := h1 a List.mem_cons_self
      refine ⟨fraction tr a, ?_, by simp [usesTransform_fraction _ _ _ ha]⟩
      intro E
      show (anyM (isZero (n + 3)) _ >>= _) = _
      rw [hz]
      cases tr with
      | false => rfl
      | true => exact invertTransform_fraction E (n + 1) a ha (h3 a List.mem_cons_self)
    | [a, b], _, h1, h3, hz =>
      have ha := h1 a List.mem_cons_self
      have hb := h1 b (List.mem_cons_of_mem _ List.mem_cons_self)
      refine ⟨.product [fraction tr a, fraction tr b] false, ?_, by
        simp [usesTransform, usesTransformList, usesTransform_fraction _ _ _ ha, usesTransform_fraction _ _ _ hb]⟩
      intro E
      show (anyM (isZero (n + 3)) _ >>= _) = _
      rw [hz]
      cases tr with
      | false => rfl
      | true =>
        show (invertTransform E (n + 3) (fraction false a) >>= _) = _
        rw [invertTransform_fraction E (n + 1) a ha (h3 a List.mem_cons_self)]
        show (invertTransform E (n + 3) (fraction false b) >>= _) = _
        rw [invertTransform_fraction E (n + 1) b hb (h3 b (List.mem_cons_of_mem _ List.mem_cons_self))]
        rfl
    | a :: b :: c :: l, _, h1, _, hz =>
      refine ⟨.product ((a :: b :: c :: l).map (fraction false)) tr, ?_, ?_⟩
      · intro E
        show (anyM (isZero (n + 3)) _ >>= _) = _
        rw [hz]
        rfl
      · rw [usesTransform, usesTransformList_all (b := tr) (by simp)]
        · simp
        · intro x hx
          obtain ⟨p, hp, rfl⟩ := List.mem_map.mp hx
          rw [usesTransform_fraction _ _ _ (h1 p hp)]
          simp
  obtain ⟨t, k1, k2⟩ := key
  refine ⟨t, k1, k2, ?_⟩
  intro E hE f vs hvs
  refine ((sound hE (n + 4)).prodF false _ tr t ?_ (by simp) (k1 E)).2 f false _ ?_
  · intro a ha
    obtain ⟨p, hp, rfl⟩ := List.mem_map.mp ha
    refine .quotient _ _ _ ?_ (.polynomial _ _ (h2 p hp) (by simp)) (by simp)
    rcases h1 p hp with ⟨v, hv, e⟩ | ⟨cs, ⟨c, d, cs', rfl, _⟩, e⟩
    · rw [e]
      exact .constant _
    · rw [e]
      exact .polynomial _ _ (by simp) (by simp)
  · rw [eval_product E f false tr (by simpa using hl)]
    refine ⟨vs, ?_, rfl⟩
    rw [List.forall₂_map_left_iff]
    simpa using hvs

theorem fractionProduct (E : Env ℝ ℂ) (hE : E.Lawful) (n : Nat) (l : List (Term ℝ ℂ × List ℂ)) (hl : l ≠ [])
    (h1 : ∀ p ∈ l, Enumerator p.1) (h2 : ∀ p ∈ l, p.2 ≠ []) (h3 : ∀ p ∈ l, p.1 ≠ .polynomial p.2 false) (tr : Bool) :
    ∃ t, productFactory E (n + 4) (l.map (fraction false)) tr = .ok t ∧ usesTransform false t = tr ∧
      ∀ f vs, List.Forall₂ (fun p x => eval E f tr (fraction false p) = some x) l vs →
        eval E f false t = some vs.prod := by
  obtain ⟨t, k1, k2, k3⟩ := fractionProduct_env n l hl h1 h2 h3 tr
  exact ⟨t, k1 E, k2, k3 E hE⟩

/-! ### the factors of the filter -/

/-- the enumerator and the denominator of a section of second order -/
noncomputable def section2 (k g θ : ℝ) : Term ℝ ℂ × List ℂ :=
  (.polynomial ([Real.sin θ ^ 2 * k ^ 2, 0 * k, 1].map fun (c : ℝ) => (c : ℂ)) false,
    [(Real.cosh g ^ 2 - Real.cos θ ^ 2) * k ^ 2, 2 * Real.sinh g * Real.cos θ * k, 1].map fun (c : ℝ) => (c : ℂ))

theorem factor_ok {k g pb2o : ℝ} {i : Int} (hk : k ≠ 0) (hg : g ≠ 0) (h0 : 0 < i * pb2o) (h1 : i * pb2o < Real.pi / 2) :
    chebyshev2Factor k (Real.sinh g) (Real.cosh g) pb2o i = .ok (fraction false (section2 k g (i * pb2o))) := by
  unfold chebyshev2Factor
  dsimp only
  have ew : Complex.exp (I * i * pb2o) = ⟨Real.cos (i * pb2o), Real.sin (i * pb2o)⟩ := by
    rw [show (I * i * pb2o : ℂ) = ((i * pb2o : ℝ) : ℂ) * I by push_cast; ring]
    apply Complex.ext
    · rw [Complex.exp_ofReal_mul_I_re]
    · rw [Complex.exp_ofReal_mul_I_im]
  rw [ew]
  set θ := (i * pb2o : ℝ) with hθ
  have hs : 0 < Real.sin θ := Real.sin_pos_of_pos_of_lt_pi h0 (by linarith [Real.pi_pos])
  have hc : 0 < Real.cos θ := Real.cos_pos_of_mem_Ioo ⟨by linarith, h1⟩
  have hD : 0 < Real.cosh g ^ 2 - Real.cos θ ^ 2 := cosh_gt hg
  have eq : ((Real.sinh g : ℂ) * (-(⟨Real.cos θ, Real.sin θ⟩ : ℂ)).re + I * (Real.cosh g : ℝ) *
      (-(⟨Real.cos θ, Real.sin θ⟩ : ℂ)).im) = ⟨-(Real.sinh g * Real.cos θ), -(Real.cosh g * Real.sin θ)⟩ := by
    generalize Real.sinh g = a
    generalize Real.cosh g = b
    generalize Real.cos θ = c
    generalize Real.sin θ = d
    apply Complex.ext <;> simp
  rw [eq]
  have hN : Complex.normSq ⟨-(Real.sinh g * Real.cos θ), -(Real.cosh g * Real.sin θ)⟩ =
      Real.cosh g ^ 2 - Real.cos θ ^ 2 := by
    rw [Complex.normSq_mk]
    have e1 := Real.cosh_sq g
    have e2 := Real.sin_sq_add_cos_sq θ
    linear_combination (Real.cosh g) ^ 2 * e2 - Real.cos θ ^ 2 * e1
  set q : ℂ := ⟨-(Real.sinh g * Real.cos θ), -(Real.cosh g * Real.sin θ)⟩ with hq
  have np : ‖1 / q / (k : ℂ)‖ ^ 2 = 1 / ((Real.cosh g ^ 2 - Real.cos θ ^ 2) * k ^ 2) := by
    rw [norm_div, norm_div, div_pow, div_pow, Complex.sq_norm q, hN, Complex.norm_real, Real.norm_eq_abs, sq_abs]
    simp
    ring
  have rp : (1 / q / (k : ℂ)).re = -(Real.sinh g * Real.cos θ) / ((Real.cosh g ^ 2 - Real.cos θ ^ 2) * k) := by
    rw [Complex.div_ofReal_re, one_div, Complex.inv_re, hN]
    show -(Real.sinh g * Real.cos θ) / _ / k = _
    rw [div_div]
  have nz : ‖I / ((Real.sin θ : ℝ) : ℂ) / (k : ℂ)‖ ^ 2 = 1 / (Real.sin θ ^ 2 * k ^ 2) := by
    rw [norm_div, norm_div, Complex.norm_I, Complex.norm_real, Complex.norm_real, Real.norm_eq_abs, Real.norm_eq_abs,
      div_pow, div_pow, sq_abs, sq_abs]
    rw [div_div]
    simp
  have rz : (I / ((Real.sin θ : ℝ) : ℂ) / (k : ℂ)).re = 0 := by
    rw [Complex.div_ofReal_re, Complex.div_ofReal_re]
    simp
  rw [np, rp, nz, rz]
  have c1 : 1 / (1 / (Real.sin θ ^ 2 * k ^ 2)) = Real.sin θ ^ 2 * k ^ 2 := one_div_one_div _
  have c2 : 2 * (0 : ℝ) / (1 / (Real.sin θ ^ 2 * k ^ 2)) = 0 * k := by simp
  have c3 : 1 / (1 / ((Real.cosh g ^ 2 - Real.cos θ ^ 2) * k ^ 2)) = (Real.cosh g ^ 2 - Real.cos θ ^ 2) * k ^ 2 :=
    one_div_one_div _
  have c4 : -2 * (-(Real.sinh g * Real.cos θ) / ((Real.cosh g ^ 2 - Real.cos θ ^ 2) * k)) /
      (1 / ((Real.cosh g ^ 2 - Real.cos θ ^ 2) * k ^ 2)) = 2 * Real.sinh g * Real.cos θ * k := by
    have := hD.ne'
    field_simp
  rw [c1, c2, c3, c4]
  rw [realPolynomial_reduced, realPolynomial_reduced]
  · rfl
  · refine ⟨_, _, _, rfl, Complex.ofReal_ne_zero.mpr ?_⟩
    positivity
  · refine ⟨_, _, _, rfl, Complex.ofReal_ne_zero.mpr ?_⟩
    positivity

theorem mapM_map_ok {β γ δ : Type} {g : γ → Py δ} {h : β → γ} {r : β → δ} {l : List β}
    (H : ∀ a ∈ l, g (h a) = .ok (r a)) : (l.map h).mapM g = .ok (l.map r) := by
  induction l with
  | nil => rfl
  | cons a l ih =>
    rw [List.map_cons, List.mapM_cons, H a List.mem_cons_self, ih fun b hb => H b (List.mem_cons_of_mem _ hb)]
    rfl

theorem range_two (m : Nat) (a b : Int) (h : b - a = 2 * m ∨ b - a = 2 * m - 1) :
    pyRange a b 2 = (List.range m).map fun (j : Nat) => a + j * 2 := by
  unfold pyRange
  rw [if_pos (by omega), show ((b - a + 2 - 1) / 2).toNat = m by omega]

/-- the factors of the filter as pairs of enumerators and denominators -/
noncomputable def sections2 (k g : ℝ) (order : Nat) : List (Term ℝ ℂ × List ℂ) :=
  if order % 2 = 0 then
    (List.range (order / 2)).map fun (j : Nat) => section2 k g ((2 * j + 1) * Real.pi / (2 * order))
  else
    (.constant 1, [Real.sinh g * k, 1].map fun (c : ℝ) => (c : ℂ)) ::
      (List.range (order / 2)).map fun (j : Nat) => section2 k g ((j + 1) * Real.pi / order)

theorem chebyshev2_factors (k g : ℝ) (hk : k ≠ 0) (hg : g ≠ 0) (order : Nat) :
    (if order % 2 = 0 then
        (pyRange 1 order 2).mapM (chebyshev2Factor k (Real.sinh g) (Real.cosh g) (Real.pi / (2 * order)))
      else
        div (.constant 1) (realPolynomial [Real.sinh g * k, 1]) >>= fun first =>
          (pyRange 2 order 2).mapM (chebyshev2Factor k (Real.sinh g) (Real.cosh g) (Real.pi / (2 * order))) >>=
            fun l => .ok (first :: l)) =
      .ok ((sections2 k g order).map (fraction false)) := by
  unfold sections2
  split
  · rw [range_two (order / 2) _ _ (by omega), mapM_map_ok (r := fun (j : Nat) =>
      fraction false (section2 k g ((2 * j + 1) * Real.pi / (2 * order)))), List.map_map]
    · rfl
    · intro j hj
      obtain ⟨a1, a2⟩ := angle_even (List.mem_range.mp hj)
      have e : (((1 + j * 2 : Int)) : ℝ) * (Real.pi / (2 * order)) = (2 * j + 1) * Real.pi / (2 * order) := by
        push_cast
        ring
      rw [factor_ok hk hg (by rw [e]; exact a1) (by rw [e]; exact a2), e]
  · next ho =>
    have hs : Real.sinh g ≠ 0 := Real.sinh_ne_zero.mpr hg
    rw [realPolynomial_reduced ⟨_, _, _, rfl, Complex.ofReal_ne_zero.mpr (mul_ne_zero hs hk)⟩]
    have first : div (.constant 1) (.polynomial ([Real.sinh g * k, 1].map fun (c : ℝ) => (c : ℂ)) false : Term ℝ ℂ) =
        .ok (fraction false (.constant 1, [Real.sinh g * k, 1].map fun (c : ℝ) => (c : ℂ))) := by
      simp [div, fraction]
    rw [first, range_two (order / 2) _ _ (by omega), mapM_map_ok (r := fun (j : Nat) =>
      fraction false (section2 k g ((j + 1) * Real.pi / order)))]
    · show Except.ok _ = Except.ok _
      rw [List.map_cons (f := fraction false), List.map_map]
      rfl
    · intro j hj
      obtain ⟨a1, a2⟩ := (angle_odd (List.mem_range.mp hj)).resolve_right ho
      have e : (((2 + j * 2 : Int)) : ℝ) * (Real.pi / (2 * order)) = (j + 1) * Real.pi / order := by
        push_cast
        field_simp
        ring
      rw [factor_ok hk hg (by rw [e]; exact a1) (by rw [e]; exact a2), e]

theorem sections2_mem {k g : ℝ} (hk : k ≠ 0) (hg : 0 < g) {order : Nat} {p : Term ℝ ℂ × List ℂ}
    (hp : p ∈ sections2 k g order) : Enumerator p.1 ∧ p.2 ≠ [] ∧ p.1 ≠ .polynomial p.2 false := by
  have two : ∀ θ, 0 < θ → θ < Real.pi / 2 → Enumerator (section2 k g θ).1 ∧ (section2 k g θ).2 ≠ [] ∧
      (section2 k g θ).1 ≠ .polynomial (section2 k g θ).2 false := by
    intro θ h0 h1
    have hs : 0 < Real.sin θ := Real.sin_pos_of_pos_of_lt_pi h0 (by linarith [Real.pi_pos])
    have hc : 0 < Real.cos θ := Real.cos_pos_of_mem_Ioo ⟨by linarith, h1⟩
    have hsh : 0 < Real.sinh g := Real.sinh_pos_iff.mpr hg
    refine ⟨.inr ⟨_, ⟨_, _, _, rfl, Complex.ofReal_ne_zero.mpr ?_⟩, rfl⟩, by simp [section2], ?_⟩
    · positivity
    · intro h
      simp only [section2, List.map, Term.polynomial.injEq, List.cons.injEq] at h
      have h2 := Complex.ofReal_injective h.1.2.1
      have : (0 : ℝ) ≠ 2 * Real.sinh g * Real.cos θ * k := (mul_ne_zero (by positivity) hk).symm
      exact this (by linarith)
  unfold sections2 at hp
  split at hp
  · obtain ⟨j, hj, rfl⟩ := List.mem_map.mp hp
    obtain ⟨a1, a2⟩ := angle_even (List.mem_range.mp hj)
    exact two _ a1 a2
  · next ho =>
    rcases List.mem_cons.mp hp with rfl | hp
    · exact ⟨.inl ⟨1, one_ne_zero, rfl⟩, by simp, by simp⟩
    · obtain ⟨j, hj, rfl⟩ := List.mem_map.mp hp
      obtain ⟨a1, a2⟩ := (angle_odd (List.mem_range.mp hj)).resolve_right ho
      exact two _ a1 a2

/-- the values of the factors -/
theorem sections2_values (E : Env ℝ ℂ) (k g : ℝ) (order : Nat) (f : ℝ) (highpass : Bool) (σ : ℂ)
    (hσ : sValue E f highpass = some σ)
    (hne : ((sections (fun θ => Real.cosh g ^ 2 - Real.cos θ ^ 2) (fun θ => 2 * Real.sinh g * Real.cos θ) (Real.sinh g) k
      order).map fun cs => polyval (cs.map fun (c : ℝ) => (c : ℂ)) σ).prod ≠ 0) :
    ∃ vs, List.Forall₂ (fun p x => eval E f highpass (fraction false p) = some x) (sections2 k g order) vs ∧
      vs.prod = ((sections (fun θ => Real.sin θ ^ 2) (fun _ => 0) 0 k
          order).map fun cs => polyval (cs.map fun (c : ℝ) => (c : ℂ)) σ).prod /
        ((sections (fun θ => Real.cosh g ^ 2 - Real.cos θ ^ 2) (fun θ => 2 * Real.sinh g * Real.cos θ) (Real.sinh g) k
          order).map fun cs => polyval (cs.map fun (c : ℝ) => (c : ℂ)) σ).prod := by
  have poly : ∀ cs : List ℂ, eval E f (highpass ^^ false) (.polynomial cs false) = some (polyval cs σ) := by
    intro cs
    rw [eval_polynomial]
    exact ⟨σ, by simpa using hσ, rfl⟩
  have two : ∀ (α : Nat → ℝ) (m : Nat),
      (((List.range m).map fun (j : Nat) =>
        [(Real.cosh g ^ 2 - Real.cos (α j) ^ 2) * k ^ 2, 2 * Real.sinh g * Real.cos (α j) * k, 1]).map
          fun cs => polyval (cs.map fun (c : ℝ) => (c : ℂ)) σ).prod ≠ 0 →
      ∃ vs, List.Forall₂ (fun p x => eval E f highpass (fraction false p) = some x)
        ((List.range m).map fun (j : Nat) => section2 k g (α j)) vs ∧
        vs.prod = (((List.range m).map fun (j : Nat) => [Real.sin (α j) ^ 2 * k ^ 2, 0 * k, 1]).map
          fun cs => polyval (cs.map fun (c : ℝ) => (c : ℂ)) σ).prod /
          (((List.range m).map fun (j : Nat) =>
        [(Real.cosh g ^ 2 - Real.cos (α j) ^ 2) * k ^ 2, 2 * Real.sinh g * Real.cos (α j) * k, 1]).map
          fun cs => polyval (cs.map fun (c : ℝ) => (c : ℂ)) σ).prod := by
    intro α m
    generalize List.range m = l
    induction l with
    | nil => exact fun _ => ⟨[], .nil, by simp⟩
    | cons j l ih =>
      intro h
      rw [List.map_cons, List.map_cons, List.prod_cons] at h
      obtain ⟨vs, v1, v2⟩ := ih (right_ne_zero_of_mul h)
      refine ⟨(polyval ([Real.sin (α j) ^ 2 * k ^ 2, 0 * k, 1].map fun (c : ℝ) => (c : ℂ)) σ) /
          polyval ([(Real.cosh g ^ 2 - Real.cos (α j) ^ 2) * k ^ 2, 2 * Real.sinh g * Real.cos (α j) * k, 1].map
            fun (c : ℝ) => (c : ℂ)) σ :: vs, .cons ?_ v1, ?_⟩
      · rw [fraction, eval_quotient]
        exact ⟨_, _, poly _, poly _, left_ne_zero_of_mul h, rfl⟩
      · rw [List.prod_cons, v2, div_mul_div_comm]
        rfl
  unfold sections at hne ⊢
  unfold sections2
  split
  · next he =>
    rw [if_pos he] at hne
    exact two _ _ hne
  · next he =>
    rw [if_neg he] at hne
    rw [List.map_cons, List.prod_cons] at hne
    obtain ⟨vs, v1, v2⟩ := two _ _ (right_ne_zero_of_mul hne)
    refine ⟨1 / polyval ([Real.sinh g * k, 1].map fun (c : ℝ) => (c : ℂ)) σ :: vs, .cons ?_ v1, ?_⟩
    · rw [fraction, eval_quotient]
      exact ⟨1, _, rfl, poly _, left_ne_zero_of_mul hne, rfl⟩
    · rw [List.prod_cons, v2, div_mul_div_comm]
      have one : polyval ([0 * k, 1].map fun (c : ℝ) => (c : ℂ)) σ = 1 := by simp [polyval]
      rw [← one]
      rfl

/-! ### C63 -/

/-- the squared magnitude, that a Chebyshev filter of type 2 shall have at positive frequencies: the ripple in the stop
band is defined by a Chebyshev polynomial of the inverse relative frequency. -/
noncomputable def chebyshev2Spec (cutoff ripple : ℝ) (order : Nat) (highpass : Bool) (f : ℝ) : ℝ :=
  let e := (10 : ℝ) ^ (|ripple| / 10) - 1
  let T := fun x : ℝ => (Polynomial.Chebyshev.T ℝ order).eval x
  let x := if highpass then f / cutoff else cutoff / f
  T x ^ 2 / (T x ^ 2 + e)

/-- C63: The filter is created without exceptions and has the magnitude of a Chebyshev filter at all positive frequencies.
The lowpass is one at 0 Hz and the highpass is zero. Missing: the value of a highpass at 0 Hz is not the limit of its
values at positive frequencies, if the order is even. -/
theorem C63_magnitude_partial (mem : ℂ) (n : Nat) (cutoff ripple : ℝ) (hc : 0 < cutoff) (hr : ripple ≠ 0) (order : Nat)
    (ho : 0 < order) (highpass : Bool) :
    ∃ a, chebyshev2Filter complexEnv (n + 4) cutoff ripple order highpass = .ok a ∧ a.labels = ["Chebyshev 2"] ∧
      (∀ f, 0 < f → ∃ x, a.call complexEnv mem f = [some x] ∧
        ‖x‖ ^ 2 = chebyshev2Spec cutoff ripple order highpass f) ∧
      ∃ x, a.call complexEnv mem 0 = [some x] ∧ ‖x‖ = if highpass then 0 else 1 := by
  obtain ⟨k, hk, hk0, hs⟩ := scaling_ok hc highpass
  have he := ripple_pos hr
  have ho' : (0 : ℝ) < order := by exact_mod_cast ho
  have hl : ((10 : ℝ) ^ (|ripple| / 20)) ^ 2 = 10 ^ (|ripple| / 10) := by
    rw [← Real.rpow_natCast, ← Real.rpow_mul (by norm_num)]
    congr 1
    push_cast
    ring
  set e := (10 : ℝ) ^ (|ripple| / 10) - 1 with hedef
  set g := Real.arsinh (Real.sqrt (((10 : ℝ) ^ (|ripple| / 20)) ^ 2 - 1)) / order with hg
  have hgs : Real.sqrt (((10 : ℝ) ^ (|ripple| / 20)) ^ 2 - 1) = Real.sqrt e := by rw [hl]
  have hg0 : 0 < g := by
    rw [hg, hgs]
    exact div_pos (Real.arsinh_pos_iff.mpr (Real.sqrt_pos.mpr he)) ho'
  have hS : Real.sinh (order * g) ^ 2 = e := by
    rw [hg, mul_div_cancel₀ _ ho'.ne', Real.sinh_arsinh, hgs, Real.sq_sqrt he.le]
  have hmem : ∀ p ∈ sections2 k g order, Enumerator p.1 ∧ p.2 ≠ [] ∧ p.1 ≠ .polynomial p.2 false :=
    fun p hp => sections2_mem hk0 hg0 hp
  have ne : sections2 k g order ≠ [] := by
    unfold sections2
    split
    · simp; omega
    · simp
  obtain ⟨t, ht, hu, hv⟩ := fractionProduct complexEnv complexEnv_lawful n (sections2 k g order) ne
    (fun p hp => (hmem p hp).1) (fun p hp => (hmem p hp).2.1) (fun p hp => (hmem p hp).2.2) highpass
  have hb : chebyshev2 complexEnv (n + 4) cutoff ripple order highpass = .ok t := by
    unfold chebyshev2
    rw [hk]
    show (if order = 0 then _ else _) = _
    rw [if_neg ho.ne']
    have hfac := chebyshev2_factors k g hk0 hg0.ne' order
    show (_ >>= fun factors => productFactory complexEnv (n + 4) factors highpass) = _
    rw [hfac]
    exact ht
  set T := fun x : ℝ => (Polynomial.Chebyshev.T ℝ order).eval x with hT
  have prodC : ∀ (x g' : ℝ), ∏ j ∈ Finset.range order,
      (4 * ((x : ℂ) ^ 2 - Complex.sin (poleAngle order j + g' * I) ^ 2)) =
      ((4 * (T x ^ 2 + Real.sinh (order * g') ^ 2) : ℝ) : ℂ) := by
    intro x g'
    rw [chebyshev_prod order ho]
    push_cast
    rw [show ((T x : ℝ) : ℂ) = _ from Polynomial.Chebyshev.complex_ofReal_eval_T x order]
  have val : ∀ f, (highpass = true → f ≠ 0) → ∀ a b : ℝ,
      ∏ j ∈ Finset.range order, (1 - (relative cutoff highpass f : ℂ) ^ 2 *
        Complex.sin (poleAngle order j + (0 : ℝ) * I) ^ 2) = (a : ℂ) →
      ∏ j ∈ Finset.range order, (1 - (relative cutoff highpass f : ℂ) ^ 2 *
        Complex.sin (poleAngle order j + g * I) ^ 2) = (b : ℂ) → b ≠ 0 →
      ∃ x, eval complexEnv f false t = some x ∧ ‖x‖ ^ 2 = a / b := by
    intro f hf0 a b ha hb' hb0
    obtain ⟨σ, hσ, hkσ⟩ := hs f hf0
    set u := relative cutoff highpass f with hu'
    have nd := sections_norm (fun θ => Real.cosh g ^ 2 - Real.cos θ ^ 2) (fun θ => 2 * Real.sinh g * Real.cos θ)
      (Real.sinh g) k u order ho σ hkσ (fun θ => 1 - (u : ℂ) ^ 2 * Complex.sin (θ + g * I) ^ 2)
      (by
        intro θ _ _
        obtain ⟨p1, p2⟩ := sin_pair θ g
        simp only [Complex.ofReal_mul] at p2 ⊢
        generalize ((Real.cosh g ^ 2 - Real.cos θ ^ 2 : ℝ) : ℂ) = D at p1 p2 ⊢
        generalize Complex.sin (θ + g * I) = s1 at p1 p2 ⊢
        generalize Complex.sin ((-θ : ℝ) + g * I) = s2 at p1 p2 ⊢
        simp only [Complex.ofReal_ofNat]
        linear_combination (-(u : ℂ) ^ 2) * p2 + (u : ℂ) ^ 4 * (s1 * s2 - D) * p1)
      (by
        rw [Complex.ofReal_zero, zero_add, Complex.sin_mul_I, mul_pow, Complex.I_sq]
        push_cast
        ring)
    have nn := sections_norm (fun θ => Real.sin θ ^ 2) (fun _ => 0) 0 k u order ho σ hkσ
      (fun θ => 1 - (u : ℂ) ^ 2 * Complex.sin (θ + (0 : ℝ) * I) ^ 2)
      (by
        intro θ _ _
        simp only [Complex.ofReal_zero, zero_mul, add_zero, Complex.ofReal_neg, Complex.sin_neg]
        push_cast
        ring)
      (by simp)
    rw [hb'] at nd
    rw [ha] at nn
    have nd := Complex.ofReal_injective nd
    have nn := Complex.ofReal_injective nn
    obtain ⟨vs, v1, v2⟩ := sections2_values complexEnv k g order f highpass σ hσ (by
      intro h
      rw [h] at nd
      simp at nd
      exact hb0 nd.symm)
    refine ⟨vs.prod, hv f vs v1, ?_⟩
    rw [v2, norm_div, div_pow, nd, nn]
  refine ⟨Channels.new [t] ["Chebyshev 2"], ?_, single_labels _ _, ?_, ?_⟩
  · unfold chebyshev2Filter rolloff
    rw [hb]
    rfl
  · intro f hf
    rw [call_single mem t _ f hf.le, if_neg (fun h => hf.ne' h.1)]
    set u := relative cutoff highpass f with hu'
    have hu0 : u ≠ 0 := by
      rw [hu', relative]
      split
      · exact neg_ne_zero.mpr (div_pos hc hf).ne'
      · exact (div_pos hf hc).ne'
    have huc : (u : ℂ) ≠ 0 := by exact_mod_cast hu0
    have scale : ∀ g' : ℝ, ∏ j ∈ Finset.range order, (1 - (u : ℂ) ^ 2 * Complex.sin (poleAngle order j + g' * I) ^ 2) =
        (((u ^ 2 / 4) ^ order * (4 * (T (1 / u) ^ 2 + Real.sinh (order * g') ^ 2)) : ℝ) : ℂ) := by
      intro g'
      rw [Complex.ofReal_mul, ← prodC (1 / u) g', Complex.ofReal_pow]
      conv_rhs => rw [← Finset.card_range order, ← Finset.prod_const, Finset.card_range, ← Finset.prod_mul_distrib]
      refine Finset.prod_congr rfl fun j _ => ?_
      push_cast
      field_simp
    have hp : 0 < T (1 / u) ^ 2 + e := by positivity
    have hq : (0 : ℝ) < (u ^ 2 / 4) ^ order := by positivity
    obtain ⟨x, hx, hn⟩ := val f (fun _ => hf.ne') _ _ (scale 0) (scale g)
      (by rw [hS]; exact (mul_pos hq (by linarith)).ne')
    refine ⟨x, by rw [hx], ?_⟩
    rw [hn, hS, mul_zero, Real.sinh_zero, mul_div_mul_left _ _ hq.ne', mul_div_mul_left _ _ (by norm_num)]
    unfold chebyshev2Spec
    rw [← hedef]
    dsimp only
    have ex : T (1 / u) ^ 2 = (Polynomial.Chebyshev.T ℝ order).eval (if highpass then f / cutoff else cutoff / f) ^ 2 := by
      rw [hu', relative]
      cases highpass with
      | false => rw [if_neg (by simp), if_neg (by simp), one_div_div]
      | true =>
        rw [if_pos rfl, if_pos rfl, one_div, inv_neg, inv_div]
        exact T_neg_sq order _
    rw [ex]
    norm_num
  · rw [call_single mem t _ 0 le_rfl, hu]
    cases highpass with
    | true => exact ⟨0, by simp, by simp⟩
    | false =>
      have h0 : relative cutoff false 0 = 0 := by simp [relative]
      obtain ⟨x, hx, hn⟩ := val 0 (by simp) 1 1 (by rw [h0]; simp) (by rw [h0]; simp) one_ne_zero
      refine ⟨x, by rw [hx]; simp, ?_⟩
      rw [div_one] at hn
      have : ‖x‖ = 1 := by nlinarith [norm_nonneg x]
      simpa using this

example : chebyshev2Spec 1000 60 1 false 1000 = 1 / 10 ^ (6 : ℝ) := by
  norm_num [chebyshev2Spec]

/-- C63: In the stop band of a lowpass, the ripple does not exceed the given attenuation. This attenuation is reached at
the cutoff frequency. In the pass band, the magnitude is greater. -/
theorem C63_stop_band (mem : ℂ) (n : Nat) (cutoff ripple : ℝ) (hc : 0 < cutoff) (hr : ripple ≠ 0) (order : Nat)
    (ho : 0 < order) :
    ∃ a, chebyshev2Filter complexEnv (n + 4) cutoff ripple order false = .ok a ∧
      ∀ f, 0 < f → ∃ x, a.call complexEnv mem f = [some x] ∧
        (cutoff ≤ f → ‖x‖ ^ 2 ≤ 1 / 10 ^ (|ripple| / 10)) ∧ (f = cutoff → ‖x‖ ^ 2 = 1 / 10 ^ (|ripple| / 10)) ∧
        (f < cutoff → 1 / 10 ^ (|ripple| / 10) < ‖x‖ ^ 2 ∧ ‖x‖ ^ 2 < 1) := by
  obtain ⟨a, h, _, hx, _⟩ := C63_magnitude_partial mem n cutoff ripple hc hr order ho false
  refine ⟨a, h, fun f hf => ?_⟩
  obtain ⟨x, h1, h2⟩ := hx f hf
  refine ⟨x, h1, ?_⟩
  have hp := ripple_pos hr
  unfold chebyshev2Spec at h2
  dsimp only at h2
  rw [if_neg (by simp)] at h2
  rw [show (10 : ℝ) ^ (|ripple| / 10) = 1 + (10 ^ (|ripple| / 10) - 1) by ring]
  generalize (10 : ℝ) ^ (|ripple| / 10) - 1 = e at *
  have hT1 : cutoff ≤ f → (Polynomial.Chebyshev.T ℝ order).eval (cutoff / f) ^ 2 ≤ 1 := by
    intro h
    have := Polynomial.Chebyshev.abs_eval_T_real_le_one order (x := cutoff / f) (by
      rw [abs_of_nonneg (by positivity)]
      exact (div_le_one hf).mpr h)
    exact (sq_le_one_iff_abs_le_one _).mpr this
  have hT2 : f < cutoff → 1 < (Polynomial.Chebyshev.T ℝ order).eval (cutoff / f) ^ 2 := by
    intro h
    have := Polynomial.Chebyshev.one_lt_eval_T_real (n := order) (by exact_mod_cast ho.ne') (x := cutoff / f)
      ((one_lt_div hf).mpr h)
    nlinarith
  have hT3 : f = cutoff → (Polynomial.Chebyshev.T ℝ order).eval (cutoff / f) ^ 2 = 1 := by
    rintro rfl
    rw [div_self hc.ne', Polynomial.Chebyshev.T_eval_one]
    norm_num
  have hnn : (0 : ℝ) ≤ (Polynomial.Chebyshev.T ℝ order).eval (cutoff / f) ^ 2 := sq_nonneg _
  generalize (Polynomial.Chebyshev.T ℝ order).eval (cutoff / f) ^ 2 = q at *
  have hd : 0 < q + e := by positivity
  rw [h2]
  refine ⟨fun h => ?_, fun h => ?_, fun h => ⟨?_, ?_⟩⟩
  · rw [div_le_div_iff₀ hd (by linarith)]
    nlinarith [hT1 h]
  · rw [hT3 h]
  · rw [div_lt_div_iff₀ (by linarith) hd]
    nlinarith [hT2 h]
  · rw [div_lt_one hd]
    linarith

example : (0 : ℝ) < 1000 ∧ (60 : ℝ) ≠ 0 ∧ 0 < 4 := by norm_num

/-- C63: The magnitude of a highpass with an even order tends to the attenuation of the stop band, when the frequency
tends to zero, but the value at 0 Hz is zero. -/
theorem C63_zero_hertz_violated (mem : ℂ) (n : Nat) (cutoff ripple : ℝ) (hc : 0 < cutoff) (hr : ripple ≠ 0)
    (order : Nat) (ho : 0 < order) (he : order % 2 = 0) :
    ∃ a, chebyshev2Filter complexEnv (n + 4) cutoff ripple order true = .ok a ∧ a.call complexEnv mem 0 = [some 0] ∧
      ∃ H : ℝ → ℂ, (∀ f, 0 < f → a.call complexEnv mem f = [some (H f)]) ∧
        Filter.Tendsto (fun f => ‖H f‖ ^ 2) (nhdsWithin 0 (Set.Ioi 0)) (nhds (1 / 10 ^ (|ripple| / 10))) := by
  obtain ⟨a, h, _, hx, x, hz, hz'⟩ := C63_magnitude_partial mem n cutoff ripple hc hr order ho true
  rw [if_pos rfl, norm_eq_zero] at hz'
  subst hz'
  have hp := ripple_pos hr
  refine ⟨a, h, hz, fun f => if h : 0 < f then (hx f h).choose else 0, ?_, ?_⟩
  · intro f hf
    show _ = [some (if h : 0 < f then (hx f h).choose else 0)]
    rw [dif_pos hf]
    exact (hx f hf).choose_spec.1
  · have hT0 : (Polynomial.Chebyshev.T ℝ order).eval 0 ^ 2 = 1 := by
      have ev : Even (order : ℤ) := ⟨order / 2, by omega⟩
      rw [Polynomial.Chebyshev.T_eval_zero_of_even ℝ ev]
      rcases Int.even_or_odd ((order : ℤ) / 2) with h | h
      · rw [Int.negOnePow_even _ h]; simp
      · rw [Int.negOnePow_odd _ h]; simp
    have lim : Filter.Tendsto (fun f => chebyshev2Spec cutoff ripple order true f) (nhdsWithin 0 (Set.Ioi 0))
        (nhds (1 / 10 ^ (|ripple| / 10))) := by
      have cont : Continuous fun f : ℝ => chebyshev2Spec cutoff ripple order true f := by
        unfold chebyshev2Spec
        simp only [if_true]
        have := (Polynomial.Chebyshev.T ℝ order).continuous
        refine Continuous.div ?_ ?_ ?_
        · exact (this.comp (by fun_prop)).pow 2
        · exact ((this.comp (by fun_prop)).pow 2).add continuous_const
        · intro f
          positivity
      have := (cont.tendsto 0).mono_left (nhdsWithin_le_nhds (s := Set.Ioi 0))
      convert this using 2
      unfold chebyshev2Spec
      simp only [if_true, zero_div]
      rw [hT0]
      congr 1
      ring
    refine lim.congr' ?_
    filter_upwards [self_mem_nhdsWithin] with f hf
    replace hf : 0 < f := hf
    rw [dif_pos hf]
    exact (hx f hf).choose_spec.2.symm

example : (0 : ℝ) < 1000 ∧ (60 : ℝ) ≠ 0 ∧ 0 < 2 ∧ 2 % 2 = 0 := by norm_num

end Filter
end Verif
