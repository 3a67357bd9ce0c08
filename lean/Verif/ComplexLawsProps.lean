import Verif.ComplexPartsProps
import Verif.SpectrumProps

/-
C162: The conjugate and the absolute values of spectrums are compatible with the operators
-/

namespace Verif
namespace Spectrum

/-- The spectrums have the same resolution, the same labels and the same samples. -/
def Agree {α R : Type} (r q : Spectrum α R) : Prop :=
  r.resolution = q.resolution ∧ r.labels = q.labels ∧ r.channels.Eqv q.channels

theorem bin_mapSamples {α β R : Type} (g : α → β) (s : Spectrum α R) (c k : Nat) :
    bin (s.mapSamples g) c k = (bin s c k).map g := by
  unfold bin
  rw [show (s.mapSamples g).count = s.count from rfl]
  split <;> rfl

/-- C162: If a function of the samples is compatible with an operator for two numbers, it can be applied before or after the
operator to spectrums with the same number of bins. -/
theorem C162_operators {α β R : Type} (mem : Nat → Nat → α) (mem' : Nat → Nat → β) (f : α → α → α) (f' : β → β → β)
    (g : α → β) (hg : ∀ x y, g (f x y) = f' (g x) (g y)) (pivot : Option α) (label : String) (s o : Spectrum α R)
    (hl : o.length = s.length) :
    ∃ r q, algebra mem f pivot label s o = .ok r ∧
      algebra mem' f' (pivot.map g) label (s.mapSamples g) (o.mapSamples g) = .ok q ∧ Agree q (r.mapSamples g) := by
  obtain ⟨r, hr, r1, r2, r3, r4, r5⟩ := C15_binwise_partial mem f pivot label s o hl
  obtain ⟨q, hq, q1, q2, q3, q4, q5⟩ := C15_binwise_partial mem' f' (pivot.map g) label (s.mapSamples g) (o.mapSamples g) hl
  change q.count = resultCount s o at q1
  change q.length = s.length at q2
  have hc : q.count = r.count := by rw [q1, r1]
  refine ⟨r, q, hr, hq, q3.trans r3.symm, ?_, hc, by show q.length = r.length; rw [q2, r2], ?_⟩
  · have hw : r.labels.length = r.count := by rw [r4, List.length_replicate]
    rw [show (r.mapSamples g).labels = r.labels from Signal.sanitize_self hw, q4, r4, hc]
  · intro c k h1 h2
    change c < q.count at h1
    change k < q.length at h2
    show q.channels.get c k = g (r.channels.get c k)
    rw [q5 c k h1 h2, r5 c k (by omega) (by omega), bin_mapSamples, bin_mapSamples]
    have cov := C15_covered s o c k (by omega)
    cases hx : bin s c k with
    | some x =>
      cases hy : bin o c k with
      | some y => exact (hg x y).symm
      | none => rfl
    | none =>
      cases hy : bin o c k with
      | some y =>
        cases pivot with
        | none => rfl
        | some p => exact (hg p y).symm
      | none => exact absurd cov (by rw [hx, hy]; simp)

/-- C162: The conjugate of a sum, a difference, a product or a quotient of spectrums is that of the conjugates. -/
theorem C162_conjugate (mem mem' : Nat → Nat → ℂ) (f : ℂ → ℂ → ℂ)
    (hf : f = (· + ·) ∨ f = (· - ·) ∨ f = (· * ·) ∨ f = (· / ·)) (pivot : Option ℂ)
    (hp : pivot = none ∨ pivot = some 0 ∨ pivot = some 1) (label : String) (s o : Spectrum ℂ ℝ) (hl : o.length = s.length) :
    ∃ r q, algebra mem f pivot label s o = .ok r ∧ algebra mem' f pivot label s.conjugate o.conjugate = .ok q ∧
      Agree q r.conjugate := by
  have h := C162_operators mem mem' f f (starRingEnd ℂ) (by
    intro x y
    rcases hf with rfl | rfl | rfl | rfl <;> simp) pivot label s o hl
  have e : pivot.map (starRingEnd ℂ) = pivot := by rcases hp with rfl | rfl | rfl <;> simp
  rw [e] at h
  exact h

/-- C162: The absolute value of a product or a quotient of spectrums is that of the absolute values. -/
theorem C162_abs (mem : Nat → Nat → ℂ) (mem' : Nat → Nat → ℝ) (label : String) (s o : Spectrum ℂ ℝ)
    (hl : o.length = s.length) :
    (∃ r q, algebra mem (· * ·) none label s o = .ok r ∧ algebra mem' (· * ·) none label s.abs o.abs = .ok q ∧
      Agree q r.abs) ∧
    ∃ r q, algebra mem (· / ·) (some 1) label s o = .ok r ∧ algebra mem' (· / ·) (some 1) label s.abs o.abs = .ok q ∧
      Agree q r.abs := by
  refine ⟨C162_operators mem mem' (· * ·) (· * ·) (fun z => ‖z‖) (fun x y => norm_mul x y) none label s o hl, ?_⟩
  have h := C162_operators mem mem' (· / ·) (· / ·) (fun z => ‖z‖) (fun x y => norm_div x y) (some 1) label s o hl
  rw [show (some (1 : ℂ)).map (fun z => ‖z‖) = some 1 by simp] at h
  exact h

/-- C162: The absolute value of a sum does not exceed the sum of the absolute values. -/
theorem C162_triangle (mem : Nat → Nat → ℂ) (mem' : Nat → Nat → ℝ) (label : String) (s o : Spectrum ℂ ℝ)
    (hl : o.length = s.length) :
    ∃ r q, algebra mem (· + ·) none label s o = .ok r ∧ algebra mem' (· + ·) none label s.abs o.abs = .ok q ∧
      r.count = q.count ∧ r.length = q.length ∧
      ∀ c k, c < r.count → k < r.length → r.abs.channels.get c k ≤ q.channels.get c k := by
  obtain ⟨r, hr, r1, r2, r3, r4, r5⟩ := C15_binwise_partial mem (· + ·) none label s o hl
  obtain ⟨q, hq, q1, q2, q3, q4, q5⟩ := C15_binwise_partial mem' (· + ·) none label s.abs o.abs hl
  change q.count = resultCount s o at q1
  change q.length = s.length at q2
  refine ⟨r, q, hr, hq, by rw [r1, q1], by rw [r2, q2], fun c k h1 h2 => ?_⟩
  show ‖r.channels.get c k‖ ≤ _
  rw [q5 c k (by omega) (by omega), r5 c k h1 h2, show bin s.abs c k = (bin s c k).map (fun z => ‖z‖) from bin_mapSamples _ s c k,
    show bin o.abs c k = (bin o c k).map (fun z => ‖z‖) from bin_mapSamples _ o c k]
  have cov := C15_covered s o c k (by omega)
  cases hx : bin s c k with
  | some x =>
    cases hy : bin o c k with
    | some y => exact norm_add_le x y
    | none => exact le_refl _
  | none =>
    cases hy : bin o c k with
    | some y => exact le_refl _
    | none => exact absurd cov (by rw [hx, hy]; simp)

/-- the hypothesis is satisfiable: two spectrums with three bins, but different numbers of channels -/
example : ∃ s o : Spectrum ℂ ℝ, o.length = s.length ∧ s.count = 2 ∧ o.count = 3 :=
  ⟨⟨⟨2, 3, fun c k => c + k * Complex.I⟩, 2, ["a", "b"]⟩, ⟨⟨3, 3, fun _ k => k⟩, 2, ["c", "d", "e"]⟩, rfl, rfl, rfl⟩

end Spectrum
end Verif
