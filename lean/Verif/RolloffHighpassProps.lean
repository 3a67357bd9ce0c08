import Verif.RolloffProps

/-
C62: The ripple of highpass filters.
-/

namespace Verif
namespace Filter

open Term

/-- C62: The highpass filter has the same magnitude as the lowpass filter at the frequency, that is mirrored at the cutoff
frequency. -/
theorem C62_mirrored (mem : ℂ) (n : Nat) (cutoff ripple : ℝ) (hc : 0 < cutoff) (hr : ripple ≠ 0) (order : Nat)
    (ho : 0 < order) :
    ∃ a b, chebyshev1Filter complexEnv (n + 3) cutoff ripple order true = .ok a ∧
      chebyshev1Filter complexEnv (n + 3) cutoff ripple order false = .ok b ∧
      ∀ f, 0 < f → ∃ x y, a.call complexEnv mem f = [some x] ∧ b.call complexEnv mem (cutoff ^ 2 / f) = [some y] ∧
        ‖x‖ = ‖y‖ := by
  obtain ⟨a, ha, -, hx⟩ := C62_magnitude mem n cutoff ripple hc hr order ho true
  obtain ⟨b, hb, -, hy⟩ := C62_magnitude mem n cutoff ripple hc hr order ho false
  refine ⟨a, b, ha, hb, fun f hf => ?_⟩
  obtain ⟨x, h1, h2⟩ := hx f hf.le
  obtain ⟨y, h3, h4⟩ := hy (cutoff ^ 2 / f) (by positivity)
  refine ⟨x, y, h1, h3, ?_⟩
  have key : ‖x‖ ^ 2 = ‖y‖ ^ 2 := by
    rw [h2, h4]
    unfold chebyshev1Spec
    have e : cutoff ^ 2 / f / cutoff = cutoff / f := by field_simp
    simp [hf.ne', e]
  exact (pow_left_inj₀ (norm_nonneg x) (norm_nonneg y) two_ne_zero).mp key

example : (0 : ℝ) < 1000 ∧ (3 : ℝ) ≠ 0 ∧ 0 < 4 := by norm_num

/-- C62: The pass band of a highpass filter: as for lowpass filters, the ripple is an amplification, if the order is even,
and an attenuation, if it is odd. At frequencies below the cutoff frequency, the magnitude is less. -/
theorem C62_highpass (mem : ℂ) (n : Nat) (cutoff ripple : ℝ) (hc : 0 < cutoff) (hr : ripple ≠ 0) (order : Nat)
    (ho : 0 < order) :
    ∃ a, chebyshev1Filter complexEnv (n + 3) cutoff ripple order true = .ok a ∧
      ∀ f, 0 < f → ∃ x, a.call complexEnv mem f = [some x] ∧
        (order % 2 = 0 → (cutoff ≤ f → 1 ≤ ‖x‖ ^ 2 ∧ ‖x‖ ^ 2 ≤ 10 ^ (|ripple| / 10)) ∧
          (f = cutoff → ‖x‖ ^ 2 = 1) ∧ (f < cutoff → ‖x‖ ^ 2 < 1)) ∧
        (order % 2 = 1 → (cutoff ≤ f → 1 / 10 ^ (|ripple| / 10) ≤ ‖x‖ ^ 2 ∧ ‖x‖ ^ 2 ≤ 1) ∧
          (f = cutoff → ‖x‖ ^ 2 = 1 / 10 ^ (|ripple| / 10)) ∧
          (f < cutoff → ‖x‖ ^ 2 < 1 / 10 ^ (|ripple| / 10))) := by
  obtain ⟨a, b, ha, hb, h⟩ := C62_mirrored mem n cutoff ripple hc hr order ho
  refine ⟨a, ha, fun f hf => ?_⟩
  obtain ⟨x, y, h1, h2, h3⟩ := h f hf
  have m1 : cutoff ≤ f → cutoff ^ 2 / f ≤ cutoff := fun g => (div_le_iff₀ hf).mpr (by nlinarith)
  have m2 : f = cutoff → cutoff ^ 2 / f = cutoff := by rintro rfl; field_simp
  have m3 : f < cutoff → cutoff < cutoff ^ 2 / f := fun g => (lt_div_iff₀ hf).mpr (by nlinarith)
  refine ⟨x, h1, fun g => ?_, fun g => ?_⟩
  · obtain ⟨b', hb', k⟩ := C62_even_order mem n cutoff ripple hc hr order ho g
    obtain rfl : b' = b := by rw [hb] at hb'; exact (Except.ok.inj hb').symm
    obtain ⟨z, hz, k1, k2, k3⟩ := k (cutoff ^ 2 / f) (by positivity)
    obtain rfl : z = y := by rw [h2] at hz; simpa using hz.symm
    rw [h3]
    exact ⟨fun u => k1 (m1 u), fun u => k2 (m2 u), fun u => k3 (m3 u)⟩
  · obtain ⟨b', hb', k⟩ := C62_odd_order mem n cutoff ripple hc hr order g
    obtain rfl : b' = b := by rw [hb] at hb'; exact (Except.ok.inj hb').symm
    obtain ⟨z, hz, k1, k2, k3⟩ := k (cutoff ^ 2 / f) (by positivity)
    obtain rfl : z = y := by rw [h2] at hz; simpa using hz.symm
    rw [h3]
    exact ⟨fun u => k1 (m1 u), fun u => k2 (m2 u), fun u => k3 (m3 u)⟩

example : (0 : ℝ) < 1000 ∧ (3 : ℝ) ≠ 0 ∧ 4 % 2 = 0 ∧ 5 % 2 = 1 := by norm_num

end Filter
end Verif
