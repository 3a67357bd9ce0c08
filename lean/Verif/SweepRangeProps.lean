import Verif.SweepProps

/-
C70: The minimum and the maximum frequency of a sweep are attained.
-/

namespace Verif
namespace Sweep

open Indexing

/-- the minimum and the maximum frequency of a sweep are the instantaneous frequencies at its beginning or at its end -/
def Attained (x : Instance) (T : ℝ) : Prop :=
  (∃ t, (t = 0 ∨ t = T) ∧ x.instantaneousFrequency t = .ok x.minimum) ∧
    ∃ t, (t = 0 ∨ t = T) ∧ x.instantaneousFrequency t = .ok x.maximum

theorem attained {x : Instance} {T : ℝ} {f : ℝ → ℝ} (h : ∀ t, x.instantaneousFrequency t = .ok (f t))
    (hmin : x.minimum = min (f 0) (f T)) (hmax : x.maximum = max (f 0) (f T)) : Attained x T := by
  unfold Attained
  rw [hmin, hmax]
  rcases le_total (f 0) (f T) with hle | hle
  · rw [min_eq_left hle, max_eq_right hle]
    exact ⟨⟨0, Or.inl rfl, h 0⟩, ⟨T, Or.inr rfl, h T⟩⟩
  · rw [min_eq_right hle, max_eq_left hle]
    exact ⟨⟨T, Or.inr rfl, h T⟩, ⟨0, Or.inl rfl, h 0⟩⟩

/-- C70: The minimum and the maximum frequency of linear sweeps are attained at the beginning or at the end. -/
theorem C70_attained_linear (f0 f1 phase : ℝ) (interval : Idx × Idx) (rate : ℝ) (length : Nat) (numexpr : Bool)
    (start stop : Int) (hr : rate ≠ 0) (h1 : index length interval.1 = some start)
    (h2 : index length interval.2 = some stop) (hne : start ≠ stop) :
    ∃ s v, linearSweep f0 f1 phase interval rate length numexpr = some (.ok s) ∧
      inverseLinearSweep f0 f1 phase interval rate length numexpr = some (.ok v) ∧
      Attained s (length / rate) ∧ Attained v (length / rate) := by
  obtain ⟨s, s1, _, _, _, _, _, f, _, s2, _, _, _, _, _, s4, s5, _⟩ := C44_linear f0 f1 phase interval rate length
    numexpr start stop hr h1 h2 hne
  obtain ⟨_, v, _, v1, _, _, _, _, _, _, g, _, v2, _, _, _, _, _, v4, v5, _⟩ := C44_inverse_linear f0 f1 phase interval
    rate length numexpr numexpr start stop hr h1 h2 hne
  exact ⟨s, v, s1, v1, attained s2 s4 s5, attained v2 v4 v5⟩

/-- C70: The minimum and the maximum frequency of exponential sweeps are attained at the beginning or at the end. -/
theorem C70_attained_exponential (f0 f1 phase : ℝ) (interval : Idx × Idx) (rate : ℝ) (length : Nat) (numexpr : Bool)
    (start stop : Int) (hr : rate ≠ 0) (h1 : index length interval.1 = some start)
    (h2 : index length interval.2 = some stop) (hne : start ≠ stop) (hf : 0 < f0) (hf1 : 0 < f1) (hff : f0 ≠ f1) :
    ∃ s v, exponentialSweep f0 f1 phase interval rate length numexpr = some (.ok s) ∧
      inverseExponentialSweep f0 f1 phase interval rate length numexpr = some (.ok v) ∧
      Attained s (length / rate) ∧ Attained v (length / rate) := by
  obtain ⟨s, s1, _, _, _, _, _, _, f, _, s2, _, _, _, _, hpos, s3, s4, s5, _⟩ := C44_exponential f0 f1 phase interval rate
    length numexpr start stop hr h1 h2 hne hf hf1 hff
  obtain ⟨_, v, _, v1, _, _, _, _, _, _, g, _, _, v2, _, _, _, _, hpos', v3, v4, v5, _⟩ := C44_inverse_exponential f0 f1 phase
    interval rate length numexpr numexpr start stop hr h1 h2 hne hf hf1 hff
  exact ⟨s, v, s1, v1, attained s2 s4 s5, attained v2 v4 v5⟩

/-- a sweep with falling frequency, whose interval does not include the first and the last samples -/
example : ∃ (f0 f1 : ℝ) (interval : Idx × Idx) (rate : ℝ) (length : Nat) (start stop : Int), rate ≠ 0 ∧
    index length interval.1 = some start ∧ index length interval.2 = some stop ∧ start ≠ stop ∧ 0 < f0 ∧ 0 < f1 ∧ f0 ≠ f1 :=
  ⟨20000, 20, (.int 16, .int (-16)), 48000, 4096, 16, 4080, by norm_num, by decide, by decide, by decide, by norm_num,
    by norm_num, by norm_num⟩

end Sweep
end Verif
