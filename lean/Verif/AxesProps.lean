import Verif.SpectrogramMore
import Verif.SpectrumSliceProps
import Mathlib.Tactic.FieldSimp
import Mathlib.Tactic.Ring

/-
Property C89: the time and frequency samples of signals, spectrums and spectrograms.
-/

namespace Verif
namespace Axes

/-- The elements of an array with `n` elements are the values of the function `f`. -/
def Is (a : Nat × (Nat → ℝ)) (n : Nat) (f : Nat → ℝ) : Prop := a.1 = n ∧ ∀ i, i < n → a.2 i = f i

theorem linspace_eq {start step stop : ℝ} {n i : Nat} (hi : i < n) (h : stop = start + (n - 1) * step) :
    Sweep.linspace start stop n i = start + i * step := by
  unfold Sweep.linspace
  by_cases h1 : n ≤ 1
  · rw [if_pos h1, show i = 0 by omega]
    simp
  · rw [if_neg h1, h]
    have h2 : ((n : ℝ) - 1) ≠ 0 := by
      rw [sub_ne_zero]
      exact_mod_cast (show n ≠ 1 by omega)
    field_simp
    ring

theorem times {rate : ℝ} (hr : rate ≠ 0) (offset : ℤ) (n : Nat) :
    Is (n, Sweep.linspace (offset / rate) ((n + offset - 1) / rate) n) n (fun i => (offset + i) / rate) := by
  refine ⟨rfl, fun i hi => ?_⟩
  show Sweep.linspace _ _ _ _ = _
  rw [linspace_eq hi (step := 1 / rate) (by field_simp; ring)]
  field_simp

/-- C89: the time samples of a signal: the sample with the index `i` is located at the time
`(offset + i) / sampling_rate`, in particular the first one at `offset / sampling_rate`. -/
theorem C89_signal {α : Type} (s : Signal α ℝ) (hr : s.rate ≠ 0) :
    ∃ t, s.timeSamples = .ok t ∧ Is t s.length (fun i => (s.offset + i) / s.rate) := by
  refine ⟨_, ?_, times hr s.offset s.length⟩
  unfold Signal.timeSamples Sweep.div
  rw [if_neg hr, if_neg hr]
  rfl

/-- C89 for the time axis of a spectrogram -/
theorem C89_spectrogram_time {α : Type} (s : Spectrogram α ℝ) (hr : s.rate ≠ 0) :
    ∃ t, s.timeSamples = .ok t ∧ Is t s.length (fun i => (s.offset + i) / s.rate) := by
  refine ⟨_, ?_, times hr s.offset s.length⟩
  unfold Spectrogram.timeSamples Sweep.div
  rw [if_neg hr, if_neg hr]
  rfl

/-- C89 for the frequencies of a spectrogram's bins -/
theorem C89_spectrogram_frequency {α : Type} (s : Spectrogram α ℝ) :
    Is s.frequencySamples s.freqs (fun k => k * s.resolution) := by
  refine ⟨rfl, fun k hk => ?_⟩
  show Sweep.linspace _ _ _ _ = _
  rw [linspace_eq hk (step := s.resolution) (by unfold Spectrogram.maximumFrequency; ring), zero_add]

/-- C89 for the frequencies of a spectrum's bins -/
theorem C89_spectrum {α : Type} (s : Spectrum α ℝ) :
    Is s.frequencySamples s.length (fun k => k * s.resolution) := by
  refine ⟨rfl, fun k hk => ?_⟩
  show Sweep.linspace _ _ _ _ = _
  rw [linspace_eq hk (step := s.resolution) (by unfold Spectrum.maximumFrequency; ring), zero_add]

/-- C89: the maximum frequency is the frequency of the last bin. -/
theorem C89_maximum {α : Type} (s : Spectrum α ℝ) (hs : 0 < s.length) (g : Spectrogram α ℝ) (hg : 0 < g.freqs) :
    s.frequencySamples.2 (s.length - 1) = s.maximumFrequency ∧
    g.frequencySamples.2 (g.freqs - 1) = g.maximumFrequency := by
  constructor
  · rw [(C89_spectrum s).2 _ (by omega)]
    show ((s.length - 1 : Nat) : ℝ) * s.resolution = ((s.length : ℝ) - 1) * s.resolution
    rw [Nat.cast_pred hs]
  · rw [(C89_spectrogram_frequency g).2 _ (by omega)]
    show ((g.freqs - 1 : Nat) : ℝ) * g.resolution = ((g.freqs : ℝ) - 1) * g.resolution
    rw [Nat.cast_pred hg]

/-- C89: the duration is the distance between the time of the first sample and the time, at which a signal, that
is appended, begins. -/
theorem C89_duration {α : Type} (s : Signal α ℝ) (hr : s.rate ≠ 0) (g : Spectrogram α ℝ) (hg : g.rate ≠ 0) :
    s.duration = .ok (((s.offset + s.length : ℝ) / s.rate) - s.offset / s.rate) ∧
    g.duration = .ok (((g.offset + g.length : ℝ) / g.rate) - g.offset / g.rate) := by
  unfold Signal.duration Spectrogram.duration Sweep.div
  rw [if_neg hr, if_neg hg]
  constructor <;> congr 1 <;> field_simp <;> ring

/-- C89: a sampling rate of zero raises a `ZeroDivisionError`. -/
theorem C89_zero_rate {α : Type} (s : Signal α ℝ) (hr : s.rate = 0) (g : Spectrogram α ℝ) (hg : g.rate = 0) :
    s.timeSamples = .error .zeroDivisionError ∧ s.duration = .error .zeroDivisionError ∧
    g.timeSamples = .error .zeroDivisionError ∧ g.duration = .error .zeroDivisionError := by
  unfold Signal.timeSamples Spectrogram.timeSamples Signal.duration Spectrogram.duration Sweep.div
  simp only [if_pos hr, if_pos hg]
  exact ⟨rfl, trivial, rfl, trivial⟩

/-- C89: slicing, shifting and combining data does not change the times: if two signals have the same sampling rate,
then samples with the same time index (`Signal.at_`, the specification of C04 to C12) have the same time. -/
theorem C89_same_time {α : Type} (s r : Signal α ℝ) (hs : s.rate ≠ 0) (hr : r.rate = s.rate) (i j : Nat)
    (hi : i < s.length) (hj : j < r.length) (h : s.offset + i = r.offset + j) :
    ∃ t u, s.timeSamples = .ok t ∧ r.timeSamples = .ok u ∧ t.2 i = u.2 j := by
  obtain ⟨t, h1, _, h2⟩ := C89_signal s hs
  obtain ⟨u, h3, _, h4⟩ := C89_signal r (hr ▸ hs)
  refine ⟨t, u, h1, h3, ?_⟩
  rw [h2 i hi, h4 j hj, hr]
  show (s.offset + i : ℝ) / s.rate = (r.offset + j : ℝ) / s.rate
  congr 1
  exact_mod_cast h

/-- C89: with a positive sampling rate and a positive resolution, the axes are strictly increasing. -/
theorem C89_increasing {α : Type} (s : Spectrogram α ℝ) (hr : 0 < s.rate) (hf : 0 < s.resolution) :
    ∃ t, s.timeSamples = .ok t ∧ (∀ i j, i < j → j < s.length → t.2 i < t.2 j) ∧
      ∀ k l, k < l → l < s.freqs → s.frequencySamples.2 k < s.frequencySamples.2 l := by
  obtain ⟨t, h1, _, h2⟩ := C89_spectrogram_time s hr.ne'
  refine ⟨t, h1, ?_, ?_⟩
  · intro i j hij hj
    rw [h2 i (by omega), h2 j hj]
    apply div_lt_div_of_pos_right _ hr
    have : (i : ℝ) < j := by exact_mod_cast hij
    exact add_lt_add_right this _
  · intro k l hkl hl
    rw [(C89_spectrogram_frequency s).2 k (by omega), (C89_spectrogram_frequency s).2 l hl]
    exact mul_lt_mul_of_pos_right (by exact_mod_cast hkl) hf

/-- the hypotheses of the theorems and a value, that is neither the first nor the last one -/
example : ∃ s : Spectrogram ℝ ℝ, 0 < s.rate ∧ 0 < s.resolution ∧ 0 < s.freqs ∧
    (∃ t, s.timeSamples = .ok t ∧ t.2 2 = -3 / 10) ∧ s.frequencySamples.2 1 = 5 := by
  refine ⟨⟨⟨1, 3, 4, fun _ _ _ => 0⟩, 5, 10, -5, [""]⟩, by norm_num, by norm_num, by decide, ?_, ?_⟩
  · obtain ⟨t, h1, _, h2⟩ := C89_spectrogram_time
      (⟨⟨1, 3, 4, fun _ _ _ => 0⟩, 5, 10, -5, [""]⟩ : Spectrogram ℝ ℝ) (by norm_num)
    refine ⟨t, h1, ?_⟩
    rw [h2 2 (by decide)]
    norm_num
  · rw [(C89_spectrogram_frequency _).2 1 (by decide)]
    norm_num

example : ∃ s r : Signal ℝ ℝ, s.rate ≠ 0 ∧ r.rate = s.rate ∧ 3 < s.length ∧ 1 < r.length ∧
    s.offset + (3 : Nat) = r.offset + (1 : Nat) :=
  ⟨⟨⟨1, 4, fun _ _ => 0⟩, 10, -5, [""]⟩, ⟨⟨1, 2, fun _ _ => 0⟩, 10, -3, [""]⟩, by norm_num, rfl, by decide, by decide,
    by decide⟩

end Axes
end Verif
