import Verif.SweepProps
import Verif.WavesProps

/-
C159: Waves and sweeps can be generated in pieces.
-/

namespace Verif
namespace Pieces

open Indexing Sweep

/-! ### Uniqueness of the phase and of the frequency -/

theorem const_of_deriv {h : ℝ → ℝ} (hd : ∀ t, HasDerivAt h 0 t) (s t : ℝ) : h s = h t :=
  is_const_of_deriv_eq_zero (fun t => (hd t).differentiableAt) (fun t => (hd t).deriv) s t

/-- functions with the same derivative are equal, if they are equal at one point -/
theorem phase_unique {Φ Ψ f : ℝ → ℝ} (h1 : ∀ t, HasDerivAt Φ (f t) t) (h2 : ∀ t, HasDerivAt Ψ (f t) t) {a : ℝ}
    (ha : Φ a = Ψ a) (t : ℝ) : Φ t = Ψ t := by
  have hd : ∀ t, HasDerivAt (fun t => Φ t - Ψ t) 0 t := fun t => by
    have h := (h1 t).sub (h2 t)
    rw [sub_self] at h
    exact h
  have h : Φ t - Ψ t = Φ a - Ψ a := const_of_deriv hd t a
  rw [ha, sub_self] at h
  linarith

theorem affine {f : ℝ → ℝ} {k : ℝ} (h : ∀ t, HasDerivAt f k t) (a t : ℝ) : f t = f a + k * (t - a) := by
  have hd : ∀ t, HasDerivAt (fun t => f t - k * t) 0 t := fun t => by
    have h := (h t).sub ((hasDerivAt_id t).const_mul k)
    rw [mul_one, sub_self] at h
    exact h
  have h : f t - k * t = f a - k * a := const_of_deriv hd t a
  linarith

/-- affine functions are equal, if they are equal at two points -/
theorem affine_unique {f g : ℝ → ℝ} {k k' : ℝ} (hf : ∀ t, HasDerivAt f k t) (hg : ∀ t, HasDerivAt g k' t) {a b : ℝ}
    (hab : a ≠ b) (ha : f a = g a) (hb : f b = g b) (t : ℝ) : f t = g t := by
  rw [affine hf a b, affine hg a b, ha] at hb
  have hk : k = k' := mul_right_cancel₀ (sub_ne_zero.mpr hab.symm) (add_left_cancel hb)
  rw [affine hf a t, affine hg a t, ha, hk]

theorem exponential {f : ℝ → ℝ} {l : ℝ} (h : ∀ t, HasDerivAt f (f t / l) t) (a t : ℝ) :
    f t = f a * Real.exp ((t - a) / l) := by
  have hd : ∀ t, HasDerivAt (fun t => f t * Real.exp (-((t - a) / l))) 0 t := by
    intro t
    have h1 : HasDerivAt (fun t => -((t - a) / l)) (-(1 / l)) t := (((hasDerivAt_id t).sub_const a).div_const l).neg
    have h2 := (h t).mul h1.exp
    have h3 : f t / l * Real.exp (-((t - a) / l)) + f t * (Real.exp (-((t - a) / l)) * -(1 / l)) = 0 := by ring
    rw [h3] at h2
    exact h2
  have h1 : f t * Real.exp (-((t - a) / l)) = f a * Real.exp (-((a - a) / l)) := const_of_deriv hd t a
  rw [sub_self, zero_div, neg_zero, Real.exp_zero, mul_one] at h1
  rw [← h1, mul_assoc, ← Real.exp_add, neg_add_cancel, Real.exp_zero, mul_one]

/-- exponential functions are equal, if they are equal at two points -/
theorem exponential_unique {f g : ℝ → ℝ} {l l' : ℝ} (hf : ∀ t, HasDerivAt f (f t / l) t) (hg : ∀ t, HasDerivAt g (g t / l') t)
    (hp : ∀ t, 0 < f t) {a b : ℝ} (hab : a ≠ b) (ha : f a = g a) (hb : f b = g b) (t : ℝ) : f t = g t := by
  rw [exponential hf a b, exponential hg a b, ← ha] at hb
  have hk : (b - a) / l = (b - a) / l' := Real.exp_injective (mul_left_cancel₀ (hp a).ne' hb)
  have hk : l = l' := by
    have h : (b - a) * l⁻¹ = (b - a) * l'⁻¹ := hk
    exact inv_injective (mul_left_cancel₀ (sub_ne_zero.mpr hab.symm) h)
  rw [exponential hf a t, exponential hg a t, ha, hk]

theorem shifted {f : ℝ → ℝ} {f' : ℝ → ℝ} (h : ∀ t, HasDerivAt f (f' t) t) (τ t : ℝ) :
    HasDerivAt (fun t => f (t + τ)) (f' (t + τ)) t := by
  have h1 : HasDerivAt (fun t : ℝ => t + τ) 1 t := (hasDerivAt_id t).add_const τ
  simpa [Function.comp_def] using (h (t + τ)).comp t h1

/-! ### C159 -/

/-- **C159**: A part of a sine wave is the sine wave, that begins with the phase at the beginning of the part. -/
theorem C159_sine (mem mem' : Nat → Nat → ℝ) (frequency phase rate : ℝ) (length n m : Nat) (hr : rate ≠ 0)
    (h : n + m ≤ length) :
    ∃ w v, Waves.sineWave mem frequency phase rate length = .ok w ∧
      Waves.sineWave mem' frequency (phase + 2 * Real.pi * frequency * (n / rate)) rate m = .ok v ∧
      v.signal.channels.cols = m ∧ ∀ i : Nat, i < m → v.signal.channels.get 0 i = w.signal.channels.get 0 (n + i) := by
  obtain ⟨w, w1, _, _, _, _, _, _, w2⟩ := Waves.C82_sine mem frequency phase rate length hr
  obtain ⟨v, v1, _, v3, _, _, _, _, v2⟩ := Waves.C82_sine mem' frequency (phase + 2 * Real.pi * frequency * (n / rate)) rate m hr
  refine ⟨w, v, w1, v1, v3, fun i hi => ?_⟩
  rw [v2 i hi, w2 (n + i) (by omega)]
  congr 1
  push_cast
  ring

/-- **C159**: A part of a square wave is the square wave, that begins with the phase at the beginning of the part. -/
theorem C159_square (mem mem' : Nat → Nat → ℝ) (frequency phase rate : ℝ) (length n m : Nat) (hr : rate ≠ 0)
    (h : n + m ≤ length) :
    ∃ w v, Waves.squareWave mem frequency phase rate length = .ok w ∧
      Waves.squareWave mem' frequency (phase + 2 * Real.pi * frequency * (n / rate)) rate m = .ok v ∧
      v.signal.channels.cols = m ∧ ∀ i : Nat, i < m → v.signal.channels.get 0 i = w.signal.channels.get 0 (n + i) := by
  obtain ⟨x, y, x1, y1, _, x3⟩ := C159_sine mem mem' frequency phase rate length n m hr h
  obtain ⟨w, w', w1, w2, _, _, _, _, _, _, w3⟩ := Waves.C82_square mem mem frequency phase rate length hr
  obtain ⟨v, v', v1, v2, _, v3, _, _, _, _, v4⟩ := Waves.C82_square mem' mem' frequency
    (phase + 2 * Real.pi * frequency * (n / rate)) rate m hr
  rw [x1] at w2
  rw [y1] at v2
  cases w2
  cases v2
  refine ⟨w, v, w1, v1, v3, fun i hi => ?_⟩
  have a := v4 i hi
  have b := w3 (n + i) (by omega)
  rw [x3 i hi] at a
  rcases lt_trichotomy (x.signal.channels.get 0 (n + i)) 0 with h0 | h0 | h0
  · rw [a.2.2 h0, b.2.2 h0]
  · rw [a.2.1 h0, b.2.1 h0]
  · rw [a.1 h0, b.1 h0]

/-- **C159**: A part of a linear sweep is the linear sweep between the instantaneous frequencies at the beginning and at the
end of the part, with the phase at its beginning. -/
theorem C159_linear (f0 f1 phase : ℝ) (interval : Idx × Idx) (rate : ℝ) (length : Nat) (numexpr numexpr' : Bool)
    (start stop : Int) (hr : rate ≠ 0) (h1 : index length interval.1 = some start)
    (h2 : index length interval.2 = some stop) (hne : start ≠ stop) (n m : Nat) (hm : 0 < m) (h : n + m ≤ length) :
    ∃ s g0 g1 phase' v, linearSweep f0 f1 phase interval rate length numexpr = some (.ok s) ∧
      s.instantaneousFrequency (n / rate) = .ok g0 ∧ s.instantaneousFrequency ((n + m : Nat) / rate) = .ok g1 ∧
      linearSweep g0 g1 phase' (.int 0, .int m) rate m numexpr' = some (.ok v) ∧ v.signal.channels.cols = m ∧
      (∀ i : Nat, i < m → v.signal.channels.get 0 i = s.signal.channels.get 0 (n + i)) ∧
      (∀ t, v.instantaneousFrequency t = s.instantaneousFrequency (t + n / rate)) ∧
      ((n : Int) = start → phase' = phase) := by
  obtain ⟨s, s1, _, _, _, _, Φ, f, s2, s3, s4, s5, _, _, ⟨k, s6⟩, _⟩ := C44_linear f0 f1 phase interval rate length numexpr
    start stop hr h1 h2 hne
  have i1 : index m (.int 0) = some 0 := by simp [index, Idx.start]
  have i2 : index m (.int m) = some (m : Int) := by simp [index, Idx.start]
  obtain ⟨v, v1, _, v7, _, _, Ψ, g, v2, v3, v4, v5, v8, v9, ⟨k', v6⟩, _⟩ := C44_linear (f (n / rate)) (f ((n + m : Nat) / rate))
    (Φ (n / rate)) (.int 0, .int m) rate m numexpr' 0 m hr i1 i2 (by omega)
  have hm0 : (m : ℝ) ≠ 0 := by exact_mod_cast hm.ne'
  have hg : ∀ t, g t = f (t + n / rate) := by
    refine affine_unique v6 (fun t => shifted (f' := fun _ => k) s6 (n / rate) t) (a := 0) (b := m / rate)
      (div_ne_zero hm0 hr).symm ?_ ?_
    · have : g 0 = f (n / rate) := by simpa using v8
      rw [this, zero_add]
    · have : g (m / rate) = f ((n + m : Nat) / rate) := by simpa using v9
      rw [this]
      congr 1
      push_cast
      ring
  have hΨ : ∀ t, Ψ t = Φ (t + n / rate) := by
    refine phase_unique (f := fun t => 2 * Real.pi * g t) v4 (fun t => ?_) (a := 0) ?_
    · rw [hg]
      exact shifted (f' := fun t => 2 * Real.pi * f t) s4 (n / rate) t
    · have : Ψ 0 = Φ (n / rate) := by simpa using v5
      rw [this, zero_add]
  refine ⟨s, _, _, _, v, s1, s3 _, s3 _, v1, v7, fun i hi => ?_, fun t => ?_, fun hn => ?_⟩
  · rw [v2 i hi, s2 (n + i) (by omega), hΨ]
    congr 2
    push_cast
    ring
  · rw [v3, s3, hg]
  · rw [← s5, ← hn]
    norm_cast

/-- **C159**: A part of an exponential sweep is the exponential sweep between the instantaneous frequencies at the beginning and
at the end of the part, with the phase at its beginning. -/
theorem C159_exponential (f0 f1 phase : ℝ) (interval : Idx × Idx) (rate : ℝ) (length : Nat) (numexpr numexpr' : Bool)
    (start stop : Int) (hr : rate ≠ 0) (h1 : index length interval.1 = some start)
    (h2 : index length interval.2 = some stop) (hne : start ≠ stop) (hf : 0 < f0) (hf1 : 0 < f1) (hff : f0 ≠ f1)
    (n m : Nat) (hm : 0 < m) (h : n + m ≤ length) :
    ∃ s g0 g1 phase' v, exponentialSweep f0 f1 phase interval rate length numexpr = some (.ok s) ∧
      s.instantaneousFrequency (n / rate) = .ok g0 ∧ s.instantaneousFrequency ((n + m : Nat) / rate) = .ok g1 ∧
      exponentialSweep g0 g1 phase' (.int 0, .int m) rate m numexpr' = some (.ok v) ∧ v.signal.channels.cols = m ∧
      (∀ i : Nat, i < m → v.signal.channels.get 0 i = s.signal.channels.get 0 (n + i)) ∧
      (∀ t, v.instantaneousFrequency t = s.instantaneousFrequency (t + n / rate)) ∧
      ((n : Int) = start → phase' = phase) := by
  obtain ⟨s, s1, _, _, _, _, s7, Φ, f, s2, s3, s4, s5, _, _, sp, s6, _⟩ := C44_exponential f0 f1 phase interval rate length
    numexpr start stop hr h1 h2 hne hf hf1 hff
  have i1 : index m (.int 0) = some 0 := by simp [index, Idx.start]
  have i2 : index m (.int m) = some (m : Int) := by simp [index, Idx.start]
  have hm0 : (m : ℝ) ≠ 0 := by exact_mod_cast hm.ne'
  have hl : s.l ≠ 0 := by
    intro h0
    rw [h0, zero_mul] at s7
    have : ((stop : ℝ) - start) ≠ 0 := sub_ne_zero.mpr (by exact_mod_cast hne.symm)
    exact (div_ne_zero this hr) s7.symm
  have hne' : f (n / rate) ≠ f ((n + m : Nat) / rate) := by
    rw [exponential s6 (n / rate) ((n + m : Nat) / rate)]
    intro h0
    have h1 : Real.exp (((n + m : Nat) / rate - n / rate) / s.l) = 1 :=
      mul_left_cancel₀ (sp (n / rate)).ne' (by rw [← h0, mul_one])
    rw [Real.exp_eq_one_iff] at h1
    have h2 : ((n + m : Nat) / rate - n / rate : ℝ) = m / rate := by
      push_cast
      ring
    rw [h2] at h1
    exact (div_ne_zero (div_ne_zero hm0 hr) hl) h1
  obtain ⟨v, v1, _, v7, _, _, _, Ψ, g, v2, v3, v4, v5, v8, v9, vp, v6, _⟩ := C44_exponential (f (n / rate))
    (f ((n + m : Nat) / rate)) (Φ (n / rate)) (.int 0, .int m) rate m numexpr' 0 m hr i1 i2 (by omega) (sp _) (sp _) hne'
  have hg : ∀ t, g t = f (t + n / rate) := by
    refine exponential_unique v6 (fun t => shifted (f' := fun t => f t / s.l) s6 (n / rate) t) vp (a := 0) (b := m / rate)
      (div_ne_zero hm0 hr).symm ?_ ?_
    · have : g 0 = f (n / rate) := by simpa using v8
      rw [this, zero_add]
    · have : g (m / rate) = f ((n + m : Nat) / rate) := by simpa using v9
      rw [this]
      congr 1
      push_cast
      ring
  have hΨ : ∀ t, Ψ t = Φ (t + n / rate) := by
    refine phase_unique (f := fun t => 2 * Real.pi * g t) v4 (fun t => ?_) (a := 0) ?_
    · rw [hg]
      exact shifted (f' := fun t => 2 * Real.pi * f t) s4 (n / rate) t
    · have : Ψ 0 = Φ (n / rate) := by simpa using v5
      rw [this, zero_add]
  refine ⟨s, _, _, _, v, s1, s3 _, s3 _, v1, v7, fun i hi => ?_, fun t => ?_, fun hn => ?_⟩
  · rw [v2 i hi, s2 (n + i) (by omega), hΨ]
    congr 2
    push_cast
    ring
  · rw [v3, s3, hg]
  · rw [← s5, ← hn]
    norm_cast

/-- **C159**: The samples of a linear sweep do not depend on the length of the signal, if the interval is given by the
indices of samples. -/
theorem C159_linear_length (f0 f1 phase : ℝ) (start stop : Nat) (rate : ℝ) (length length' : Nat) (numexpr numexpr' : Bool)
    (hr : rate ≠ 0) (hne : start ≠ stop) :
    ∃ s v, linearSweep f0 f1 phase (.int start, .int stop) rate length numexpr = some (.ok s) ∧
      linearSweep f0 f1 phase (.int start, .int stop) rate length' numexpr' = some (.ok v) ∧
      (∀ i : Nat, i < length → i < length' → v.signal.channels.get 0 i = s.signal.channels.get 0 i) ∧
      ∀ t, v.instantaneousFrequency t = s.instantaneousFrequency t := by
  have i1 : ∀ (l n : Nat), index l (.int n) = some (n : Int) := fun l n => by simp [index, Idx.start]
  have hne' : (start : Int) ≠ stop := by exact_mod_cast hne
  obtain ⟨s, s1, _, _, _, _, Φ, f, s2, s3, s4, s5, s8, s9, ⟨k, s6⟩, _⟩ := C44_linear f0 f1 phase (.int start, .int stop) rate
    length numexpr start stop hr (i1 _ _) (i1 _ _) hne'
  obtain ⟨v, v1, _, _, _, _, Ψ, g, v2, v3, v4, v5, v8, v9, ⟨k', v6⟩, _⟩ := C44_linear f0 f1 phase (.int start, .int stop) rate
    length' numexpr' start stop hr (i1 _ _) (i1 _ _) hne'
  have hg : ∀ t, g t = f t := affine_unique v6 s6 (a := (start : Int) / rate) (b := (stop : Int) / rate)
    (fun h => hne' (by exact_mod_cast (div_left_inj' hr).mp h)) (by rw [v8, s8]) (by rw [v9, s9])
  have hΨ : ∀ t, Ψ t = Φ t := by
    refine phase_unique (f := fun t => 2 * Real.pi * g t) v4 (fun t => ?_) (a := (start : Int) / rate) (by rw [v5, s5])
    rw [hg]
    exact s4 t
  exact ⟨s, v, s1, v1, fun i hi hi' => by rw [v2 i hi', s2 i hi, hΨ], fun t => by rw [v3, s3, hg]⟩

/-- **C159**: The samples of an exponential sweep do not depend on the length of the signal, if the interval is given by the
indices of samples. -/
theorem C159_exponential_length (f0 f1 phase : ℝ) (start stop : Nat) (rate : ℝ) (length length' : Nat)
    (numexpr numexpr' : Bool) (hr : rate ≠ 0) (hne : start ≠ stop) (hf : 0 < f0) (hf1 : 0 < f1) (hff : f0 ≠ f1) :
    ∃ s v, exponentialSweep f0 f1 phase (.int start, .int stop) rate length numexpr = some (.ok s) ∧
      exponentialSweep f0 f1 phase (.int start, .int stop) rate length' numexpr' = some (.ok v) ∧
      (∀ i : Nat, i < length → i < length' → v.signal.channels.get 0 i = s.signal.channels.get 0 i) ∧
      ∀ t, v.instantaneousFrequency t = s.instantaneousFrequency t := by
  have i1 : ∀ (l n : Nat), index l (.int n) = some (n : Int) := fun l n => by simp [index, Idx.start]
  have hne' : (start : Int) ≠ stop := by exact_mod_cast hne
  obtain ⟨s, s1, _, _, _, _, _, Φ, f, s2, s3, s4, s5, s8, s9, sp, s6, _⟩ := C44_exponential f0 f1 phase
    (.int start, .int stop) rate length numexpr start stop hr (i1 _ _) (i1 _ _) hne' hf hf1 hff
  obtain ⟨v, v1, _, _, _, _, _, Ψ, g, v2, v3, v4, v5, v8, v9, vp, v6, _⟩ := C44_exponential f0 f1 phase
    (.int start, .int stop) rate length' numexpr' start stop hr (i1 _ _) (i1 _ _) hne' hf hf1 hff
  have hg : ∀ t, g t = f t := exponential_unique v6 s6 vp (a := (start : Int) / rate) (b := (stop : Int) / rate)
    (fun h => hne' (by exact_mod_cast (div_left_inj' hr).mp h)) (by rw [v8, s8]) (by rw [v9, s9])
  have hΨ : ∀ t, Ψ t = Φ t := by
    refine phase_unique (f := fun t => 2 * Real.pi * g t) v4 (fun t => ?_) (a := (start : Int) / rate) (by rw [v5, s5])
    rw [hg]
    exact s4 t
  exact ⟨s, v, s1, v1, fun i hi hi' => by rw [v2 i hi', s2 i hi, hΨ], fun t => by rw [v3, s3, hg]⟩

/-- the hypotheses for the second half of a sweep of eight samples, which starts after the first two samples -/
example : (48000 : ℝ) ≠ 0 ∧ index (8 : Nat) (.int 2) = some 2 ∧ index (8 : Nat) (.float 1) = some 8 ∧ (2 : Int) ≠ 8 ∧
    (0 : ℝ) < 20 ∧ (20 : ℝ) ≠ 20000 ∧ 0 < 4 ∧ 4 + 4 ≤ 8 := by
  refine ⟨by norm_num, by decide +kernel, by decide +kernel, by norm_num, by norm_num, by norm_num, by norm_num, by norm_num⟩

/-- a sine wave with a frequency of a quarter of the sampling rate is continued by a cosine after one sample -/
example : (0 : ℝ) + 2 * Real.pi * 1 * ((1 : Nat) / 4) = Real.pi / 2 := by
  push_cast
  ring

end Pieces
end Verif
