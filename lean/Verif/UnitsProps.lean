import Verif.Waves
import Verif.Level
import Verif.Stft
import Verif.Reverberation

/-
C158: The results do not depend on the unit of time.
-/

namespace Verif
namespace Units

open Sweep (Instance General Linear Exponential)

/-! ### Specification

The factor `a` is the length of the old unit of time in multiples of the new one, like `1 / 1000` for a change from seconds to
kiloseconds; times become `t / a`, when frequencies and sampling rates become `a * f`. -/

/-- the same signal in the new unit -/
noncomputable def signal {α : Type} (a : ℝ) (s : Signal α ℝ) : Signal α ℝ := { s with rate := a * s.rate }

/-- the same spectrum in the new unit -/
noncomputable def spectrum {α : Type} (a : ℝ) (s : Spectrum α ℝ) : Spectrum α ℝ := { s with resolution := a * s.resolution }

/-- the same spectrogram in the new unit -/
noncomputable def spectrogram {α : Type} (a : ℝ) (s : Spectrogram α ℝ) : Spectrogram α ℝ :=
  { s with resolution := a * s.resolution, rate := a * s.rate }

/-- the same wave in the new unit; the number of periods has no unit -/
noncomputable def wave (a : ℝ) (w : Waves.Wave) : Waves.Wave := ⟨signal a w.signal, w.periods⟩

/-- the same sweep in the new unit -/
noncomputable def sweep (a : ℝ) (s : Instance) : Instance :=
  ⟨signal a s.signal, a * s.minimum, a * s.maximum, fun t => (s.function (a * t)).map (a * ·), s.l / a⟩

/-! ### Waves -/

theorem div_rate {a : ℝ} (ha : 0 < a) (x rate : ℝ) : Sweep.div x (a * rate) = (Sweep.div x rate).map (· / a) := by
  unfold Sweep.div
  by_cases h : rate = 0
  · rw [if_pos (by rw [h, mul_zero]), if_pos h]
    rfl
  · rw [if_neg (mul_ne_zero ha.ne' h), if_neg h]
    simp only [Except.map, Except.ok.injEq]
    rw [mul_comm, div_div]

theorem omegaT_unit {a : ℝ} (ha : 0 < a) (frequency phase rate : ℝ) (length : Nat) :
    Waves.omegaT (a * frequency) phase (a * rate) length = Waves.omegaT frequency phase rate length := by
  unfold Waves.omegaT
  rw [div_rate ha]
  rcases Sweep.div ((length : ℝ) - 1) rate with e | d
  · rfl
  · have h : 2 * Real.pi * (a * frequency) * (d / a) = 2 * Real.pi * frequency * d := by
      have := ha.ne'
      field_simp
    simp only [Except.map, bind, Except.bind, h]

theorem wave_new_unit {a : ℝ} (ha : 0 < a) (frequency : ℝ) (A : Mat ℝ) (rate : ℝ) (offset : Int) (labels : List String) :
    Waves.Wave.new (a * frequency) A (a * rate) offset labels =
      (Waves.Wave.new frequency A rate offset labels).map (wave a) := by
  show (Sweep.div (A.cols : ℝ) (a * rate) >>= fun d =>
      Except.ok (⟨Signal.new A (a * rate) offset (some labels), d * (a * frequency)⟩ : Waves.Wave) : Py Waves.Wave) =
    Except.map (wave a) (Sweep.div (A.cols : ℝ) rate >>= fun d =>
      Except.ok (⟨Signal.new A rate offset (some labels), d * frequency⟩ : Waves.Wave))
  rw [div_rate ha]
  rcases Sweep.div (A.cols : ℝ) rate with e | d
  · rfl
  · have h : d / a * (a * frequency) = d * frequency := by
      have := ha.ne'
      field_simp
    simp only [Except.map, bind, Except.bind, h]
    rfl

/-- **C158**: A sine wave does not depend on the unit, in which the frequency and the sampling rate are given. -/
theorem C158_sine {a : ℝ} (ha : 0 < a) (mem : Nat → Nat → ℝ) (frequency phase rate : ℝ) (length : Nat) :
    Waves.sineWave mem (a * frequency) phase (a * rate) length =
      (Waves.sineWave mem frequency phase rate length).map (wave a) := by
  unfold Waves.sineWave
  rw [omegaT_unit ha]
  rcases Waves.omegaT frequency phase rate length with e | t
  · rfl
  · dsimp only [bind, Except.bind]
    rcases (alloc mem 1 length).assign .all .all (t.map Real.sin) with e | A
    · rfl
    · exact wave_new_unit ha _ _ _ _ _

/-- **C158**: A square wave does not depend on the unit, in which the frequency and the sampling rate are given. -/
theorem C158_square {a : ℝ} (ha : 0 < a) (mem : Nat → Nat → ℝ) (frequency phase rate : ℝ) (length : Nat) :
    Waves.squareWave mem (a * frequency) phase (a * rate) length =
      (Waves.squareWave mem frequency phase rate length).map (wave a) := by
  unfold Waves.squareWave
  rw [omegaT_unit ha]
  rcases Waves.omegaT frequency phase rate length with e | t
  · rfl
  · dsimp only [bind, Except.bind]
    rcases (alloc mem 1 length).assign .all .all (t.map Real.sin) with e | A
    · rfl
    · exact wave_new_unit ha _ _ _ _ _

/-! ### Sweeps -/

/-- the same parameters in the new unit -/
noncomputable def general (a : ℝ) (g : General) : General :=
  ⟨g.start, g.stop, fun i => g.t i / a, g.duration / a, g.offset / a⟩

theorem linspace_div (x y a : ℝ) (n i : Nat) : Sweep.linspace (x / a) (y / a) n i = Sweep.linspace x y n i / a := by
  unfold Sweep.linspace
  split
  · rfl
  · ring

theorem general_unit {a : ℝ} (ha : 0 < a) (interval : Indexing.Idx × Indexing.Idx) (rate : ℝ) (length : Nat) :
    Sweep.general interval (a * rate) length = (Sweep.general interval rate length).map (Except.map (general a)) := by
  unfold Sweep.general
  rcases Indexing.index length interval.1 with _ | start
  · rfl
  rcases Indexing.index length interval.2 with _ | stop
  · rfl
  show some _ = some _
  dsimp only
  rw [div_rate ha, div_rate ha, div_rate ha]
  unfold Sweep.div
  by_cases h : rate = 0
  · simp only [if_pos h]
    rfl
  · simp only [if_neg h, Except.map, bind, Except.bind, Option.some.injEq, Except.ok.injEq]
    unfold general
    congr 1
    funext i
    rw [← linspace_div]
    congr 1 <;> ring

/-- the same parameters in the new unit -/
noncomputable def linear (a : ℝ) (p : Linear) : Linear := ⟨general a p.toGeneral, a * p.a, a ^ 2 * p.b, a ^ 2 * p.k⟩

theorem linear_unit {a : ℝ} (ha : 0 < a) (f g : ℝ) (interval : Indexing.Idx × Indexing.Idx) (rate : ℝ) (length : Nat) :
    Sweep.linearParameters (a * f) (a * g) interval (a * rate) length =
      (Sweep.linearParameters f g interval rate length).map (Except.map (linear a)) := by
  unfold Sweep.linearParameters
  rw [general_unit ha]
  rcases Sweep.general interval rate length with _ | p
  · rfl
  rcases p with e | p
  · rfl
  show some _ = some _
  congr 1
  show Except.bind (Sweep.div _ (p.duration / a)) _ = Except.map _ (Except.bind (Sweep.div _ p.duration) _)
  unfold Sweep.div
  have := ha.ne'
  by_cases h : p.duration = 0
  · rw [if_pos (by rw [h, zero_div]), if_pos h]
    rfl
  · rw [if_neg (div_ne_zero h ha.ne'), if_neg h]
    simp only [Except.map, Except.bind, linear, Except.ok.injEq]
    congr 1
    · ring
    · field_simp
    · field_simp

/-- the same parameters in the new unit -/
noncomputable def exponential (a : ℝ) (p : Exponential) : Exponential := ⟨general a p.toGeneral, p.l / a, p.a⟩

theorem exponential_unit {a : ℝ} (ha : 0 < a) (f g : ℝ) (interval : Indexing.Idx × Indexing.Idx) (rate : ℝ) (length : Nat) :
    Sweep.exponentialParameters (a * f) (a * g) interval (a * rate) length =
      (Sweep.exponentialParameters f g interval rate length).map (Except.map (exponential a)) := by
  unfold Sweep.exponentialParameters
  rw [general_unit ha]
  rcases Sweep.general interval rate length with _ | p
  · rfl
  rcases p with e | p
  · rfl
  show some _ = some _
  congr 1
  have hr : Sweep.div (a * g) (a * f) = Sweep.div g f := by
    unfold Sweep.div
    by_cases h : f = 0
    · rw [if_pos (by rw [h, mul_zero]), if_pos h]
    · rw [if_neg (mul_ne_zero ha.ne' h), if_neg h, mul_div_mul_left _ _ ha.ne']
  show Except.bind (Sweep.div (a * g) (a * f)) _ = Except.map _ (Except.bind (Sweep.div g f) _)
  rw [hr]
  rcases Sweep.div g f with e | q
  · rfl
  show Except.bind (Sweep.log q) _ = Except.map _ (Except.bind (Sweep.log q) _)
  rcases Sweep.log q with e | q
  · rfl
  show Except.bind (Sweep.div (p.duration / a) q) _ = Except.map _ (Except.bind (Sweep.div p.duration q) _)
  unfold Sweep.div
  have := ha.ne'
  by_cases h : q = 0
  · rw [if_pos h, if_pos h]
    rfl
  · rw [if_neg h, if_neg h]
    simp only [Except.map, Except.bind, exponential, Except.ok.injEq]
    congr 1
    · rw [div_right_comm]
    · field_simp

theorem instance_unit {a : ℝ} (ha : 0 < a) (A : Mat ℝ) (rate : ℝ) (offset : Int) (F : ℝ → Py ℝ) (l : ℝ) :
    Instance.new A (a * rate) offset (fun t => (F (a * t)).map (a * ·)) (l / a) =
      (Instance.new A rate offset F l).map (sweep a) := by
  unfold Instance.new
  dsimp only
  rw [div_rate ha, mul_zero]
  rcases F 0 with e | x
  · rfl
  show Except.bind (Except.map _ (Sweep.div _ rate)) _ = Except.map _ (Except.bind (Sweep.div _ rate) _)
  rcases Sweep.div (A.cols : ℝ) rate with e | d
  · rfl
  show Except.bind (Except.map _ (F (a * (d / a)))) _ = Except.map _ (Except.bind (F d) _)
  rw [mul_div_cancel₀ _ ha.ne']
  rcases F d with e | y
  · rfl
  have h : a * x ≤ a * y ↔ x ≤ y := mul_le_mul_iff_right₀ ha
  show Except.ok _ = Except.ok _
  congr 1
  unfold sweep signal Signal.new
  by_cases hxy : x ≤ y
  · simp only [h, if_pos hxy]
  · simp only [h, if_neg hxy]

/-- **C158**: A linear sweep does not depend on the unit, in which the frequencies and the sampling rate are given. -/
theorem C158_linear {a : ℝ} (ha : 0 < a) (f g phase : ℝ) (interval : Indexing.Idx × Indexing.Idx) (rate : ℝ) (length : Nat)
    (numexpr : Bool) :
    Sweep.linearSweep (a * f) (a * g) phase interval (a * rate) length numexpr =
      (Sweep.linearSweep f g phase interval rate length numexpr).map (Except.map (sweep a)) := by
  unfold Sweep.linearSweep
  rw [linear_unit ha]
  rcases Sweep.linearParameters f g interval rate length with _ | p
  · rfl
  rcases p with e | p
  · rfl
  show some _ = some _
  congr 1
  have := ha.ne'
  refine Eq.trans ?_ (instance_unit ha _ rate 0 (fun tau => .ok (f + p.k * (tau - p.offset))) 0)
  dsimp only [Except.map, bind, Except.bind]
  congr 1
  · congr 1
    funext _ i
    have h : ∀ t b c phase : ℝ, t / a * (t / a) * (a ^ 2 * b) + a * c * (t / a) + phase = t * t * b + c * t + phase := by
      intro t b c phase
      field_simp
    have h' : ∀ t b c phase : ℝ, phase + a * c * (t / a) + a ^ 2 * b * (t / a) ^ 2 = phase + c * t + b * t ^ 2 := by
      intro t b c phase
      field_simp
    simp only [linear, general, h, h']
  · funext t
    simp only [linear, general, Except.ok.injEq]
    field_simp
  · rw [zero_div]

/-- **C158**: An inverse linear sweep does not depend on the unit, in which the frequencies and the sampling rate are given. -/
theorem C158_inverse_linear {a : ℝ} (ha : 0 < a) (f g phase : ℝ) (interval : Indexing.Idx × Indexing.Idx) (rate : ℝ)
    (length : Nat) (numexpr : Bool) :
    Sweep.inverseLinearSweep (a * f) (a * g) phase interval (a * rate) length numexpr =
      (Sweep.inverseLinearSweep f g phase interval rate length numexpr).map (Except.map (sweep a)) := by
  unfold Sweep.inverseLinearSweep
  rw [linear_unit ha]
  rcases Sweep.linearParameters f g interval rate length with _ | p
  · rfl
  rcases p with e | p
  · rfl
  show some _ = some _
  congr 1
  have := ha.ne'
  show Except.bind (Sweep.div 2 (p.stop - p.start : Int)) _ = Except.map _ (Except.bind (Sweep.div 2 (p.stop - p.start : Int)) _)
  rcases Sweep.div 2 (p.stop - p.start : Int) with e | s
  · rfl
  refine Eq.trans ?_ (instance_unit ha _ rate (-p.stop - p.start) (fun tau => .ok (g - p.k * (tau - p.offset))) 0)
  dsimp only [Except.map, bind, Except.bind]
  congr 1
  · congr 1
    funext _ i
    have h0 : ∀ t d : ℝ, t / a * (-1) + d / a = (t * (-1) + d) / a := by
      intro t d
      ring
    have h : ∀ t b c phase : ℝ, t / a * (t / a) * (a ^ 2 * b) + a * c * (t / a) + phase = t * t * b + c * t + phase := by
      intro t b c phase
      field_simp
    have h' : ∀ t b c phase : ℝ, phase + a * c * (t / a) + a ^ 2 * b * (t / a) ^ 2 = phase + c * t + b * t ^ 2 := by
      intro t b c phase
      field_simp
    simp only [linear, general, h0, h, h']
  · funext t
    simp only [linear, general, Except.ok.injEq]
    field_simp
  · rw [zero_div]

/-- the instantaneous frequency of an exponential sweep in the new unit -/
theorem function_unit {a : ℝ} (ha : 0 < a) (f x y l : ℝ) (h : y = x / a) :
    (Sweep.div y (l / a) >>= fun e => Except.ok (a * f * Real.exp e) : Py ℝ) =
      Except.map (a * ·) (Sweep.div x l >>= fun e => Except.ok (f * Real.exp e)) := by
  unfold Sweep.div
  subst h
  by_cases hl : l = 0
  · rw [if_pos (by rw [hl, zero_div]), if_pos hl]
    rfl
  · rw [if_neg (div_ne_zero hl ha.ne'), if_neg hl, div_div_div_cancel_right₀ ha.ne']
    simp only [Except.map, bind, Except.bind, mul_assoc]

/-- **C158**: An exponential sweep does not depend on the unit, in which the frequencies and the sampling rate are given. -/
theorem C158_exponential {a : ℝ} (ha : 0 < a) (f g phase : ℝ) (interval : Indexing.Idx × Indexing.Idx) (rate : ℝ)
    (length : Nat) (numexpr : Bool) :
    Sweep.exponentialSweep (a * f) (a * g) phase interval (a * rate) length numexpr =
      (Sweep.exponentialSweep f g phase interval rate length numexpr).map (Except.map (sweep a)) := by
  unfold Sweep.exponentialSweep
  rw [exponential_unit ha]
  rcases Sweep.exponentialParameters f g interval rate length with _ | p
  · rfl
  rcases p with e | p
  · rfl
  show some _ = some _
  congr 1
  have := ha.ne'
  refine Eq.trans ?_ (instance_unit ha _ rate 0
    (fun tau => Sweep.div (tau - p.offset) p.l >>= fun e => .ok (f * Real.exp e)) p.l)
  dsimp only [Except.map, bind, Except.bind]
  congr 1
  · congr 1
    funext _ i
    simp only [exponential, general, div_div_div_cancel_right₀ ha.ne']
  · funext t
    refine function_unit ha f (a * t - p.offset) _ p.l ?_
    simp only [exponential, general]
    field_simp

/-- **C158**: An inverse exponential sweep does not depend on the unit, in which the frequencies and the sampling rate are
given. -/
theorem C158_inverse_exponential {a : ℝ} (ha : 0 < a) (f g phase : ℝ) (interval : Indexing.Idx × Indexing.Idx) (rate : ℝ)
    (length : Nat) (numexpr : Bool) :
    Sweep.inverseExponentialSweep (a * f) (a * g) phase interval (a * rate) length numexpr =
      (Sweep.inverseExponentialSweep f g phase interval rate length numexpr).map (Except.map (sweep a)) := by
  unfold Sweep.inverseExponentialSweep
  rw [exponential_unit ha]
  rcases Sweep.exponentialParameters f g interval rate length with _ | p
  · rfl
  rcases p with e | p
  · rfl
  show some _ = some _
  congr 1
  have := ha.ne'
  have hs : (Sweep.div (2 * (a * f)) (p.l / a) >>= fun s => Sweep.div s (a * g - a * f) >>= fun s =>
      Sweep.div s (a * rate) : Py ℝ) = (Sweep.div (2 * f) p.l >>= fun s => Sweep.div s (g - f) >>= fun s => Sweep.div s rate) := by
    unfold Sweep.div
    by_cases hl : p.l = 0
    · rw [if_pos (by rw [hl, zero_div]), if_pos hl]
      rfl
    rw [if_neg (div_ne_zero hl ha.ne'), if_neg hl]
    rw [← mul_sub]
    simp only [bind, Except.bind, mul_eq_zero, this, false_or]
    by_cases hg : g - f = 0
    · rw [if_pos hg, if_pos hg]
    rw [if_neg hg, if_neg hg]
    dsimp only
    by_cases hr : rate = 0
    · rw [if_pos hr, if_pos hr]
    rw [if_neg hr, if_neg hr]
    congr 1
    field_simp
  have key : ∀ (F G : ℝ → Py Instance), (∀ s, F s = (G s).map (sweep a)) →
      (Sweep.div (2 * (a * f)) (p.l / a) >>= fun s => Sweep.div s (a * g - a * f) >>= fun s => Sweep.div s (a * rate) >>= F) =
        Except.map (sweep a) (Sweep.div (2 * f) p.l >>= fun s => Sweep.div s (g - f) >>= fun s => Sweep.div s rate >>= G) := by
    intro F G hFG
    have h1 := congrArg (fun r : Py ℝ => r >>= F) hs
    simp only [bind_assoc] at h1
    rw [h1]
    rcases Sweep.div (2 * f) p.l with e | s
    · rfl
    show Except.bind (Sweep.div s (g - f)) _ = Except.map _ (Except.bind (Sweep.div s (g - f)) _)
    rcases Sweep.div s (g - f) with e | s
    · rfl
    show Except.bind (Sweep.div s rate) _ = Except.map _ (Except.bind (Sweep.div s rate) _)
    rcases Sweep.div s rate with e | s
    · rfl
    exact hFG s
  refine key _ _ fun s => ?_
  refine Eq.trans ?_ (instance_unit ha _ rate (-p.stop - p.start)
    (fun tau => Sweep.div (-tau + p.offset) p.l >>= fun e => .ok (g * Real.exp e)) p.l)
  dsimp only [Except.map, bind, Except.bind]
  congr 1
  · congr 1
    funext _ i
    simp only [exponential, general, ← sub_div, div_div_div_cancel_right₀ ha.ne']
  · funext t
    refine function_unit ha g (-(a * t) + p.offset) _ p.l ?_
    simp only [exponential, general]
    field_simp

/-! ### Levels and reverberation times -/

/-- **C158**: The level over time does not depend on the unit, in which the sampling rate and the integration time are
given. -/
theorem C158_level {a : ℝ} (ha : 0 < a) (mem empty : Nat → Nat → ℝ) (s : Signal ℝ ℝ) (time : ℝ) (pad : Bool) :
    Level.levelVsTime mem empty (signal a s) (time / a) pad =
      (Level.levelVsTime mem empty s time pad).map (signal a) := by
  have hw : time / a * (signal a s).rate = time * s.rate := by
    have := ha.ne'
    show time / a * (a * s.rate) = _
    field_simp
  unfold Level.levelVsTime
  simp only [hw]
  by_cases h : time * s.rate ≤ 1
  · rw [if_pos h, if_pos h]
    rfl
  rw [if_neg h, if_neg h]
  have hb : ∀ r : Py (Mat ℝ),
      (r >>= fun A => Except.ok (Signal.new A (signal a s).rate (signal a s).offset (some (signal a s).labels)) :
        Py (Signal ℝ ℝ)) =
      Except.map (signal a) (r >>= fun A => Except.ok (Signal.new A s.rate s.offset (some s.labels))) := by
    intro r
    rcases r with e | A <;> rfl
  have hl : (signal a s).length = s.length := rfl
  rw [hl]
  by_cases h1 : 1 + ⌈(time * s.rate - 1) / 2⌉.toNat ≥ s.length
  · simp only [if_pos h1]
    exact hb _
  simp only [if_neg h1]
  by_cases h2 : 1 + 2 * ⌈(time * s.rate - 1) / 2⌉.toNat < s.length
  · simp only [if_pos h2]
    exact hb _
  simp only [if_neg h2]
  exact hb _

/-- **C158**: The reverberation time is given in the unit, that belongs to the sampling rate. -/
theorem C158_reverberation (a : ℝ) (lstsq : EnergyDecay.Lstsq) (s : Signal ℝ ℝ) (start stop : Indexing.Idx) :
    EnergyDecay.reverberationTime lstsq (signal a s) start stop =
      (EnergyDecay.reverberationTime lstsq s start stop).map (Except.map (List.map (· / a))) := by
  unfold EnergyDecay.reverberationTime
  have h : EnergyDecay.solve lstsq (signal a s) start stop = EnergyDecay.solve lstsq s start stop := rfl
  rw [h]
  rcases EnergyDecay.solve lstsq s start stop with _ | r
  · rfl
  rcases r with e | l
  · rfl
  show some (Except.ok _) = some (Except.ok _)
  rw [List.map_map]
  congr 2
  refine List.map_congr_left fun p _ => ?_
  show -60 / p.1 / (a * s.rate) = -60 / p.1 / s.rate / a
  rw [div_div _ s.rate, mul_comm]

/-! ### Transforms -/

theorem full_unit {a : ℝ} (ha : 0 < a) (mem : Nat → Nat → ℂ) (s : Signal ℝ ℝ) :
    Fourier.full mem (signal a s) = (Fourier.full mem s).map fun r => (r.1, a * r.2) := by
  have hc : (signal a s).count = s.count := rfl
  have hl : (signal a s).length = s.length := rfl
  have hA : (signal a s).channels = s.channels := rfl
  have ho : (signal a s).offset = s.offset := rfl
  have hr : (signal a s).rate = a * s.rate := rfl
  unfold Fourier.full
  simp only [hc, hl, hA, ho, hr]
  by_cases h1 : s.count = 0
  · rw [if_pos h1, if_pos h1]
    simp only [Except.map, mul_div_assoc]
  rw [if_neg h1, if_neg h1]
  by_cases h2 : s.length = 0
  · rw [if_pos h2, if_pos h2]
    rcases (alloc mem s.count 1).assign .all .all (.scalar 0) with e | A <;> rfl
  rw [if_neg h2, if_neg h2]
  rcases s.channels.rfft with e | X
  · rfl
  show (if s.offset = 0 then _ else _) = Except.map _ (if s.offset = 0 then _ else _)
  by_cases h3 : s.offset = 0
  · rw [if_pos h3, if_pos h3]
    rcases (alloc mem s.count (s.length / 2 + 1)).assign .all .all X with e | A
    · rfl
    · simp only [Except.map, bind, Except.bind, mul_div_assoc]
  rw [if_neg h3, if_neg h3]
  by_cases h4 : s.rate = 0
  · rw [if_pos (by rw [h4, mul_zero]), if_pos h4]
    rfl
  rw [if_neg (mul_ne_zero ha.ne' h4), if_neg h4]
  have hm : ∀ n o : ℂ, n * ((a * s.rate / s.length : ℝ) : ℂ) * (-2 * Complex.I) * (Real.pi : ℂ) * o / ((a * s.rate : ℝ) : ℂ) =
      n * ((s.rate / s.length : ℝ) : ℂ) * (-2 * Complex.I) * (Real.pi : ℂ) * o / (s.rate : ℂ) := by
    intro n o
    have h5 : (a : ℂ) ≠ 0 := by exact_mod_cast ha.ne'
    have h6 : (s.rate : ℂ) ≠ 0 := by exact_mod_cast h4
    have h7 : (s.length : ℂ) ≠ 0 := by exact_mod_cast h2
    push_cast
    field_simp
  simp only [hm]
  rcases Mat.ufunc2 (· * ·) X _ (alloc mem s.count (s.length / 2 + 1)) .all .all with e | A
  · rfl
  · simp only [Except.map, bind, Except.bind, mul_div_assoc]

/-- **C158**: The Fourier transform has the same bins; the resolution is given in the new unit. -/
theorem C158_fourier {a : ℝ} (ha : 0 < a) (mem : Nat → Nat → ℂ) (s : Signal ℝ ℝ) :
    Fourier.fourierTransform mem (signal a s) = (Fourier.fourierTransform mem s).map (spectrum a) := by
  unfold Fourier.fourierTransform
  rw [full_unit ha]
  rcases Fourier.full mem s with e | r <;> rfl

/-- **C158**: The inverse Fourier transform has the same samples; the sampling rate is given in the new unit. -/
theorem C158_inverse_fourier (a : ℝ) (mem : Nat → Nat → ℝ) (s : Spectrum ℂ ℝ) :
    Fourier.inverseFourierTransform mem (spectrum a s) = (Fourier.inverseFourierTransform mem s).map (signal a) := by
  unfold Fourier.inverseFourierTransform
  have hl : (spectrum a s).length = s.length := rfl
  have hA : (spectrum a s).channels = s.channels := rfl
  have hc : (spectrum a s).count = s.count := rfl
  have hr : (spectrum a s).resolution = a * s.resolution := rfl
  have hb : (spectrum a s).labels = s.labels := rfl
  simp only [hl, hA, hc, hr, hb]
  by_cases h : s.length = 0
  · rw [if_pos h, if_pos h]
    simp only [Except.map, signal, Signal.new, mul_zero]
  rw [if_neg h, if_neg h]
  rcases Fourier.irfftN s.channels with e | X
  · rfl
  dsimp only [bind, Except.bind]
  rcases (alloc mem s.count (max 1 ((s.length - 1) * 2))).assign .all .all X with e | A
  · rfl
  · simp only [Except.map, signal, Signal.new, mul_assoc]

/-- **C158**: The short time Fourier transform has the same bins; the resolution and the sampling rate are given in the new
unit. -/
theorem C158_stft {a : ℝ} (ha : 0 < a) (s window : Signal ℝ ℝ) (overlap : Indexing.Idx) (pad : Bool) :
    Stft.stftWith (signal a s) window overlap pad =
      (Stft.stftWith s window overlap pad).map (Except.map (spectrogram a)) := by
  have hA : ∀ o, Stft.transformed (signal a s) window.channels o pad = Stft.transformed s window.channels o pad := fun _ => rfl
  have ho : (signal a s).offset = s.offset := rfl
  have hr : (signal a s).rate = a * s.rate := rfl
  have hb : (signal a s).labels = s.labels := rfl
  unfold Stft.stftWith
  simp only [hA, ho, hr, hb]
  rcases Indexing.index window.length overlap with _ | o
  · rfl
  show some _ = some _
  congr 1
  rcases Stft.transformed s window.channels o pad with e | X
  · rfl
  show (if _ then _ else _) = Except.map _ (if _ then _ else _)
  split
  · simp only [Except.map, spectrogram, Spectrogram.new, mul_div_assoc]
  · by_cases h : s.rate = 0
    · rw [if_pos (by rw [h, mul_zero]), if_pos h]
      rfl
    rw [if_neg (mul_ne_zero ha.ne' h), if_neg h]
    have hk : ∀ (W : Nat) (m : Int) (k : Nat), Stft.compensation W (a * s.rate / W) (a * s.rate) m k =
        Stft.compensation W (s.rate / W) s.rate m k := by
      intro W m k
      unfold Stft.compensation Fourier.clinspace
      have h5 : (a : ℂ) ≠ 0 := by exact_mod_cast ha.ne'
      have h6 : (s.rate : ℂ) ≠ 0 := by exact_mod_cast h
      congr 1
      split
      · rw [zero_mul, zero_mul]
      · push_cast
        have : (a : ℂ) * s.rate / W = a * (s.rate / W) := mul_div_assoc _ _ _
        rw [this, div_mul_eq_div_div_swap]
        field_simp
    simp only [hk]
    simp only [Except.map, spectrogram, Spectrogram.new, mul_div_assoc]

/-- **C158**: The inverse of the short time Fourier transform has the same samples; the sampling rate is given in the new
unit. -/
theorem C158_inverse_stft (a : ℝ) (s : Spectrogram ℂ ℝ) (window : Signal ℝ ℝ) (overlap : Indexing.Idx) (pad : Bool) :
    Stft.istftWith (spectrogram a s) window overlap pad =
      (Stft.istftWith s window overlap pad).map (Except.map (signal a)) := by
  have hA : ∀ o, Stft.inverted (spectrogram a s) window.channels o pad = Stft.inverted s window.channels o pad := fun _ => rfl
  unfold Stft.istftWith
  simp only [hA]
  rcases Indexing.index window.length overlap with _ | o
  · rfl
  show some _ = some _
  congr 1
  rcases Stft.inverted s window.channels o pad with e | X
  · rfl
  show Except.ok _ = Except.ok _
  simp only [spectrogram, signal, Signal.new, mul_assoc]

/-! ### The hypotheses can be satisfied -/

/-- a signal with an offset -/
private def ramp : Signal ℝ ℝ := Signal.new ⟨1, 4, fun _ i => (i : ℝ)⟩ 2 1 (some ["ramp"])

example : (0 : ℝ) < 1 / 1000 := by norm_num

/-- the transform of a signal with an offset in another unit -/
example (mem : Nat → Nat → ℂ) :
    Fourier.fourierTransform mem (signal (1 / 1000) ramp) = (Fourier.fourierTransform mem ramp).map (spectrum (1 / 1000)) :=
  C158_fourier (by norm_num) mem ramp

/-- a sine wave, whose frequency and sampling rate are given in kilohertz -/
example (mem : Nat → Nat → ℝ) :
    Waves.sineWave mem (1 / 1000 * 500) 0 (1 / 1000 * 48000) 96 =
      (Waves.sineWave mem 500 0 48000 96).map (wave (1 / 1000)) ∧
    ∃ w, Waves.sineWave mem 500 0 48000 96 = .ok w ∧ w.periods = 1 := by
  refine ⟨C158_sine (by norm_num) mem 500 0 48000 96, ?_⟩
  have h : (48000 : ℝ) ≠ 0 := by norm_num
  unfold Waves.sineWave Waves.omegaT Waves.Wave.new Sweep.div
  simp only [if_neg h, bind, Except.bind]
  refine ⟨_, rfl, ?_⟩
  show ((96 : Nat) : ℝ) / 48000 * 500 = 1
  norm_num

end Units
end Verif
