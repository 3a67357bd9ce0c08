import Verif.Statistics
import Verif.LevelProps
import Verif.SignalLawsProps
import Mathlib.Algebra.Order.Chebyshev

/-
C94: The statistical parameters of signals
-/

namespace Verif
namespace Statistics

open Finset

variable {R : Type}

/-! ### the specification -/

/-- the average of a function of the samples of a channel -/
noncomputable def average (s : Signal ℝ R) (c : Nat) (f : ℝ → ℝ) : ℝ :=
  (∑ i ∈ range s.length, f (s.channels.get c i)) / s.length

/-- the average of a function of the samples of all channels -/
noncomputable def total (s : Signal ℝ R) (f : ℝ → ℝ) : ℝ :=
  (∑ c ∈ range s.count, ∑ i ∈ range s.length, f (s.channels.get c i)) / (s.count * s.length)

/-- the expected value for an average `E` -/
def μ (E : (ℝ → ℝ) → ℝ) : ℝ := E fun x => x

/-- the central moments for an average `E` -/
def moment (E : (ℝ → ℝ) → ℝ) (k : Nat) : ℝ := E fun x => (x - μ E) ^ k

/-- the standard deviation for an average `E` -/
noncomputable def σ (E : (ℝ → ℝ) → ℝ) : ℝ := Real.sqrt (moment E 2)

/-- an array with the results for each channel -/
def eachChannel (s : Signal ℝ R) (f : Nat → Option ℝ) : Result := .array ((List.range s.count).map f)

/-! ### the methods compute the parameters -/

theorem alongRows_eq (f : Nat → (Nat → ℝ) → Option ℝ) (g : Nat → Option ℝ) (s : Signal ℝ R)
    (h : ∀ c, f s.length (s.channels.get c) = g c) :
    Result.array (alongRows f s.channels) = eachChannel s g := by
  unfold alongRows eachChannel
  congr 1
  exact List.map_congr_left fun c _ => h c

theorem sum_flattened (r n : Nat) (hn : 0 < n) (g : Nat → Nat → ℝ) :
    ∑ j ∈ range (r * n), g (j / n) (j % n) = ∑ c ∈ range r, ∑ i ∈ range n, g c i := by
  induction r with
  | zero => simp
  | succ r ih =>
    rw [Nat.succ_mul, Finset.sum_range_add, ih, Finset.sum_range_succ]
    congr 1
    refine Finset.sum_congr rfl fun i hi => ?_
    rw [mem_range] at hi
    rw [Nat.mul_comm r n, Nat.mul_add_div hn, Nat.div_eq_of_lt hi, Nat.mul_add_mod, Nat.mod_eq_of_lt hi, Nat.add_zero]

/-- the relation between the functions of numpy and averages -/
theorem npMean_average (s : Signal ℝ R) (h : 0 < s.length) (c : Nat) (f : ℝ → ℝ) :
    npMean s.length (fun i => f (s.channels.get c i)) = some (average s c f) := if_neg (by omega)

theorem npMean_total (s : Signal ℝ R) (h : 0 < s.length) (hc : 0 < s.count) (f : ℝ → ℝ) :
    npMean (s.channels.rows * s.channels.cols)
      (fun j => f (s.channels.get (j / s.channels.cols) (j % s.channels.cols))) = some (total s f) := by
  have h1 : s.channels.rows * s.channels.cols ≠ 0 := Nat.mul_ne_zero (by unfold Signal.count at hc; omega)
    (by unfold Signal.length at h; omega)
  unfold npMean total
  dsimp only
  rw [if_neg h1, sum_flattened s.channels.rows s.channels.cols h fun c i => f (s.channels.get c i)]
  push_cast
  rfl

/-- the values of the functions, if the averages of all functions of the values are given by `E` -/
theorem np_values (n : Nat) (x : Nat → ℝ) (E : (ℝ → ℝ) → ℝ) (h : ∀ f : ℝ → ℝ, npMean n (fun i => f (x i)) = some (E f)) :
    npMean n x = some (μ E) ∧ npVar n x = some (moment E 2) ∧ npStd n x = some (σ E) ∧
    scipySkew n x = (if moment E 2 = 0 then none else some (moment E 3 / σ E ^ 3)) ∧
    scipyKurtosis n x = (if moment E 2 = 0 then none else some (moment E 4 / σ E ^ 4 - 3)) := by
  have hm : npMean n x = some (μ E) := h fun x => x
  have hk : ∀ k, npMoment k n x = some (moment E k) := by
    intro k
    unfold npMoment
    rw [hm]
    exact h fun x => (x - μ E) ^ k
  have hpos : 0 ≤ moment E 2 := by
    have h2 := hk 2
    unfold npMoment at h2
    rw [hm, Option.bind_some] at h2
    unfold npMean at h2
    split at h2
    · cases h2
    · rw [← Option.some.inj h2]
      exact div_nonneg (Finset.sum_nonneg fun i _ => sq_nonneg _) (Nat.cast_nonneg _)
  refine ⟨hm, hk 2, ?_, ?_, ?_⟩
  · unfold npStd npVar
    rw [hk 2]
    rfl
  · unfold scipySkew
    rw [hk 2, hk 3, Option.bind_some, Option.bind_some]
    congr 3
    unfold σ
    rw [Real.sqrt_eq_rpow, ← Real.rpow_natCast, ← Real.rpow_mul hpos]
    norm_num
  · unfold scipyKurtosis
    rw [hk 2, hk 4, Option.bind_some, Option.bind_some]
    congr 4
    unfold σ
    rw [show (Real.sqrt (moment E 2)) ^ 4 = (Real.sqrt (moment E 2) ^ 2) ^ 2 by ring, Real.sq_sqrt hpos]

/-- C94: The methods compute the mean, the standard deviation, the variance, the skewness and the excess kurtosis of each
channel. The last two are `nan` for constant channels. -/
theorem C94_channels (s : Signal ℝ R) (h : 0 < s.length) :
    mean s false = eachChannel s (fun c => some (μ (average s c))) ∧
    standardDeviation s false = eachChannel s (fun c => some (σ (average s c))) ∧
    variance s false = eachChannel s (fun c => some (moment (average s c) 2)) ∧
    skewness s false = eachChannel s (fun c => if moment (average s c) 2 = 0 then none
      else some (moment (average s c) 3 / σ (average s c) ^ 3)) ∧
    kurtosis s false = eachChannel s (fun c => if moment (average s c) 2 = 0 then none
      else some (moment (average s c) 4 / σ (average s c) ^ 4 - 3)) := by
  have key := fun c => np_values s.length (s.channels.get c) (average s c) (npMean_average s h c)
  exact ⟨alongRows_eq _ _ s fun c => (key c).1, alongRows_eq _ _ s fun c => (key c).2.2.1,
    alongRows_eq _ _ s fun c => (key c).2.1, alongRows_eq _ _ s fun c => (key c).2.2.2.1,
    alongRows_eq _ _ s fun c => (key c).2.2.2.2⟩

/-- C94: With `single_value=True`, these are computed from the samples of all channels. -/
theorem C94_single_value (s : Signal ℝ R) (h : 0 < s.length) (hc : 0 < s.count) :
    mean s true = .value (some (μ (total s))) ∧
    standardDeviation s true = .value (some (σ (total s))) ∧
    variance s true = .value (some (moment (total s) 2)) ∧
    skewness s true = .value (if moment (total s) 2 = 0 then none else some (moment (total s) 3 / σ (total s) ^ 3)) ∧
    kurtosis s true = .value (if moment (total s) 2 = 0 then none else some (moment (total s) 4 / σ (total s) ^ 4 - 3)) := by
  obtain ⟨h1, h2, h3, h4, h5⟩ := np_values _ _ (total s) (npMean_total s h hc)
  exact ⟨congrArg _ h1, congrArg _ h3, congrArg _ h2, congrArg _ h4, congrArg _ h5⟩

example : ∃ s : Signal ℝ ℝ, 0 < s.length ∧ 0 < s.count ∧ moment (average s 1) 2 ≠ 0 :=
  ⟨⟨⟨2, 2, fun c i => c * i⟩, 48000, 3, ["a", "b"]⟩, by decide, by decide, by
    norm_num [moment, μ, average, Signal.length, Finset.sum_range_succ]⟩

/-- C94: All parameters of signals without samples are `nan`. -/
theorem C94_empty (s : Signal ℝ R) (h : s.length = 0) :
    mean s false = eachChannel s (fun _ => none) ∧ standardDeviation s false = eachChannel s (fun _ => none) ∧
    variance s false = eachChannel s (fun _ => none) ∧ skewness s false = eachChannel s (fun _ => none) ∧
    kurtosis s false = eachChannel s (fun _ => none) ∧
    mean s true = .value none ∧ standardDeviation s true = .value none ∧ variance s true = .value none ∧
    skewness s true = .value none ∧ kurtosis s true = .value none := by
  have h0 : ∀ x : Nat → ℝ, npMean 0 x = none ∧ npVar 0 x = none ∧ npStd 0 x = none ∧ scipySkew 0 x = none ∧
      scipyKurtosis 0 x = none := fun x => ⟨rfl, rfl, rfl, rfl, rfl⟩
  have h1 : s.channels.rows * s.channels.cols = 0 := by
    rw [show s.channels.cols = 0 from h, Nat.mul_zero]
  refine ⟨alongRows_eq _ _ s fun c => ?_, alongRows_eq _ _ s fun c => ?_, alongRows_eq _ _ s fun c => ?_,
    alongRows_eq _ _ s fun c => ?_, alongRows_eq _ _ s fun c => ?_, congrArg Result.value ?_,
    congrArg Result.value ?_, congrArg Result.value ?_, congrArg Result.value ?_, congrArg Result.value ?_⟩
  · rw [h]; exact (h0 _).1
  · rw [h]; exact (h0 _).2.2.1
  · rw [h]; exact (h0 _).2.1
  · rw [h]; exact (h0 _).2.2.2.1
  · rw [h]; exact (h0 _).2.2.2.2
  all_goals unfold flattened; rw [h1]
  · exact (h0 _).1
  · exact (h0 _).2.2.1
  · exact (h0 _).2.1
  · exact (h0 _).2.2.2.1
  · exact (h0 _).2.2.2.2

example : ∃ s : Signal ℝ ℝ, s.length = 0 ∧ s.count = 2 := ⟨⟨⟨2, 0, fun _ _ => 0⟩, 48000, 0, ["a", "b"]⟩, rfl, rfl⟩

/-! ### relations between the parameters -/

/-- the rules for averages -/
structure Average (E : (ℝ → ℝ) → ℝ) : Prop where
  add : ∀ f g : ℝ → ℝ, E (fun x => f x + g x) = E f + E g
  smul : ∀ (a : ℝ) (f : ℝ → ℝ), E (fun x => a * f x) = a * E f
  one : E (fun _ => 1) = 1
  nonneg : ∀ f : ℝ → ℝ, (∀ x, 0 ≤ f x) → 0 ≤ E f

theorem average_rules (s : Signal ℝ R) (c : Nat) (h : 0 < s.length) : Average (average s c) := by
  have h0 : (s.length : ℝ) ≠ 0 := Nat.cast_ne_zero.mpr (by omega)
  refine ⟨fun f g => ?_, fun a f => ?_, ?_, fun f hf => ?_⟩
  · unfold average
    rw [Finset.sum_add_distrib, add_div]
  · unfold average
    rw [← Finset.mul_sum, mul_div_assoc]
  · unfold average
    rw [Finset.sum_const, card_range, nsmul_eq_mul, mul_one, div_self h0]
  · exact div_nonneg (Finset.sum_nonneg fun i _ => hf _) (Nat.cast_nonneg _)

theorem total_rules (s : Signal ℝ R) (h : 0 < s.length) (hc : 0 < s.count) : Average (total s) := by
  have h0 : (s.length : ℝ) ≠ 0 := Nat.cast_ne_zero.mpr (by omega)
  have h1 : (s.count : ℝ) ≠ 0 := Nat.cast_ne_zero.mpr (by omega)
  refine ⟨fun f g => ?_, fun a f => ?_, ?_, fun f hf => ?_⟩
  · unfold total
    rw [← add_div, ← Finset.sum_add_distrib]
    simp only [Finset.sum_add_distrib]
  · unfold total
    simp only [← Finset.mul_sum]
    rw [mul_div_assoc]
  · unfold total
    simp only [Finset.sum_const, card_range, nsmul_eq_mul, mul_one]
    field_simp
  · exact div_nonneg (Finset.sum_nonneg fun c _ => Finset.sum_nonneg fun i _ => hf _) (by positivity)

namespace Average

variable {E : (ℝ → ℝ) → ℝ}

theorem const (hE : Average E) (a : ℝ) : E (fun _ => a) = a := by
  have := hE.smul a fun _ => 1
  rw [hE.one] at this
  simpa using this

theorem variance_eq (hE : Average E) : moment E 2 = E (fun x => x ^ 2) - μ E ^ 2 := by
  unfold moment
  rw [show (fun x : ℝ => (x - μ E) ^ 2) = fun x => x ^ 2 + ((-2 * μ E) * x + μ E ^ 2) by funext x; ring,
    hE.add (fun x => x ^ 2), hE.add (fun x => (-2 * μ E) * x), hE.smul _ (fun x => x), hE.const]
  show E (fun x => x ^ 2) + (-2 * μ E * μ E + μ E ^ 2) = _
  ring

theorem variance_nonneg (hE : Average E) : 0 ≤ moment E 2 := hE.nonneg _ fun _ => sq_nonneg _

/-- Pearson's inequality -/
theorem pearson (hE : Average E) : moment E 3 ^ 2 + moment E 2 ^ 3 ≤ moment E 4 * moment E 2 := by
  have h0 : E (fun x => x - μ E) = 0 := by
    rw [show (fun x : ℝ => x - μ E) = fun x => x + -μ E by funext x; ring, hE.add (fun x => x), hE.const]
    show μ E + -μ E = 0
    ring
  have key : ∀ a b : ℝ, 0 ≤ a ^ 2 * (moment E 4 - moment E 2 ^ 2) + 2 * a * b * moment E 3 + b ^ 2 * moment E 2 := by
    intro a b
    have := hE.nonneg (fun x => (a * ((x - μ E) ^ 2 - moment E 2) + b * (x - μ E)) ^ 2) fun x => sq_nonneg _
    rw [show (fun x : ℝ => (a * ((x - μ E) ^ 2 - moment E 2) + b * (x - μ E)) ^ 2) = fun x =>
      a ^ 2 * (x - μ E) ^ 4 + (2 * a * b * (x - μ E) ^ 3 + ((b ^ 2 - 2 * a ^ 2 * moment E 2) * (x - μ E) ^ 2 +
        ((-2 * a * b * moment E 2) * (x - μ E) + a ^ 2 * moment E 2 ^ 2))) by funext x; ring] at this
    rw [hE.add (fun x => a ^ 2 * (x - μ E) ^ 4), hE.add (fun x => 2 * a * b * (x - μ E) ^ 3),
      hE.add (fun x => (b ^ 2 - 2 * a ^ 2 * moment E 2) * (x - μ E) ^ 2),
      hE.add (fun x => (-2 * a * b * moment E 2) * (x - μ E)), hE.const, hE.smul _ (fun x => (x - μ E) ^ 4),
      hE.smul _ (fun x => (x - μ E) ^ 3), hE.smul _ (fun x => (x - μ E) ^ 2), hE.smul _ (fun x => x - μ E), h0] at this
    have h4 : E (fun x => (x - μ E) ^ 4) = moment E 4 := rfl
    have h3 : E (fun x => (x - μ E) ^ 3) = moment E 3 := rfl
    have h2 : E (fun x => (x - μ E) ^ 2) = moment E 2 := rfl
    rw [h4, h3, h2] at this
    linarith [this]
  have hv := hE.variance_nonneg
  by_cases h2 : moment E 2 = 0
  · have h3 : moment E 3 = 0 := by
      by_contra hne
      have := key 1 (-(moment E 4 + 1) / (2 * moment E 3))
      rw [h2] at this
      have e : 2 * 1 * (-(moment E 4 + 1) / (2 * moment E 3)) * moment E 3 = -(moment E 4 + 1) := by field_simp
      rw [e] at this
      linarith
    rw [h2, h3]
    norm_num
  · have hp : 0 < moment E 2 := lt_of_le_of_ne hv (Ne.symm h2)
    have := key (moment E 2) (-moment E 3)
    have h : 0 ≤ moment E 2 * (moment E 4 * moment E 2 - moment E 2 ^ 3 - moment E 3 ^ 2) := by linarith [this]
    have := nonneg_of_mul_nonneg_right h hp
    linarith

end Average

/-- C94: The square of the level of a channel is the sum of its variance and the square of its mean; the variance is the
square of the standard deviation. -/
theorem C94_level (s : Signal ℝ ℝ) (c : Nat) (h : 0 < s.length) :
    Level.level s c ^ 2 = moment (average s c) 2 + μ (average s c) ^ 2 ∧ 0 ≤ σ (average s c) ∧
      σ (average s c) ^ 2 = moment (average s c) 2 := by
  have hE := average_rules s c h
  refine ⟨?_, Real.sqrt_nonneg _, Real.sq_sqrt hE.variance_nonneg⟩
  have h0 : (s.length : ℝ) ≠ 0 := Nat.cast_ne_zero.mpr (by omega)
  rw [hE.variance_eq, sub_add_cancel]
  unfold average
  rw [← (Level.C72_mean s c h).2, mul_div_cancel_right₀ _ h0]

/-- C94: The same for the values of all channels. -/
theorem C94_total_level (s : Signal ℝ ℝ) (h : 0 < s.length) (hc : 0 < s.count) :
    Level.totalLevel s ^ 2 = moment (total s) 2 + μ (total s) ^ 2 := by
  have hE := total_rules s h hc
  have h0 : (s.length : ℝ) ≠ 0 := Nat.cast_ne_zero.mpr (by omega)
  have h1 : (s.count : ℝ) ≠ 0 := Nat.cast_ne_zero.mpr (by omega)
  rw [hE.variance_eq, sub_add_cancel]
  unfold Level.totalLevel Level.totalNorm
  rw [div_pow, Real.sq_sqrt (Finset.sum_nonneg fun c _ => Finset.sum_nonneg fun i _ => sq_nonneg _),
    Real.sq_sqrt (by positivity)]
  rfl

/-- C94: The mean of all samples is the mean of the means of the channels. The variance of all samples is the sum of the mean
of the variances and the variance of the means. -/
theorem C94_total (s : Signal ℝ R) (h : 0 < s.length) (hc : 0 < s.count) :
    μ (total s) * s.count = ∑ c ∈ range s.count, μ (average s c) ∧
    moment (total s) 2 * s.count = ∑ c ∈ range s.count, moment (average s c) 2 +
      ∑ c ∈ range s.count, (μ (average s c) - μ (total s)) ^ 2 := by
  have h0 : (s.length : ℝ) ≠ 0 := Nat.cast_ne_zero.mpr (by omega)
  have h1 : (s.count : ℝ) ≠ 0 := Nat.cast_ne_zero.mpr (by omega)
  have e : ∀ f, total s f * s.count = ∑ c ∈ range s.count, average s c f := by
    intro f
    unfold total average
    rw [← Finset.sum_div]
    field_simp
  refine ⟨e _, ?_⟩
  have hm := e fun x => x
  have hq := e fun x => x ^ 2
  have hm' : μ (total s) * s.count = ∑ c ∈ range s.count, μ (average s c) := hm
  rw [(total_rules s h hc).variance_eq, sub_mul, hq]
  simp only [fun c => (average_rules s c h).variance_eq]
  rw [Finset.sum_sub_distrib]
  have : ∑ c ∈ range s.count, (μ (average s c) - μ (total s)) ^ 2 =
      ∑ c ∈ range s.count, μ (average s c) ^ 2 - 2 * μ (total s) * ∑ c ∈ range s.count, μ (average s c) +
        s.count * μ (total s) ^ 2 := by
    rw [Finset.mul_sum, ← Finset.sum_sub_distrib, ← nsmul_eq_mul, ← card_range s.count, ← Finset.sum_const, card_range,
      ← Finset.sum_add_distrib]
    refine Finset.sum_congr rfl fun c _ => ?_
    ring
  rw [this, ← hm']
  ring

/-- C94: Pearson's inequality: the kurtosis is not smaller than the square of the skewness minus two, for channels that are
not constant. -/
theorem C94_pearson (s : Signal ℝ R) (c : Nat) (h : 0 < s.length) (hv : moment (average s c) 2 ≠ 0) :
    (moment (average s c) 3 / σ (average s c) ^ 3) ^ 2 - 2 ≤ moment (average s c) 4 / σ (average s c) ^ 4 - 3 := by
  have hE := average_rules s c h
  have hp : 0 < moment (average s c) 2 := lt_of_le_of_ne hE.variance_nonneg (Ne.symm hv)
  have h2 : σ (average s c) ^ 2 = moment (average s c) 2 := Real.sq_sqrt hp.le
  rw [div_pow, show (σ (average s c) ^ 3) ^ 2 = (σ (average s c) ^ 2) ^ 3 by ring,
    show σ (average s c) ^ 4 = (σ (average s c) ^ 2) ^ 2 by ring, h2]
  have := hE.pearson
  have h3 : 0 < moment (average s c) 2 ^ 3 := by positivity
  have : moment (average s c) 3 ^ 2 / moment (average s c) 2 ^ 3 + 1 ≤ moment (average s c) 4 / moment (average s c) 2 ^ 2 := by
    rw [div_add_one h3.ne', show moment (average s c) 4 / moment (average s c) 2 ^ 2 =
      moment (average s c) 4 * moment (average s c) 2 / moment (average s c) 2 ^ 3 by field_simp]
    exact div_le_div_of_nonneg_right this h3.le
  linarith

example : ∃ s : Signal ℝ ℝ, 0 < s.length ∧ moment (average s 0) 2 ≠ 0 :=
  ⟨⟨⟨1, 3, fun _ i => i⟩, 48000, 3, ["a"]⟩, by decide, by
    norm_num [moment, μ, average, Signal.length, Finset.sum_range_succ]⟩

/-- C94: The mean is between the smallest and the largest sample. -/
theorem C94_range (s : Signal ℝ R) (c : Nat) (h : 0 < s.length) (a b : ℝ)
    (hx : ∀ i, i < s.length → a ≤ s.channels.get c i ∧ s.channels.get c i ≤ b) :
    a ≤ μ (average s c) ∧ μ (average s c) ≤ b := by
  have h0 : (0 : ℝ) < s.length := Nat.cast_pos.mpr h
  unfold μ average
  rw [le_div_iff₀ h0, div_le_iff₀ h0]
  constructor
  · have := Finset.card_nsmul_le_sum (range s.length) (s.channels.get c) a fun i hi => (hx i (mem_range.mp hi)).1
    rw [card_range, nsmul_eq_mul] at this
    linarith
  · have := Finset.sum_le_card_nsmul (range s.length) (s.channels.get c) b fun i hi => (hx i (mem_range.mp hi)).2
    rw [card_range, nsmul_eq_mul] at this
    linarith

/-! ### modified signals -/

/-- the moments of `k * x + d` -/
theorem affine_moment {E F : (ℝ → ℝ) → ℝ} (hE : Average E) (k d : ℝ) (hF : ∀ f, F f = E fun x => f (k * x + d)) :
    μ F = k * μ E + d ∧ ∀ n, moment F n = k ^ n * moment E n := by
  have hm : μ F = k * μ E + d := by
    unfold μ
    rw [hF, hE.add (fun x => k * x), hE.smul k fun x => x, hE.const]
  refine ⟨hm, fun n => ?_⟩
  unfold moment
  rw [hF, hm, ← hE.smul]
  congr 1
  funext x
  rw [← mul_pow]
  congr 1
  ring

/-- C94: Multiplying a signal with a number `k` and adding a number `d` changes the mean to `k * mean + d`, multiplies the
standard deviation with the magnitude and the variance with the square of `k`, gives the sign of `k` to the skewness and does
not change the kurtosis. -/
theorem C94_affine (mem mem' : Nat → Nat → ℝ) (s : Signal ℝ R) (hs : s.WF) (h : 0 < s.length) (k d : ℝ) :
    ∃ p r, Signal.algebraArray mem (· * ·) s (.scalar k) = .ok p ∧ Signal.algebraArray mem' (· + ·) p (.scalar d) = .ok r ∧
      r.count = s.count ∧ r.length = s.length ∧ ∀ c, c < s.count →
        μ (average r c) = k * μ (average s c) + d ∧ σ (average r c) = |k| * σ (average s c) ∧
        moment (average r c) 2 = k ^ 2 * moment (average s c) 2 ∧
        (k ≠ 0 → moment (average r c) 3 / σ (average r c) ^ 3 =
          k / |k| * (moment (average s c) 3 / σ (average s c) ^ 3)) ∧
        (k ≠ 0 → moment (average r c) 4 / σ (average r c) ^ 4 = moment (average s c) 4 / σ (average s c) ^ 4) := by
  have fits : ∀ (q : Signal ℝ R) (x : ℝ), Signal.Fits q (.scalar x) := fun q x => ⟨Or.inr rfl, Or.inr rfl⟩
  obtain ⟨p, hp, p1, p2, p3, p4, p5, p6⟩ := Signal.C14_array mem (· * ·) s hs (.scalar k) (fits s k)
  have hp' : p.WF := by
    unfold Signal.WF at hs ⊢
    rw [p3, hs, p4]
  obtain ⟨r, hr, r1, r2, r3, r4, r5, r6⟩ := Signal.C14_array mem' (· + ·) p hp' (.scalar d) (fits p d)
  refine ⟨p, r, hp, hr, by omega, by omega, ?_⟩
  intro c hc
  have hget : ∀ i, i < s.length → r.channels.get c i = k * s.channels.get c i + d := by
    intro i hi
    have e1 : s.sample c i = some (s.channels.get c i) := by unfold Signal.sample; rw [if_pos ⟨hc, hi⟩]
    have e2 := r6 c i _ (p6 c i _ e1)
    unfold Signal.sample at e2
    rw [if_pos ⟨by omega, by omega⟩] at e2
    have := Option.some.inj e2
    rw [this]
    show s.channels.get c i * k + d = _
    ring
  have hF : ∀ f, average r c f = average s c fun x => f (k * x + d) := by
    intro f
    unfold average
    rw [r5, p5]
    congr 1
    refine Finset.sum_congr rfl fun i hi => ?_
    rw [hget i (mem_range.mp hi)]
  obtain ⟨m1, m2⟩ := affine_moment (average_rules s c h) k d hF
  have hσ : σ (average r c) = |k| * σ (average s c) := by
    unfold σ
    rw [m2 2, Real.sqrt_mul (sq_nonneg k), Real.sqrt_sq_eq_abs]
  refine ⟨m1, hσ, m2 2, ?_, ?_⟩
  · intro hk
    have ha : |k| ≠ 0 := abs_ne_zero.mpr hk
    rw [m2 3, hσ, mul_pow, mul_div_mul_comm]
    congr 1
    rw [div_eq_div_iff (pow_ne_zero 3 ha) ha]
    have : |k| ^ 2 = k ^ 2 := sq_abs k
    calc k ^ 3 * |k| = k * k ^ 2 * |k| := by ring
      _ = k * |k| ^ 2 * |k| := by rw [this]
      _ = k * |k| ^ 3 := by ring
  · intro hk
    have ha : |k| ≠ 0 := abs_ne_zero.mpr hk
    rw [m2 4, hσ, mul_pow, show |k| ^ 4 = (|k| ^ 2) ^ 2 by ring, sq_abs, show (k ^ 2) ^ 2 = k ^ 4 by ring,
      mul_div_mul_left _ _ (pow_ne_zero 4 hk)]

example : ∃ s : Signal ℝ ℝ, s.WF ∧ 0 < s.length := ⟨⟨⟨2, 3, fun c i => c + i⟩, 48000, 3, ["a", "b"]⟩, rfl, by decide⟩

/-- C94: The order of the samples has no influence: reversed signals have the same parameters. -/
theorem C94_reversed (s : Signal ℝ R) (c : Nat) : average s.reversed c = average s c := by
  funext f
  unfold average
  have hlen : s.reversed.length = s.length := rfl
  rw [hlen]
  congr 1
  rw [← Finset.sum_range_reflect]
  refine Finset.sum_congr rfl fun i hi => ?_
  rw [mem_range] at hi
  congr 1
  show s.channels.get c _ = _
  congr 1
  have : s.channels.cols = s.length := rfl
  omega

/-- C94: Rotated signals have the same parameters. -/
theorem C94_rotated (mem : Nat → Nat → ℝ) (s : Signal ℝ R) (hs : s.WF) (h : 0 < s.length) (n : ℤ)
    (hn : n.natAbs ≤ s.length) :
    ∃ r, s.shift mem (some n) .cycle = .ok r ∧ r.length = s.length ∧ ∀ c, c < s.count → average r c = average s c := by
  obtain ⟨r, hr, r1, r2, _, _, _, r3⟩ := Signal.C08_cycle_partial mem s hs n hn
  refine ⟨r, hr, r2, ?_⟩
  intro c hc
  have hL : (s.length : ℤ) ≠ 0 := by omega
  have hpos : ∀ m : ℤ, 0 ≤ m % (s.length : ℤ) := fun m => Int.emod_nonneg _ hL
  have hlt : ∀ m : ℤ, m % (s.length : ℤ) < s.length := fun m => Int.emod_lt_of_pos _ (by omega)
  funext f
  unfold average
  rw [r2]
  congr 1
  symm
  refine Finset.sum_bij' (fun i _ => (((i : ℤ) + n) % s.length).toNat) (fun i _ => (((i : ℤ) - n) % s.length).toNat)
    ?_ ?_ ?_ ?_ ?_
  · intro i _
    have := hpos ((i : ℤ) + n)
    have := hlt ((i : ℤ) + n)
    rw [mem_range]
    omega
  · intro i _
    have := hpos ((i : ℤ) - n)
    have := hlt ((i : ℤ) - n)
    rw [mem_range]
    omega
  · intro i hi
    rw [mem_range] at hi
    rw [Int.toNat_of_nonneg (hpos _), Int.emod_sub_emod, add_sub_cancel_right, Int.emod_eq_of_lt (by omega) (by omega),
      Int.toNat_natCast]
  · intro i hi
    rw [mem_range] at hi
    rw [Int.toNat_of_nonneg (hpos _), Int.emod_add_emod, sub_add_cancel, Int.emod_eq_of_lt (by omega) (by omega),
      Int.toNat_natCast]
  · intro i hi
    rw [mem_range] at hi
    have e := r3 c i hc hi
    have := hpos ((i : ℤ) + n)
    have := hlt ((i : ℤ) + n)
    unfold Signal.sample at e
    rw [if_pos ⟨by omega, by omega⟩, if_pos ⟨hc, hi⟩] at e
    rw [Option.some.inj e]

end Statistics
end Verif
