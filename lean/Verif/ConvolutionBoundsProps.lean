import Verif.CorrelationLawsProps

/-
Property C142: the sums, moments and bounds of the convolution of signals (`Signal.convolve`, `_signal.py:661-688`, in the
mode `FULL`): the sum of the samples of the convolution is the product of the sums, the centres of gravity add up, the peak
and the energy are limited by the sum of the absolute values of the impulse response.
-/

namespace Verif
namespace Convolution

open Finset Dft Fourier Signal Correlation

/-! ### Specification -/

/-- the sum of the samples of one channel of a signal -/
def total (s : Signal ℝ ℝ) (c : Nat) : ℝ := ∑ i ∈ range s.length, s.channels.get c i

/-- the sum of the absolute values of the samples of one channel of a signal -/
def absolute (s : Signal ℝ ℝ) (c : Nat) : ℝ := ∑ i ∈ range s.length, |s.channels.get c i|

/-- the energy of one channel of a signal -/
def power (s : Signal ℝ ℝ) (c : Nat) : ℝ := ∑ i ∈ range s.length, s.channels.get c i ^ 2

/-- the first moment of one channel of a signal: the sum of the samples weighted with their time (in samples) -/
def moment1 (s : Signal ℝ ℝ) (c : Nat) : ℝ := ∑ i ∈ range s.length, s.channels.get c i * ((s.offset + i : Int) : ℝ)

/-- the second moment of one channel of a signal -/
def moment2 (s : Signal ℝ ℝ) (c : Nat) : ℝ := ∑ i ∈ range s.length, s.channels.get c i * ((s.offset + i : Int) : ℝ) ^ 2

/-! ### Lemmas -/

/-- the convolution of two functions of time -/
noncomputable def conv (x h : Int → ℝ) (t : Int) : ℝ := ∑ᶠ u : Int, x u * h (t - u)

theorem conv_weighted {x h : Int → ℝ} (hx : x.support.Finite) (hh : h.support.Finite) (W : Int → ℝ) :
    ∑ᶠ t, conv x h t * W t = ∑ᶠ u, x u * ∑ᶠ v, h v * W (u + v) := by
  obtain ⟨S, hS⟩ := common hx hx
  obtain ⟨T, hT⟩ := common hh hh
  have e1 : ∀ t, conv x h t = ∑ u ∈ S, x u * h (t - u) := fun t =>
    finsum_of fun u hu => by rw [(hS u hu).1, zero_mul]
  let R : Finset Int := (S ×ˢ T).image fun p => p.1 + p.2
  have hR : ∀ t, t ∉ R → ∀ u ∈ S, h (t - u) = 0 := by
    intro t ht u hu
    refine (hT _ fun hn => ht ?_).1
    exact mem_image.mpr ⟨(u, t - u), mem_product.mpr ⟨hu, hn⟩, by ring⟩
  have e2 : ∀ u ∈ S, ∑ t ∈ R, h (t - u) * W t = ∑ᶠ v, h v * W (u + v) := by
    intro u hu
    rw [← finsum_of (f := fun t => h (t - u) * W t) fun t ht => by rw [hR t ht u hu, zero_mul],
      ← finsum_comp_equiv (Equiv.addRight u)]
    refine finsum_congr fun v => ?_
    rw [Equiv.coe_addRight, add_sub_cancel_right]
    dsimp only
    rw [add_comm v u]
  rw [finsum_of (S := R) fun t ht => by
      rw [e1, sum_eq_zero fun u hu => by rw [hR t ht u hu, mul_zero], zero_mul],
    finsum_of (S := S) fun u hu => by rw [(hS u hu).1, zero_mul]]
  simp only [e1, sum_mul]
  rw [sum_comm]
  refine sum_congr rfl fun u hu => ?_
  rw [← e2 u hu, mul_sum]
  exact sum_congr rfl fun t _ => by ring

theorem value_sum (s : Signal ℝ ℝ) {c : Nat} (hc : c < s.count) (G : Int → ℝ) :
    ∑ᶠ u, s.value c u * G u = ∑ i ∈ range s.length, s.channels.get c i * G (s.offset + i) := by
  rw [← finsum_ext]
  exact finsum_congr fun u => by rw [value_eq_ext s hc]

theorem value_sum_of (s : Signal ℝ ℝ) {c : Nat} (hc : c < s.count) {f : ℝ → ℝ} (hf : f 0 = 0) :
    ∑ᶠ u, f (s.value c u) = ∑ i ∈ range s.length, f (s.channels.get c i) := by
  have e : ∀ u, f (s.value c u) = ext s.length s.offset (fun i => f (s.channels.get c i)) u * 1 := by
    intro u
    rw [value_eq_ext s hc, mul_one]
    unfold ext
    split
    · rfl
    · exact hf
  rw [finsum_congr e, finsum_ext]
  exact sum_congr rfl fun i _ => mul_one _

theorem abs_support {x : Int → ℝ} (hx : x.support.Finite) : (Function.support fun u => |x u|).Finite :=
  hx.subset fun u hu h => hu (by dsimp only; rw [h, abs_zero])

theorem sq_support {x : Int → ℝ} (hx : x.support.Finite) : (Function.support fun u => x u ^ 2).Finite :=
  hx.subset fun u hu h => hu (by dsimp only; rw [h]; norm_num)

theorem conv_comm (x h : Int → ℝ) (t : Int) : conv x h t = conv h x t := by
  unfold conv
  rw [← finsum_comp_equiv (Equiv.subLeft t)]
  refine finsum_congr fun u => ?_
  rw [Equiv.subLeft_apply, sub_sub_cancel, mul_comm]

theorem conv_support {x h : Int → ℝ} (hx : x.support.Finite) (hh : h.support.Finite) : (conv x h).support.Finite := by
  refine ((hx.prod hh).image fun p => p.1 + p.2).subset fun t ht => ?_
  by_contra hn
  refine ht ?_
  unfold conv
  rw [finsum_congr (g := fun _ => 0) fun u => ?_, finsum_zero]
  by_contra h0
  refine hn ⟨(u, t - u), ⟨fun h => h0 (by rw [h, zero_mul]), fun h => h0 (by rw [h, mul_zero])⟩, ?_⟩
  show u + (t - u) = t
  ring

/-- the peak of a convolution -/
theorem conv_peak {x h : Int → ℝ} (hh : h.support.Finite) {P : ℝ} (hP : ∀ u, |x u| ≤ P) (t : Int) :
    |conv x h t| ≤ P * ∑ᶠ u, |h u| := by
  obtain ⟨T, hT⟩ := common hh hh
  rw [conv_comm]
  unfold conv
  rw [finsum_of (S := T) fun u hu => by rw [(hT u hu).1, zero_mul],
    finsum_of (S := T) fun u hu => by rw [(hT u hu).1, abs_zero], mul_sum]
  refine (abs_sum_le_sum_abs _ _).trans (sum_le_sum fun u _ => ?_)
  rw [abs_mul, mul_comm]
  exact mul_le_mul_of_nonneg_right (hP _) (abs_nonneg _)

theorem conv_sq_le {x h : Int → ℝ} (hh : h.support.Finite) (t : Int) :
    conv x h t ^ 2 ≤ (∑ᶠ u, |h u|) * conv (fun u => |h u|) (fun u => x u ^ 2) t := by
  obtain ⟨T, hT⟩ := common hh hh
  rw [conv_comm]
  unfold conv
  rw [finsum_of (S := T) fun u hu => by rw [(hT u hu).1, zero_mul],
    finsum_of (S := T) fun u hu => by rw [(hT u hu).1, abs_zero],
    finsum_of (S := T) fun u hu => by dsimp only; rw [(hT u hu).1, abs_zero, zero_mul]]
  have := sum_mul_sq_le_sq_mul_sq T (fun u => √|h u|) (fun u => √|h u| * |x (t - u)|)
  have e1 : ∀ u ∈ T, √|h u| ^ 2 = |h u| := fun u _ => Real.sq_sqrt (abs_nonneg _)
  have e2 : ∀ u ∈ T, (√|h u| * |x (t - u)|) ^ 2 = |h u| * x (t - u) ^ 2 := by
    intro u _
    rw [mul_pow, Real.sq_sqrt (abs_nonneg _), sq_abs]
  have e3 : ∀ u ∈ T, √|h u| * (√|h u| * |x (t - u)|) = |h u * x (t - u)| := by
    intro u _
    rw [← mul_assoc, Real.mul_self_sqrt (abs_nonneg _), abs_mul]
  rw [sum_congr rfl e1, sum_congr rfl e2, sum_congr rfl e3] at this
  refine le_trans ?_ this
  rw [← sq_abs]
  exact pow_le_pow_left₀ (abs_nonneg _) (abs_sum_le_sum_abs _ _) 2

/-- the energy of a convolution -/
theorem conv_energy {x h : Int → ℝ} (hx : x.support.Finite) (hh : h.support.Finite) :
    energy (conv x h) ≤ (∑ᶠ u, |h u|) ^ 2 * energy x := by
  have hw := conv_weighted (abs_support hh) (sq_support hx) fun _ => 1
  simp only [mul_one] at hw
  have e : (∑ᶠ u, |h u|) ^ 2 * energy x = ∑ᶠ t, (∑ᶠ u, |h u|) * conv (fun u => |h u|) (fun u => x u ^ 2) t := by
    rw [← mul_finsum' _ _ (conv_support (abs_support hh) (sq_support hx)), hw,
      ← finsum_mul' _ _ (abs_support hh)]
    unfold energy
    ring
  rw [e]
  unfold energy
  obtain ⟨S, hS⟩ := common (conv_support hx hh) (conv_support (abs_support hh) (sq_support hx))
  rw [finsum_of (S := S) fun t ht => by rw [(hS t ht).1, sq, zero_mul],
    finsum_of (S := S) fun t ht => by rw [(hS t ht).2, mul_zero]]
  exact sum_le_sum fun t _ => conv_sq_le hh t

theorem convAt_eq_conv (s o : Signal ℝ ℝ) (c : Nat) (t : Int) :
    convAt s o c t = conv (s.value (s.chan c)) (o.value (o.chan c)) t := by
  unfold convAt conv
  refine finsum_congr fun u => ?_
  rw [val_eq_value, val_eq_value]

/-! ### C142 -/

/-- signals with one and two channels, that have different offsets -/
noncomputable def response : Signal ℝ ℝ := new { rows := 1, cols := 3, get := fun _ t => 1 - t } 48000 (-2) none
noncomputable def input : Signal ℝ ℝ := new { rows := 2, cols := 4, get := fun c t => c + t + 1 } 48000 7 none

/-- the hypotheses of the theorems -/
example : 0 < response.length ∧ 0 < input.length ∧ response.count = 1 ∧ input.count = 2 ∧ total input 1 ≠ 0 ∧
    absolute response 0 ≠ 0 := by
  refine ⟨?_, ?_, rfl, rfl, ?_, ?_⟩
  · show 0 < 3; norm_num
  · show 0 < 4; norm_num
  · show ∑ i ∈ range 4, (((1 : Nat) : ℝ) + (i : ℝ) + 1) ≠ 0
    norm_num [sum_range_succ]
  · show ∑ i ∈ range 3, |(1 : ℝ) - (i : ℝ)| ≠ 0
    norm_num [sum_range_succ]

variable (mem : Nat → Nat → ℝ) (label : String)

section
variable (s o : Signal ℝ ℝ) (hs : 0 < s.length) (ho : 0 < o.length)
include hs ho

/-- the model's full convolution in terms of the zero-extended signals -/
theorem convolved : ∃ r, convolve (fullConvolution mem) label s o = .ok r ∧ r.count = convCount s o ∧ ∀ c, c < r.count →
    s.chan c < s.count ∧ o.chan c < o.count ∧
      r.value c = conv (s.value (s.chan c)) (o.value (o.chan c)) := by
  obtain ⟨r, x1, y1⟩ := isConv mem label s o hs ho
  have n1 := y1.count
  refine ⟨r, x1, n1, fun c hc => ?_⟩
  have hcc : c < convCount s o := by
    change c < cnt s.count o.count
    omega
  exact ⟨chan_lt_left hcc, chan_lt_right hcc, funext fun t => by rw [y1.value c t hcc, convAt_eq_conv]⟩

/-- C142: Every weighted sum of the samples of the convolution, where the weight is an arbitrary function of the time, is the
sum over all pairs of samples of the two signals, where the times are added. -/
theorem C142_weighted : ∃ r, convolve (fullConvolution mem) label s o = .ok r ∧ ∀ c (W : Int → ℝ), c < r.count →
    ∑ i ∈ range r.length, r.channels.get c i * W (r.offset + i) =
      ∑ i ∈ range s.length, ∑ j ∈ range o.length,
        s.channels.get (s.chan c) i * o.channels.get (o.chan c) j * W (s.offset + i + (o.offset + j)) := by
  obtain ⟨r, x1, -, x3⟩ := convolved mem label s o hs ho
  refine ⟨r, x1, fun c W hc => ?_⟩
  obtain ⟨c1, c2, hv⟩ := x3 c hc
  rw [← value_sum r hc, hv, conv_weighted (value_support s _) (value_support o _), value_sum s c1]
  refine sum_congr rfl fun i _ => ?_
  rw [value_sum o c2, mul_sum]
  exact sum_congr rfl fun j _ => by ring

/-- C142: The sum of the samples of the convolution is the product of the sums of the samples of the signals. The first
moment of the convolution is given by those of the signals. -/
theorem C142_moments : ∃ r, convolve (fullConvolution mem) label s o = .ok r ∧ ∀ c, c < r.count →
    total r c = total s (s.chan c) * total o (o.chan c) ∧
      moment1 r c = moment1 s (s.chan c) * total o (o.chan c) + total s (s.chan c) * moment1 o (o.chan c) ∧
      moment2 r c = moment2 s (s.chan c) * total o (o.chan c) + 2 * (moment1 s (s.chan c) * moment1 o (o.chan c)) +
        total s (s.chan c) * moment2 o (o.chan c) := by
  obtain ⟨r, x1, x2⟩ := C142_weighted mem label s o hs ho
  refine ⟨r, x1, fun c hc => ⟨?_, ?_, ?_⟩⟩
  · have h := x2 c (fun _ => 1) hc
    simp only [mul_one] at h
    unfold total
    rw [h, sum_mul_sum]
  · have h := x2 c (fun t => (t : ℝ)) hc
    unfold moment1 total
    rw [h, sum_mul_sum, sum_mul_sum, ← sum_add_distrib]
    refine sum_congr rfl fun i _ => ?_
    rw [← sum_add_distrib]
    refine sum_congr rfl fun j _ => ?_
    push_cast
    ring
  · have h := x2 c (fun t => (t : ℝ) ^ 2) hc
    unfold moment2 moment1 total
    rw [h, sum_mul_sum, sum_mul_sum, sum_mul_sum, mul_sum, ← sum_add_distrib, ← sum_add_distrib]
    refine sum_congr rfl fun i _ => ?_
    rw [mul_sum, ← sum_add_distrib, ← sum_add_distrib]
    refine sum_congr rfl fun j _ => ?_
    push_cast
    ring

/-- C142: The centre of gravity (in samples) of the convolution is the sum of those of the signals, and so is the squared
width (the variance of the time). -/
theorem C142_centre : ∃ r, convolve (fullConvolution mem) label s o = .ok r ∧ ∀ c, c < r.count →
    total s (s.chan c) ≠ 0 → total o (o.chan c) ≠ 0 →
      moment1 r c / total r c = moment1 s (s.chan c) / total s (s.chan c) + moment1 o (o.chan c) / total o (o.chan c) ∧
      moment2 r c / total r c - (moment1 r c / total r c) ^ 2 =
        (moment2 s (s.chan c) / total s (s.chan c) - (moment1 s (s.chan c) / total s (s.chan c)) ^ 2) +
        (moment2 o (o.chan c) / total o (o.chan c) - (moment1 o (o.chan c) / total o (o.chan c)) ^ 2) := by
  obtain ⟨r, x1, x2⟩ := C142_moments mem label s o hs ho
  refine ⟨r, x1, fun c hc h1 h2 => ?_⟩
  obtain ⟨a1, a2, a3⟩ := x2 c hc
  rw [a1, a2, a3]
  constructor
  · field_simp
  · field_simp
    ring

/-- C142: The peak of the convolution is at most the peak of one signal times the sum of the absolute values of the other. -/
theorem C142_peak : ∃ r, convolve (fullConvolution mem) label s o = .ok r ∧ ∀ c P, c < r.count →
    (∀ i, i < s.length → |s.channels.get (s.chan c) i| ≤ P) →
      ∀ i, i < r.length → |r.channels.get c i| ≤ P * absolute o (o.chan c) := by
  obtain ⟨r, x1, -, x3⟩ := convolved mem label s o hs ho
  refine ⟨r, x1, fun c P hc hP i hi => ?_⟩
  obtain ⟨c1, c2, hv⟩ := x3 c hc
  have e : r.channels.get c i = r.value c (r.offset + i) := by
    rw [value_eq_ext r hc]
    unfold ext
    rw [if_pos (by omega), show (r.offset + i - r.offset).toNat = i by omega]
  have hP0 : 0 ≤ P := (abs_nonneg _).trans (hP 0 hs)
  rw [e, hv]
  have h := conv_peak (x := s.value (s.chan c)) (value_support o (o.chan c)) (P := P) (fun u => ?_) (r.offset + i)
  · rw [value_sum_of o c2 abs_zero] at h
    exact h
  · rw [value_eq_ext s c1]
    unfold ext
    split
    · exact hP _ (by omega)
    · rwa [abs_zero]

/-- C142: The energy of the convolution is at most the energy of one signal times the square of the sum of the absolute values
of the other. -/
theorem C142_energy : ∃ r, convolve (fullConvolution mem) label s o = .ok r ∧ ∀ c, c < r.count →
    power r c ≤ absolute o (o.chan c) ^ 2 * power s (s.chan c) := by
  obtain ⟨r, x1, -, x3⟩ := convolved mem label s o hs ho
  refine ⟨r, x1, fun c hc => ?_⟩
  obtain ⟨c1, c2, hv⟩ := x3 c hc
  unfold power absolute
  rw [← energy_value r hc, ← energy_value s c1, hv, ← value_sum_of o c2 abs_zero]
  exact conv_energy (value_support s _) (value_support o _)

end

/-- C142: The bound for the peak cannot be improved: for each impulse response, there is a signal with the peak 1, whose
convolution with it reaches the sum of the absolute values of the impulse response. -/
theorem C142_peak_sharp (o : Signal ℝ ℝ) (hcount : o.count = 1) (ho : 0 < o.length) :
    ∃ s r i, s.length = o.length ∧ s.count = 1 ∧ (∀ i, i < s.length → |s.channels.get 0 i| ≤ 1) ∧
      convolve (fullConvolution mem) label s o = .ok r ∧ r.count = 1 ∧ i < r.length ∧
      r.channels.get 0 i = absolute o 0 := by
  let s : Signal ℝ ℝ := new { rows := 1, cols := o.length,
                              get := fun _ i => SignType.sign (o.channels.get 0 (o.length - 1 - i)) } o.rate 0 none
  have sl : s.length = o.length := rfl
  have sc : s.count = 1 := rfl
  have so : s.offset = 0 := rfl
  obtain ⟨r, x1, y1⟩ := isConv mem label s o (by omega) ho
  obtain ⟨r', x1', n1, x3⟩ := convolved mem label s o (by omega) ho
  obtain rfl : r = r' := by
    rw [x1] at x1'
    exact Except.ok.inj x1'
  have rc : r.count = 1 := by
    rw [n1]
    unfold convCount
    rw [if_pos hcount, sc]
  have rl := y1.length
  have ro := y1.offset
  obtain ⟨c1, c2, hv⟩ := x3 0 (by omega)
  have k1 : s.chan 0 = 0 := by unfold Signal.chan; split <;> rfl
  have k2 : o.chan 0 = 0 := by unfold Signal.chan; split <;> rfl
  rw [k1, k2] at hv
  refine ⟨s, r, o.length - 1, sl, sc, fun i _ => ?_, x1, rc, by omega, ?_⟩
  · show |((SignType.sign (o.channels.get 0 (o.length - 1 - i)) : SignType) : ℝ)| ≤ 1
    rcases SignType.sign (o.channels.get 0 (o.length - 1 - i)) with _ | _ | _ <;> norm_num
  · have e : r.channels.get 0 (o.length - 1) = r.value 0 (r.offset + (o.length - 1 : Nat)) := by
      rw [value_eq_ext r (by omega)]
      unfold ext
      rw [if_pos (by omega)]
      congr 1
      omega
    rw [e, hv]
    unfold conv absolute
    rw [value_sum s (by omega) fun u => o.value 0 (r.offset + (o.length - 1 : Nat) - u), sl,
      ← sum_range_reflect (fun i => |o.channels.get 0 i|)]
    refine sum_congr rfl fun i hi => ?_
    rw [mem_range] at hi
    have e2 : o.value 0 (r.offset + (o.length - 1 : Nat) - (s.offset + i)) = o.channels.get 0 (o.length - 1 - i) := by
      rw [value_eq_ext o (by omega)]
      unfold ext
      rw [if_pos (by omega)]
      congr 1
      omega
    rw [e2]
    exact sign_mul_self _

end Convolution
end Verif
