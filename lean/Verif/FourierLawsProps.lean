import Verif.FourierProps
import Verif.SpectrumProps
import Verif.IndexingProps
import Verif.ConvolutionLawsProps

/-
Property C104: the laws of the Fourier transform of signals (`Signal.fourier_transform`,
`_signal.py:382-439`): it is linear, a time shift of the signal is a rotation of the phases and the transform of
a convolution is the product of the transforms.
-/

namespace Verif
namespace Fourier

open Finset Dft

/-- The sum over all times, at which the signal is not zero: the spectrum of the signal at the bin `k` of `L`. -/
noncomputable def spectrumAt (L : Nat) (x : Int → ℝ) (k : Nat) : ℂ :=
  ∑ᶠ t : Int, (x t : ℂ) * omega L ^ (-((k : Int) * t))

theorem value_eq_ext {α R : Type} [Zero α] (s : Signal α R) {c : Nat} (h : c < s.count) (t : Int) :
    s.value c t = ext s.length s.offset (s.channels.get c) t := by
  unfold Signal.value ext
  by_cases h1 : s.offset ≤ t ∧ t < s.offset + s.length
  · rw [if_pos h1, (Signal.at_eq_some.mpr ⟨h, h1.1, h1.2, rfl⟩ : s.at_ c t = some _)]
    rfl
  · rw [if_neg h1, Signal.at_none_of_time s c t h1]
    rfl

theorem value_support {α R : Type} [Zero α] (s : Signal α R) (c : Nat) : (s.value c).support.Finite := by
  refine (Set.finite_Ico s.offset (s.offset + s.length)).subset fun t ht => ?_
  by_contra h
  exact ht (Signal.value_of_not_covers s c t h)

/-- What the Fourier transform computes, in terms of the zero-extended signal. -/
structure IsTransform (b : Spectrum ℂ ℝ) (a : Signal ℝ ℝ) : Prop where
  count : b.count = a.count
  length : b.length = a.length / 2 + 1
  resolution : b.resolution = a.rate / a.length
  labels : b.labels = a.labels
  value : ∀ c k, c < a.count → k < b.length → b.channels.get c k = spectrumAt a.length (a.value c) k

theorem isTransform (mem : Nat → Nat → ℂ) (a : Signal ℝ ℝ) (hl : a.WF)
    (hm : 1 ≤ a.count) (hn : 1 ≤ a.length) (hr : a.rate ≠ 0) :
    ∃ b, fourierTransform mem a = .ok b ∧ IsTransform b a := by
  obtain ⟨b, h1, h2, h3, h4, h5, h6⟩ := C52_transform mem a hl hm hn hr
  refine ⟨b, h1, h2, h3, h4, h5, fun c k hc hk => ?_⟩
  have hL : (a.channels.cols : ℂ) ≠ 0 := Nat.cast_ne_zero.mpr (by
    change 1 ≤ a.channels.cols at hn
    omega)
  have hrc : (a.rate : ℂ) ≠ 0 := Complex.ofReal_ne_zero.mpr hr
  change k < b.channels.cols at hk
  rw [h6 c k hc (by omega)]
  unfold spectrumAt
  have e : ∀ t, ((a.value c t : ℝ) : ℂ) = ext a.length a.offset (fun j => (a.channels.get c j : ℂ)) t := by
    intro t
    rw [value_eq_ext a hc]
    unfold ext
    split <;> simp
  simp only [e]
  rw [finsum_ext]
  refine Finset.sum_congr rfl fun j _ => ?_
  congr 1
  rw [omega_zpow, h4]
  congr 1
  show _ = _ / ((a.channels.cols : Nat) : ℂ)
  push_cast
  field_simp

theorem spectrumAt_support (L : Nat) {x : Int → ℝ} (hx : x.support.Finite) (k : Nat) :
    (Function.support fun t : Int => (x t : ℂ) * omega L ^ (-((k : Int) * t))).Finite :=
  hx.subset fun t ht h => ht (by
    show (x t : ℂ) * _ = 0
    rw [h]
    simp)

theorem spectrumAt_add (L : Nat) {x y : Int → ℝ} (hx : x.support.Finite) (hy : y.support.Finite) (k : Nat) :
    spectrumAt L (fun t => x t + y t) k = spectrumAt L x k + spectrumAt L y k := by
  unfold spectrumAt
  rw [← finsum_add_distrib (spectrumAt_support L hx k) (spectrumAt_support L hy k)]
  refine finsum_congr fun t => ?_
  push_cast
  ring

theorem spectrumAt_shift (L : Nat) (n : Int) (x : Int → ℝ) (hx : x.support.Finite) (k : Nat) :
    spectrumAt L (fun t => x (t - n)) k = spectrumAt L x k * omega L ^ (-((k : Int) * n)) := by
  unfold spectrumAt
  rw [finsum_mul' _ _ (spectrumAt_support L hx k), ← finsum_comp_equiv (Equiv.addRight n)]
  refine finsum_congr fun t => ?_
  rw [Equiv.coe_addRight]
  dsimp only
  rw [show t + n - n = t by omega, mul_assoc, ← zpow_add₀ (omega_ne_zero L)]
  congr 2
  ring

/-- The convolution theorem. -/
theorem spectrumAt_conv (L : Nat) {x y : Int → ℝ} (hx : x.support.Finite) (hy : y.support.Finite) (k : Nat) :
    spectrumAt L (fun t => ∑ᶠ u : Int, x u * y (t - u)) k = spectrumAt L x k * spectrumAt L y k := by
  have hx' : (Function.support fun t : Int => (x t : ℂ)).Finite := hx.subset fun t ht h => ht (by
    show (x t : ℂ) = 0
    rw [h]
    simp)
  have hy' : (Function.support fun t : Int => (y t : ℂ)).Finite := hy.subset fun t ht h => ht (by
    show (y t : ℂ) = 0
    rw [h]
    simp)
  have h := conv_assoc (fun t => (x t : ℂ)) (fun t => (y t : ℂ)) (fun t => omega L ^ ((k : Int) * t)) hx' hy' 0
  unfold spectrumAt
  calc _ = ∑ᶠ t : Int, (∑ᶠ u : Int, (x u : ℂ) * (y (t - u) : ℂ)) * omega L ^ ((k : Int) * (0 - t)) := by
        refine finsum_congr fun t => ?_
        congr 1
        · have := (Complex.ofRealHom : ℝ →+* ℂ).toAddMonoidHom.map_finsum (f := fun u : Int => x u * y (t - u))
            (hx.subset fun u hu h => hu (by
              show x u * _ = 0
              rw [h, zero_mul]))
          simpa using this
        · congr 1
          ring
    _ = _ := h
    _ = _ := by
        rw [finsum_mul' _ _ (spectrumAt_support L hx k)]
        refine finsum_congr fun v => ?_
        rw [mul_assoc, mul_finsum' _ _ (spectrumAt_support L hy k)]
        congr 1
        refine finsum_congr fun w => ?_
        rw [mul_left_comm, ← zpow_add₀ (omega_ne_zero L)]
        congr 2
        ring

/-! ### C104 -/

open Signal in
/-- C104: the Fourier transform of a sum is the sum of the Fourier transforms. -/
theorem C104_sum (m1 : Nat → Nat → ℝ) (m2 m3 m4 m5 : Nat → Nat → ℂ) (a b : Signal ℝ ℝ) (ha : a.WF) (hb : b.WF)
    (hm : 1 ≤ a.count) (hn : 1 ≤ a.length) (hr : a.rate ≠ 0) (hcount : b.count = a.count)
    (hlength : b.length = a.length) (hoffset : b.offset = a.offset) (hrate : b.rate = a.rate) :
    ∃ sum S A B AB, a.add m1 b = .ok sum ∧ fourierTransform m2 sum = .ok S ∧ fourierTransform m3 a = .ok A ∧
      fourierTransform m4 b = .ok B ∧ Spectrum.algebra m5 (· + ·) none "Sum" A B = .ok AB ∧
      S.channels.Eqv AB.channels ∧ S.resolution = AB.resolution ∧ S.labels = AB.labels := by
  obtain ⟨sum, h1, g1⟩ := C10_pointwise_partial m1 (· + ·) none a b "Sum" (compatible_of_count hcount.symm)
  have v1 := C11_add_value a b sum hcount.symm g1
  obtain ⟨p1, p2, p3, p4, p5, p6⟩ := g1
  have e1 : sum.count = a.count := by omega
  have e2 : sum.length = a.length := by omega
  obtain ⟨S, x1, y1⟩ := isTransform m2 sum (by unfold WF; rw [p5]; simp) (by omega) (by omega) (by rw [p2]; exact hr)
  obtain ⟨A, x2, y2⟩ := isTransform m3 a ha hm hn hr
  obtain ⟨B, x3, y3⟩ := isTransform m4 b hb (by omega) (by omega) (by rw [hrate]; exact hr)
  have l1 := y1.length
  have l2 := y2.length
  have l3 := y3.length
  have c1 := y1.count
  have c2 := y2.count
  have c3 := y3.count
  rw [e2] at l1
  rw [hlength] at l3
  obtain ⟨AB, x4, q1, q2, q3, q4, q5⟩ := Spectrum.C15_binwise_partial m5 (· + ·) none "Sum" A B (by omega)
  have q1' : AB.count = a.count := by
    rw [q1]
    unfold Spectrum.resultCount
    split <;> [skip; split] <;> omega
  refine ⟨sum, S, A, B, AB, h1, x1, x2, x3, x4, ⟨by show S.count = AB.count; omega,
    by show S.length = AB.length; omega, ?_⟩, by rw [y1.resolution, q3, y2.resolution, p2, e2], ?_⟩
  · intro c k hc hk
    change c < S.count at hc
    change k < S.length at hk
    rw [y1.value c k (by omega) hk, q5 c k (by omega) (by omega)]
    have b1 : Spectrum.bin A c k = some (A.channels.get c k) := by
      unfold Spectrum.bin
      rw [if_pos (Or.inr (by omega))]
      split
      · rw [show c = 0 by omega]
      · rfl
    have b2 : Spectrum.bin B c k = some (B.channels.get c k) := by
      unfold Spectrum.bin
      rw [if_pos (Or.inr (by omega))]
      split
      · rw [show c = 0 by omega]
      · rfl
    rw [b1, b2]
    dsimp only
    rw [y2.value c k (by omega) (by omega), y3.value c k (by omega) (by omega), e2, hlength,
      ← spectrumAt_add _ (value_support a c) (value_support b c)]
    congr 1
    funext t
    exact v1 c (by omega) t
  · rw [y1.labels, p5, q4, q1', e1]

open Signal in
/-- C104: a time shift by `n` samples multiplies the spectrum with `exp(-2πi f n / rate)`, where `f` is the
frequency of the bin. -/
theorem C104_shift (m1 : Nat → Nat → ℝ) (m2 m3 : Nat → Nat → ℂ) (a : Signal ℝ ℝ) (n : Int) (ha : a.WF)
    (hm : 1 ≤ a.count) (hn : 1 ≤ a.length) (hr : a.rate ≠ 0) :
    ∃ a' A A', a.shift m1 (some n) .offset = .ok a' ∧ fourierTransform m2 a = .ok A ∧
      fourierTransform m3 a' = .ok A' ∧ A'.count = A.count ∧ A'.length = A.length ∧
      A'.resolution = A.resolution ∧ A'.labels = A.labels ∧
      ∀ c k, c < A.count → k < A.length → A'.channels.get c k = A.channels.get c k *
        Complex.exp (-2 * Real.pi * Complex.I * ((k * A.resolution : ℝ) : ℂ) * ((n / a.rate : ℝ) : ℂ)) := by
  obtain ⟨a', s1, s2, s3, s4, s5⟩ := shift_offset m1 a n
  have la : a'.length = a.length := congrArg Mat.cols s2
  have ca : a'.count = a.count := congrArg Mat.rows s2
  obtain ⟨A, x1, y1⟩ := isTransform m2 a ha hm hn hr
  obtain ⟨A', x2, y2⟩ := isTransform m3 a' (by unfold WF; rw [s5 ha, ca]; exact ha) (by omega) (by omega)
    (by rw [s3]; exact hr)
  have l1 := y1.length
  have l2 := y2.length
  have c1 := y1.count
  have c2 := y2.count
  rw [la] at l2
  refine ⟨a', A, A', s1, x1, x2, by omega, by omega, by rw [y2.resolution, y1.resolution, s3, la],
    by rw [y2.labels, y1.labels, s5 ha], ?_⟩
  intro c k hc hk
  have hL : (a.length : ℂ) ≠ 0 := Nat.cast_ne_zero.mpr (by omega)
  have hrc : (a.rate : ℂ) ≠ 0 := Complex.ofReal_ne_zero.mpr hr
  rw [y1.value c k (by omega) hk, y2.value c k (by omega) (by omega), la, funext (value_shifted s2 s4 c),
    spectrumAt_shift _ _ _ (value_support a c), omega_zpow, y1.resolution]
  congr 2
  push_cast
  field_simp

open Signal in
theorem pad_value {α R : Type} [Zero α] (mem : Nat → Nat → α) (s : Signal α R) (hs : s.WF) (length : Nat)
    (hl : s.length ≤ length) :
    ∃ r, s.pad mem length 0 = .ok r ∧ r.WF ∧ r.count = s.count ∧ r.length = length ∧ r.rate = s.rate ∧
      r.labels = s.labels ∧ ∀ c t, r.value c t = s.value c t := by
  obtain ⟨r, h1, h2, h3, h4, h5, h6, h7⟩ := C05_pad mem s hs length 0
  refine ⟨r, h1, by unfold WF; rw [h6, h2]; exact hs, h2, h3, h4, h6, fun c t => ?_⟩
  by_cases hc : c < s.count
  · rw [value_eq_ext r (by omega), value_eq_ext s hc]
    unfold ext
    rw [h5, h3]
    by_cases ht : s.offset ≤ t ∧ t < s.offset + s.length
    · have h := h7 c (t - s.offset).toNat hc (by omega)
      rw [if_pos (by omega), Signal.sample_of_lt (by omega) (by omega), Signal.sample_of_lt hc (by omega)] at h
      rw [if_pos (by omega), if_pos ht]
      exact Option.some.inj h
    · rw [if_neg ht]
      split
      · have h := h7 c (t - s.offset).toNat hc (by omega)
        rw [if_neg (by omega), Signal.sample_of_lt (by omega) (by omega)] at h
        exact Option.some.inj h
      · rfl
  · have hn : ∀ q : Signal α R, q.count = s.count → q.value c t = 0 := by
      intro q hq
      unfold Signal.value
      have : q.at_ c t = none := by
        rw [Option.eq_none_iff_forall_ne_some]
        intro x hx
        rw [at_eq_some] at hx
        omega
      rw [this]
      rfl
    rw [hn r h2, hn s rfl]

open Signal in
/-- C104: the convolution theorem: the Fourier transform of a convolution is the product of the Fourier transforms
of the signals, which are padded with zeros to the length of the convolution; for all lengths and offsets. -/
theorem C104_convolution (m1 m2 m3 : Nat → Nat → ℝ) (m4 m5 m6 m7 : Nat → Nat → ℂ) (label : String)
    (a b : Signal ℝ ℝ) (ha : a.WF) (hb : b.WF) (hma : 1 ≤ a.count) (hmb : 1 ≤ b.count) (hna : 1 ≤ a.length)
    (hnb : 1 ≤ b.length) (hr : a.rate ≠ 0) (hrate : b.rate = a.rate)
    (hcount : a.count = 1 ∨ b.count = 1 ∨ a.count = b.count) :
    ∃ conv a' b' C A B AB, convolve (fullConvolution m1) label a b = .ok conv ∧
      a.pad m2 (a.length + b.length - 1) 0 = .ok a' ∧ b.pad m3 (a.length + b.length - 1) 0 = .ok b' ∧
      fourierTransform m4 conv = .ok C ∧ fourierTransform m5 a' = .ok A ∧ fourierTransform m6 b' = .ok B ∧
      Spectrum.algebra m7 (· * ·) none "Product" A B = .ok AB ∧
      C.channels.Eqv AB.channels ∧ C.resolution = AB.resolution := by
  obtain ⟨conv, x1, y1⟩ := isConv m1 label a b hna hnb
  obtain ⟨a', p1, p2, p3, p4, p5, p6, p7⟩ := pad_value m2 a ha (a.length + b.length - 1) (by omega)
  obtain ⟨b', q1, q2, q3, q4, q5, q6, q7⟩ := pad_value m3 b hb (a.length + b.length - 1) (by omega)
  have n1 := y1.count
  have l1 := y1.length
  have hn1 : conv.count = if a.count = 1 then b.count else a.count := by
    rw [n1]
    unfold cnt
    split <;> split <;> omega
  have hW : conv.WF := by
    unfold WF
    rw [convolve_labels x1]
    exact C01_labels_length _ _
  obtain ⟨C, x2, y2⟩ := isTransform m4 conv hW (by rw [hn1]; split <;> omega) (by omega) (by rw [y1.rate]; exact hr)
  obtain ⟨A, x3, y3⟩ := isTransform m5 a' p2 (by omega) (by omega) (by rw [p5]; exact hr)
  obtain ⟨B, x4, y4⟩ := isTransform m6 b' q2 (by omega) (by omega) (by rw [q5, hrate]; exact hr)
  have l2 := y2.length
  have l3 := y3.length
  have l4 := y4.length
  have c2 := y2.count
  have c3 := y3.count
  have c4 := y4.count
  rw [p4] at l3
  rw [q4] at l4
  have l1' : conv.length = a.length + b.length - 1 := by omega
  rw [l1'] at l2
  obtain ⟨AB, x5, z1, z2, z3, z4, z5⟩ := Spectrum.C15_binwise_partial m7 (· * ·) none "Product" A B (by omega)
  have z1' : AB.count = conv.count := by
    rw [z1, hn1]
    unfold Spectrum.resultCount
    split <;> [skip; split] <;> [split; split; split] <;> omega
  refine ⟨conv, a', b', C, A, B, AB, x1, p1, q1, x2, x3, x4, x5, ⟨by show C.count = AB.count; omega,
    by show C.length = AB.length; omega, ?_⟩, by rw [y2.resolution, z3, y3.resolution, y1.rate, p5, p4, l1']⟩
  intro c k hc hk
  change c < C.count at hc
  change k < C.length at hk
  have hcc : c < convCount a b := by
    change c < cnt a.count b.count
    omega
  have hch : a.chan c < a.count := chan_lt_left hcc
  have hch' : b.chan c < b.count := chan_lt_right hcc
  have b1 : Spectrum.bin A c k = some (A.channels.get (a.chan c) k) := by
    unfold Spectrum.bin chan at *
    rw [show A.count = a.count by omega]
    rw [if_pos]
    by_cases h : a.count = 1
    · exact Or.inl h
    · rw [if_neg h] at hch
      exact Or.inr hch
  have b2 : Spectrum.bin B c k = some (B.channels.get (b.chan c) k) := by
    unfold Spectrum.bin chan at *
    rw [show B.count = b.count by omega]
    rw [if_pos]
    by_cases h : b.count = 1
    · exact Or.inl h
    · rw [if_neg h] at hch'
      exact Or.inr hch'
  rw [z5 c k (by omega) (by omega), b1, b2, y2.value c k (by omega) hk]
  dsimp only
  rw [y3.value _ k (by omega) (by omega), y4.value _ k (by omega) (by omega), p4, q4, l1',
    funext (p7 (a.chan c)), funext (q7 (b.chan c)),
    ← spectrumAt_conv _ (value_support a _) (value_support b _)]
  congr 1
  funext t
  rw [y1.value c t hcc]
  unfold convAt
  refine finsum_congr fun u => ?_
  rw [val_eq_value, val_eq_value]

/-- the hypotheses of C104 -/
example : ∃ a b : Signal ℝ ℝ, a.WF ∧ b.WF ∧ 1 ≤ a.count ∧ 1 ≤ b.count ∧ 1 ≤ a.length ∧ 1 ≤ b.length ∧ a.rate ≠ 0 ∧
    b.rate = a.rate ∧ (a.count = 1 ∨ b.count = 1 ∨ a.count = b.count) ∧ a.offset = 5 ∧ b.offset = -3 ∧
    a.length = 3 ∧ b.length = 4 ∧ b.count = 2 :=
  ⟨⟨⟨1, 3, fun _ t => t⟩, 10, 5, ["a"]⟩, ⟨⟨2, 4, fun c t => c + t⟩, 10, -3, ["a", "b"]⟩, rfl, rfl, by decide,
    by decide, by decide, by decide, by norm_num, rfl, Or.inl rfl, rfl, rfl, rfl, rfl, rfl⟩

/-- the hypotheses of `C104_sum` -/
example : ∃ a b : Signal ℝ ℝ, a.WF ∧ b.WF ∧ 1 ≤ a.count ∧ 1 ≤ a.length ∧ a.rate ≠ 0 ∧ b.count = a.count ∧
    b.length = a.length ∧ b.offset = a.offset ∧ b.rate = a.rate ∧ a.channels.get 1 1 ≠ b.channels.get 1 1 :=
  ⟨⟨⟨2, 3, fun _ t => t⟩, 10, 5, ["a", "b"]⟩, ⟨⟨2, 3, fun c t => c + t⟩, 10, 5, ["c", "d"]⟩, rfl, rfl, by decide,
    by decide, by norm_num, rfl, rfl, rfl, rfl, by norm_num⟩

/-! ### The reversed signal -/

theorem reversed_value (a : Signal ℝ ℝ) (c : Nat) (t : Int) :
    a.reversed.value c t = a.value c (-(t - 2 * ((a.length : Int) - 1))) := by
  unfold Signal.value
  rw [Signal.C09_time_shifted]

theorem spectrumAt_reverse (L : Nat) (x : Int → ℝ) (hx : x.support.Finite) (k : Nat) :
    spectrumAt L (fun t => x (-t)) k = (starRingEnd ℂ) (spectrumAt L x k) := by
  unfold spectrumAt
  have := (starRingEnd ℂ).toAddMonoidHom.map_finsum (spectrumAt_support L hx k)
  refine Eq.trans ?_ this.symm
  rw [← finsum_comp_equiv (Equiv.neg Int)]
  refine finsum_congr fun t => ?_
  simp only [Equiv.neg_apply, neg_neg, RingHom.toAddMonoidHom_eq_coe, AddMonoidHom.coe_coe, map_mul,
    Complex.conj_ofReal, conj_omega_zpow]
  congr 2
  ring

open Signal in
/-- C104: the spectrum of the reversed signal is the complex conjugate of the spectrum, but delayed by
`2 * (length - 1)` samples, because of the offset of the reversed signal (see C09). -/
theorem C104_reversed_partial (m1 m2 : Nat → Nat → ℂ) (a : Signal ℝ ℝ) (ha : a.WF)
    (hm : 1 ≤ a.count) (hn : 1 ≤ a.length) (hr : a.rate ≠ 0) :
    ∃ A A', fourierTransform m1 a = .ok A ∧ fourierTransform m2 a.reversed = .ok A' ∧ A'.count = A.count ∧
      A'.length = A.length ∧ A'.resolution = A.resolution ∧
      ∀ c k, c < A.count → k < A.length → A'.channels.get c k = (starRingEnd ℂ) (A.channels.get c k) *
        omega a.length ^ (-((k : Int) * (2 * ((a.length : Int) - 1)))) := by
  obtain ⟨A, x1, y1⟩ := isTransform m1 a ha hm hn hr
  have hw : a.reversed.WF := by
    show (sanitizeLabels (some a.labels) a.count).length = a.count
    rw [sanitize_self ha]
    exact ha
  obtain ⟨A', x2, y2⟩ := isTransform m2 a.reversed hw hm hn hr
  have l1 := y1.length
  have l2 := y2.length
  have c1 := y1.count
  have c2 := y2.count
  change A'.length = a.length / 2 + 1 at l2
  change A'.count = a.count at c2
  refine ⟨A, A', x1, x2, by omega, by omega, by rw [y2.resolution, y1.resolution]; rfl, ?_⟩
  intro c k hc hk
  rw [y1.value c k (by omega) hk, y2.value c k (by show c < a.count; omega) (by omega)]
  show spectrumAt a.length _ k = _
  rw [← spectrumAt_reverse _ _ (value_support a c), funext (reversed_value a c),
    ← spectrumAt_shift _ _ (fun t => a.value c (-t))]
  refine ((value_support a c).image Neg.neg).subset fun t ht => ⟨-t, ht, neg_neg t⟩

/-- The spectrum of the reversed signal is not the complex conjugate of the spectrum: the transform of the signal
`1, 0, 0` is one in all bins, that of the reversed signal is not. -/
theorem C104_reversed_violated (m1 m2 : Nat → Nat → ℂ) :
    ∃ (a : Signal ℝ ℝ) (A A' : Spectrum ℂ ℝ), a.WF ∧ 1 ≤ a.count ∧ 1 ≤ a.length ∧ a.rate ≠ 0 ∧
      fourierTransform m1 a = .ok A ∧ fourierTransform m2 a.reversed = .ok A' ∧ 1 < A.length ∧
      A'.channels.get 0 1 ≠ (starRingEnd ℂ) (A.channels.get 0 1) := by
  let a : Signal ℝ ℝ := ⟨⟨1, 3, fun _ t => if t = 0 then 1 else 0⟩, 10, 0, ["a"]⟩
  have hr : a.rate ≠ 0 := by norm_num [a]
  obtain ⟨A, A', h1, h2, h3, h4, h5, h6⟩ := C104_reversed_partial m1 m2 a rfl (by decide) (by decide) hr
  obtain ⟨A1, x1, y1⟩ := isTransform m1 a rfl (by decide) (by decide) hr
  rw [h1] at x1
  cases x1
  have hL : a.length = 3 := rfl
  have hl : A.length = 2 := by rw [y1.length, hL]
  have hc : A.count = 1 := y1.count
  have hA : A.channels.get 0 1 = 1 := by
    rw [y1.value 0 1 (by decide) (by omega)]
    unfold spectrumAt
    rw [finsum_eq_single _ 0]
    · rw [value_eq_ext a (by decide)]
      simp [ext, a, Signal.length]
    · intro t ht
      rw [value_eq_ext a (by decide)]
      unfold ext
      split
      · rename_i h
        show (((if (t - 0).toNat = 0 then 1 else 0 : ℝ) : ℝ) : ℂ) * _ = 0
        rw [if_neg (by
          change (0 : Int) ≤ t ∧ _ at h
          omega)]
        simp
      · simp
  refine ⟨a, A, A', rfl, by decide, by decide, hr, h1, h2, by omega, ?_⟩
  rw [h6 0 1 (by omega) (by omega), hA, map_one, one_mul]
  intro h
  rw [hL] at h
  have := ((omega_primitive (N := 3) (by decide)).zpow_eq_one_iff_dvd _).mp h
  revert this
  decide

end Fourier
end Verif
