import Verif.EvaluationLawsProps
import Verif.RoundedSamplesProps
import Verif.StftLeastSquaresProps

/-
Property C155: which samples of a signal influence a sample of a result. Two signals, which agree at some points in time, are
processed; the results agree at all points in time, for which only these samples are required. So a wrong sample (e.g. a
dropout in a recording) affects the results only in its vicinity, results are available before the rest of the signal is
known, and long signals can be processed in parts.
-/

namespace Verif
namespace Locality

open Finset Signal

variable {α R : Type}

/-- The signals `s` and `s'` have the same shape and the same samples at the points in time `T`. -/
structure Agree (T : Int → Prop) (s s' : Signal α R) : Prop where
  count : s'.count = s.count
  length : s'.length = s.length
  rate : s'.rate = s.rate
  offset : s'.offset = s.offset
  labels : s'.labels = s.labels
  values : ∀ c t, T t → s'.at_ c t = s.at_ c t

theorem at_inside (s : Signal α R) (c i : Nat) (hc : c < s.count) (hi : i < s.length) :
    s.at_ c (s.offset + i) = some (s.channels.get c i) := by
  rw [at_eq_some]
  refine ⟨hc, by omega, by omega, ?_⟩
  congr 1
  omega

theorem at_outside (s : Signal α R) (c : Nat) (t : Int) (h : ¬ s.Covers t) : s.at_ c t = none := by
  unfold at_ sample
  unfold Covers at h
  split
  · rw [if_neg (by omega)]
  · rfl

theorem at_channel (s : Signal α R) (c : Nat) (t : Int) (h : ¬ c < s.count) : s.at_ c t = none := by
  unfold at_ sample
  split
  · rw [if_neg (by omega)]
  · rfl

theorem Agree.get {T : Int → Prop} {s s' : Signal α R} (h : Agree T s s') {c i : Nat} (hc : c < s.count) (hi : i < s.length)
    (ht : T (s.offset + i)) : s'.channels.get c i = s.channels.get c i := by
  have h1 := h.values c _ ht
  rw [at_inside s c i hc hi] at h1
  have h2 := at_inside s' c i (by rw [h.count]; exact hc) (by rw [h.length]; exact hi)
  rw [h.offset, h1] at h2
  exact (Option.some.inj h2).symm

theorem Agree.covers {T : Int → Prop} {s s' : Signal α R} (h : Agree T s s') (t : Int) : s'.Covers t ↔ s.Covers t := by
  unfold Covers
  rw [h.offset, h.length]

/-- two signals agree, if the samples agree -/
theorem agree_of_get {T : Int → Prop} {s s' : Signal α R} (h1 : s'.count = s.count) (h2 : s'.length = s.length)
    (h3 : s'.rate = s.rate) (h4 : s'.offset = s.offset) (h5 : s'.labels = s.labels)
    (h : ∀ c i : Nat, c < s.count → i < s.length → T (s.offset + i) → s'.channels.get c i = s.channels.get c i) :
    Agree T s s' := by
  refine ⟨h1, h2, h3, h4, h5, fun c t ht => ?_⟩
  by_cases hc : c < s.count
  · by_cases hv : s.Covers t
    · unfold Covers at hv
      obtain ⟨i, hi⟩ : ∃ i : Nat, t = s.offset + i := ⟨(t - s.offset).toNat, by omega⟩
      subst hi
      rw [at_inside s c i hc (by omega), ← h4, at_inside s' c i (by omega) (by omega), h c i hc (by omega) ht]
    · rw [at_outside s c t hv, at_outside s' c t (by unfold Covers at *; omega)]
  · rw [at_channel s c t hc, at_channel s' c t (by omega)]

/-! ### energy decay curves -/

/-- C155: The energy decay curve depends only on the present and the future of the signal. This holds for all types of
numbers, also for floating point numbers with rounding errors. -/
theorem C155_energy [Add α] [Mul α] (mem mem' : Nat → Nat → α) (T : Int → Prop) (s s' : Signal α R) (hs : s.WF)
    (h : Agree T s s') :
    ∃ r r', EnergyDecay.new mem s = .ok r ∧ EnergyDecay.new mem' s' = .ok r' ∧ Agree (fun t => ∀ u, t ≤ u → T u) r r' := by
  obtain ⟨r, h1, h2, h3, h4, h5, h6, h7⟩ := Double.energy_samples mem s hs
  obtain ⟨r', g1, g2, g3, g4, g5, g6, g7⟩ := Double.energy_samples mem' s' (by rw [h.labels, h.count]; exact hs)
  refine ⟨r, r', h1, g1, agree_of_get (by rw [g2, h2, h.count]) (by rw [g3, h3, h.length]) (by rw [g4, h4, h.rate])
    (by rw [g5, h5, h.offset]) (by rw [g6, h6, h.labels]) ?_⟩
  intro c i hc hi ht
  rw [h2] at hc
  rw [h3] at hi
  rw [h5] at ht
  rw [h7 c i hc hi, g7 c i (by rw [h.count]; exact hc) (by rw [h.length]; exact hi), h.length]
  refine Double.cumsumRow_congr _ fun k hk => ?_
  rw [h.get hc (by omega) (ht _ (by omega))]

/-! ### convolutions and correlations -/

theorem val_agree [Zero α] {T : Int → Prop} {s s' : Signal α R} (h : Agree T s s') (c : Nat) (t : Int)
    (ht : s.Covers t → T t) : s'.val c t = s.val c t := by
  unfold Signal.val bcast
  rw [h.count]
  by_cases hv : s.Covers t
  · rw [h.values _ t (ht hv)]
  · rw [at_outside s _ t hv, at_outside s' _ t (by rw [h.covers]; exact hv)]

theorem val_outside [Zero α] (s : Signal α R) (c : Nat) (t : Int) (h : ¬ s.Covers t) : s.val c t = 0 := by
  unfold Signal.val bcast
  rw [at_outside s _ t h]
  rfl

/-- a product of samples of two signals -/
theorem product_agree [NonUnitalNonAssocSemiring α] {T V : Int → Prop} {s s' o o' : Signal α R} (h : Agree T s s')
    (g : Agree V o o') (c : Nat) (u v : Int) (ht : s.Covers u → o.Covers v → T u ∧ V v) :
    s'.val c u * o'.val c v = s.val c u * o.val c v := by
  by_cases hu : s.Covers u
  · by_cases hv : o.Covers v
    · rw [val_agree h c u fun _ => (ht hu hv).1, val_agree g c v fun _ => (ht hu hv).2]
    · rw [val_outside o c v hv, val_outside o' c v (by rw [g.covers]; exact hv), mul_zero, mul_zero]
  · rw [val_outside s c u hu, val_outside s' c u (by rw [h.covers]; exact hu), zero_mul, zero_mul]

theorem convCount_agree {T V : Int → Prop} {s s' o o' : Signal α R} (h : Agree T s s') (g : Agree V o o') :
    convCount s' o' = convCount s o := by
  unfold convCount
  rw [h.count, g.count]

/-- the results of two convolutions or correlations, whose kernels are the function `F` of the time -/
theorem computes_agree {f : Convolver α} {kernel len off} (hf : Computes f kernel len off) (label : String)
    {T V U : Int → Prop} {s s' o o' : Signal α R} (hs : 0 < s.length) (ho : 0 < o.length) (h : Agree T s s') (g : Agree V o o')
    (F : Signal α R → Signal α R → Nat → Int → α)
    (hF : ∀ s o : Signal α R, 0 < s.length → 0 < o.length → ∀ c i : Nat, c < convCount s o → i < len s.length o.length →
      kernel s.length o.length (s.channels.get (s.chan c)) (o.channels.get (o.chan c)) i =
        F s o c (off s.length o.length s.offset o.offset + i))
    (hU : ∀ c t, U t → F s' o' c t = F s o c t) :
    ∃ r r', convolve f label s o = .ok r ∧ convolve f label s' o' = .ok r' ∧ Agree U r r' := by
  obtain ⟨r, h1, h2, h3, h4, ⟨h5, h6⟩, h7⟩ := convolve_computes hf label s o hs ho
  obtain ⟨r', g1, g2, g3, g4, ⟨g5, g6⟩, g7⟩ := convolve_computes hf label s' o' (by rw [h.length]; exact hs)
    (by rw [g.length]; exact ho)
  have hc0 := convCount_agree h g
  rw [hc0] at g2
  rw [h.length, g.length] at g3 g4
  rw [h.offset, g.offset] at g4
  refine ⟨r, r', h1, g1, agree_of_get (g2.trans h2.symm) (g3.trans h3.symm) (by rw [g5, h5, h.rate]) (g4.trans h4.symm)
    (by rw [g6, h6, g2, h2, h.count]) ?_⟩
  intro c i hc hi ht
  rw [h2] at hc
  rw [h3] at hi
  rw [h4] at ht
  rw [h7 c i hc hi, hF s o hs ho c i hc hi, g7 c i (by rw [hc0]; exact hc) (by rw [h.length, g.length]; exact hi),
    hF s' o' (by rw [h.length]; exact hs) (by rw [g.length]; exact ho) c i (by rw [hc0]; exact hc)
      (by rw [h.length, g.length]; exact hi), h.length, g.length, h.offset, g.offset]
  exact hU c _ ht

/-- C155: A sample of a convolution depends only on those samples of the two signals, whose times add up to its time. -/
theorem C155_convolution [NonUnitalNonAssocCommSemiring α] (mem : Nat → Nat → α) (f : Convolver α) (label : String)
    (hf : f = fullConvolution mem ∨ f = sameConvolution mem ∨ f = validConvolution mem)
    (T V : Int → Prop) (s s' o o' : Signal α R) (hs : 0 < s.length) (ho : 0 < o.length) (h : Agree T s s') (g : Agree V o o') :
    ∃ r r', convolve f label s o = .ok r ∧ convolve f label s' o' = .ok r' ∧
      Agree (fun t => ∀ u v, u + v = t → s.Covers u → o.Covers v → T u ∧ V v) r r' := by
  have hU : ∀ c t, (∀ u v, u + v = t → s.Covers u → o.Covers v → T u ∧ V v) → convAt s' o' c t = convAt s o c t := by
    intro c t ht
    unfold convAt
    exact finsum_congr fun u => product_agree h g c u (t - u) (ht u (t - u) (by omega))
  rcases hf with rfl | rfl | rfl
  · refine computes_agree (fullConvolution_computes mem) label hs ho h g convAt ?_ hU
    intro s o hs ho c i hc hi
    rw [convAt_eq s o hc, if_pos (by omega)]
    congr 1; omega
  · refine computes_agree (sameConvolution_computes mem) label hs ho h g convAt ?_ hU
    intro s o hs ho c i hc hi
    rw [convAt_eq s o hc, if_pos (by omega)]
    congr 1; omega
  · refine computes_agree (validConvolution_computes mem) label hs ho h g convAt ?_ hU
    intro s o hs ho c i hc hi
    rw [convAt_eq s o hc, if_pos (by omega)]
    congr 1; omega

/-- C155: Filtering a signal with an impulse response, that has no samples before the time zero, is causal: the result until
the time `t` is known, when the signal is known until the time `t`. -/
theorem C155_causal [NonUnitalNonAssocCommSemiring α] (mem : Nat → Nat → α) (f : Convolver α) (label : String)
    (hf : f = fullConvolution mem ∨ f = sameConvolution mem ∨ f = validConvolution mem)
    (t : Int) (s s' o : Signal α R) (hs : 0 < s.length) (ho : 0 < o.length) (h : Agree (fun u => u ≤ t) s s')
    (h0 : 0 ≤ o.offset) :
    ∃ r r', convolve f label s o = .ok r ∧ convolve f label s' o = .ok r' ∧ Agree (fun u => u ≤ t) r r' := by
  obtain ⟨r, r', h1, h2, h3⟩ := C155_convolution mem f label hf (fun u => u ≤ t) (fun _ => True) s s' o o hs ho h
    ⟨rfl, rfl, rfl, rfl, rfl, fun _ _ _ => rfl⟩
  refine ⟨r, r', h1, h2, h3.count, h3.length, h3.rate, h3.offset, h3.labels, fun c u hu => h3.values c u ?_⟩
  intro x y hxy _ hy
  unfold Covers at hy
  exact ⟨by omega, trivial⟩

/-- C155: A sample of a correlation depends only on those samples of the two signals, whose times have its time as difference.
-/
theorem C155_correlation [NonUnitalNonAssocSemiring α] (mem : Nat → Nat → α) (f : Convolver α) (label : String)
    (hf : f = fullCorrelation mem ∨ f = sameCorrelation mem ∨ f = validCorrelation mem)
    (T V : Int → Prop) (s s' o o' : Signal α R) (hs : 0 < s.length) (ho : 0 < o.length) (h : Agree T s s') (g : Agree V o o') :
    ∃ r r', convolve f label s o = .ok r ∧ convolve f label s' o' = .ok r' ∧
      Agree (fun t => ∀ u v, v - u = t → s.Covers u → o.Covers v → T u ∧ V v) r r' := by
  have hU : ∀ c t, (∀ u v, v - u = t → s.Covers u → o.Covers v → T u ∧ V v) → corrAt s' o' c t = corrAt s o c t := by
    intro c t ht
    unfold corrAt
    exact finsum_congr fun u => product_agree h g c u (u + t) (ht u (u + t) (by omega))
  rcases hf with rfl | rfl | rfl
  · refine computes_agree (fullCorrelation_computes mem) label hs ho h g corrAt ?_ hU
    intro s o hs ho c i hc hi
    rw [corrAt_eq s o hc]
    congr 1; omega
  · refine computes_agree (sameCorrelation_computes mem) label hs ho h g corrAt ?_ hU
    intro s o hs ho c i hc hi
    rw [corrAt_eq s o hc]
    congr 1; omega
  · refine computes_agree (validCorrelation_computes mem) label hs ho h g corrAt ?_ hU
    intro s o hs ho c i hc hi
    rw [corrAt_eq s o hc]
    congr 1; omega

/-! ### levels -/

/-- C155: The level over time depends only on the samples, that are less than half of the integration time and half of a sample
away. -/
theorem C155_level (mem mem' empty : Nat → Nat → ℝ) (T : Int → Prop) (s s' : Signal ℝ ℝ) (time : ℝ) (pad : Bool) (hs : s.WF)
    (h : Agree T s s') :
    ∃ r r', Level.levelVsTime mem empty s time pad = .ok r ∧ Level.levelVsTime mem' empty s' time pad = .ok r' ∧
      Agree (fun t => ∀ u : Int, u = t ∨ 2 * |((u - t : Int) : ℝ)| < time * s.rate + 1 → T u) r r' := by
  obtain ⟨K, q, -, -, hn, hv⟩ := Level.level_form empty s.length s.rate time pad
  obtain ⟨r, h1, h2, h3, h4, h5, h6, h7⟩ := hv mem s rfl rfl hs
  obtain ⟨r', g1, g2, g3, g4, g5, g6, g7⟩ := hv mem' s' h.length h.rate (by rw [h.labels, h.count]; exact hs)
  refine ⟨r, r', h1, g1, agree_of_get (by rw [g2, h2, h.count]) (g3.trans h3.symm) (g4.trans h4.symm)
    (by rw [g5, h5, h.offset]) (by rw [g6, h6, h.labels]) ?_⟩
  intro c i hc hi ht
  rw [h2] at hc
  rw [h3] at hi
  rw [h5] at ht
  rw [h7 c i hc hi, g7 c i (by rw [h.count]; exact hc) hi]
  congr 1
  unfold Level.rootOfSquares
  congr 1
  refine Finset.sum_congr rfl fun k hk => ?_
  have hk' := mem_range.mp hk
  by_cases hd : i + (if time * s.rate ≤ 1 then 0 else ⌈(time * s.rate - 1) / 2⌉.toNat) < k ∨
      k + (if time * s.rate ≤ 1 then 0 else ⌈(time * s.rate - 1) / 2⌉.toNat) < i
  · rw [hn i k hi hk' hd, mul_zero, mul_zero]
  · rw [h.get hc hk' (ht _ ?_)]
    split at hd
    · left
      omega
    · rename_i hw
      right
      have hh := (Level.isHalf_ceil (not_le.mp hw)).2
      have e : |((s.offset + k - (s.offset + i) : Int) : ℝ)| ≤ (⌈(time * s.rate - 1) / 2⌉.toNat : ℝ) := by
        have : |s.offset + k - (s.offset + i)| ≤ (⌈(time * s.rate - 1) / 2⌉.toNat : Int) := by
          rw [abs_le]
          omega
        exact_mod_cast this
      linarith

/-! ### short time Fourier transforms -/

/-- The spectrograms `b` and `b'` have the same shape and the same values in the segments `M`. -/
structure AgreeSegments (M : Nat → Prop) (b b' : Spectrogram ℂ ℝ) : Prop where
  count : b'.count = b.count
  freqs : b'.freqs = b.freqs
  length : b'.length = b.length
  resolution : b'.resolution = b.resolution
  rate : b'.rate = b.rate
  offset : b'.offset = b.offset
  labels : b'.labels = b.labels
  values : ∀ c k m, c < b.count → k < b.freqs → m < b.length → M m → b'.channels.get c k m = b.channels.get c k m

/-- C155: A segment of the short time Fourier transform depends only on the samples inside the window. -/
theorem C155_stft (T : Int → Prop) (s s' window : Signal ℝ ℝ) (overlap : Indexing.Idx) (o : Nat) (pad : Bool)
    (hu : Stft.Usable s window overlap o) (h : Agree T s s') :
    ∃ b b', Stft.stftWith s window overlap pad = some (.ok b) ∧ Stft.stftWith s' window overlap pad = some (.ok b') ∧
      AgreeSegments (fun m => ∀ t, s.Covers t →
        s.offset - (if pad then window.length / 2 else 0 : Nat) + m * (window.length - o : Nat) ≤ t →
        t < s.offset - (if pad then window.length / 2 else 0 : Nat) + m * (window.length - o : Nat) + window.length → T t)
        b b' := by
  have e1 : s'.channels.rows = s.channels.rows := h.count
  have e2 : s'.channels.cols = s.channels.cols := h.length
  obtain ⟨b, b1, b2⟩ := Stft.isStft hu pad
  obtain ⟨b', c1, c2⟩ := Stft.isStft (s := s') (window := window) (overlap := overlap) (o := o)
    ⟨by rw [h.labels, e1]; exact hu.labels, by rw [e1]; exact hu.rows, hu.pos, by rw [e2]; exact hu.long, hu.index, hu.less,
      by rw [h.rate]; exact hu.rate⟩ pad
  refine ⟨b, b', b1, c1, ?_, ?_, ?_, ?_, ?_, ?_, ?_, ?_⟩
  · show b'.channels.d0 = b.channels.d0
    rw [c2.count, b2.count, e1]
  · show b'.channels.d1 = b.channels.d1
    rw [c2.freqs, b2.freqs]
  · show b'.channels.d2 = b.channels.d2
    rw [c2.length, b2.length, e2]
  · rw [c2.resolution, b2.resolution, h.rate]
  · rw [c2.rate, b2.rate, h.rate]
  · rw [c2.offset, b2.offset, h.offset]
  · rw [c2.labels, b2.labels, h.labels]
  · intro c k m hc _ _ ht
    change c < b.channels.d0 at hc
    rw [b2.count] at hc
    rw [b2.value c k m hc, c2.value c k m (by rw [e1]; exact hc), h.rate, h.offset]
    have hx : ∀ j, j < window.channels.cols → Stft.extended s'.channels c
        ((m * (window.channels.cols - o) : Nat) - (Stft.border window.channels.cols pad : Nat) + j) =
        Stft.extended s.channels c
          ((m * (window.channels.cols - o) : Nat) - (Stft.border window.channels.cols pad : Nat) + j) := by
      intro j hj
      unfold Stft.extended
      rw [e2]
      split
      · rename_i hr
        refine h.get hc (by show _ < s.channels.cols; omega) (ht _ ?_ ?_ ?_)
        · unfold Covers
          show _ ∧ _ < s.offset + (s.channels.cols : Nat)
          omega
        · show s.offset - (Stft.border window.channels.cols pad : Nat) + m * (window.channels.cols - o : Nat) ≤ _
          push_cast at hr ⊢
          omega
        · show _ < s.offset - (Stft.border window.channels.cols pad : Nat) + m * (window.channels.cols - o : Nat) +
            window.channels.cols
          push_cast at hr ⊢
          omega
      · rfl
    unfold Stft.segment Dft.dft
    congr 2
    refine Finset.sum_congr rfl fun j hj => ?_
    dsimp only
    rw [hx j (mem_range.mp hj)]

theorem symmetric_congr (N : Nat) (X Y : Nat → ℂ) (h : ∀ k, k < N / 2 + 1 → X k = Y k) (k : Nat) (hk : k < N) :
    Stft.symmetric N X k = Stft.symmetric N Y k := by
  unfold Stft.symmetric
  split
  · rw [h k (by omega)]
  · split
    · rw [h k (by omega)]
    · rw [h (N - k) (by omega)]

theorem irfftAt_congr (N : Nat) (X Y : Nat → ℂ) (h : ∀ k, k < N / 2 + 1 → X k = Y k) (n : Nat) :
    Stft.irfftAt N X n = Stft.irfftAt N Y n := by
  unfold Stft.irfftAt
  rw [Finset.sum_congr rfl fun k hk => by rw [symmetric_congr N X Y h k (mem_range.mp hk)]]

/-- C155: A sample of the inverse short time Fourier transform depends only on the segments, whose windows contain it. -/
theorem C155_istft (M : Nat → Prop) (b b' : Spectrogram ℂ ℝ) (window : Signal ℝ ℝ) (overlap : Indexing.Idx) (o : Nat)
    (pad : Bool) (hs : 1 ≤ b.count) (hb : b.freqs = window.length / 2 + 1)
    (hw : window.count = 1 ∨ window.count = b.count) (hW : 2 ≤ window.length)
    (hi : Indexing.index window.length overlap = some (o : Int)) (ho : o < window.length) (h : AgreeSegments M b b') :
    ∃ r r', Stft.istftWith b window overlap pad = some (.ok r) ∧ Stft.istftWith b' window overlap pad = some (.ok r') ∧
      Agree (fun t => ∀ m, m < b.length →
        r.offset - (if pad then window.length / 2 else 0 : Nat) + m * (window.length - o : Nat) ≤ t →
        t < r.offset - (if pad then window.length / 2 else 0 : Nat) + m * (window.length - o : Nat) + window.length → M m)
        r r' := by
  have key : ∀ s : Spectrogram ℂ ℝ, ∀ y, Stft.inverted s window.channels o pad = .ok y →
      Stft.istftWith s window overlap pad = some (.ok (Signal.new y (s.rate * (window.channels.cols - o : Int))
        (s.offset * (window.channels.cols - o : Int)) (some s.labels))) := by
    intro s y hy
    unfold Stft.istftWith
    show (Indexing.index window.channels.cols overlap >>= _) = _
    rw [show Indexing.index window.channels.cols overlap = some (o : Int) from hi]
    show some (Stft.inverted s window.channels o pad >>= _) = _
    rw [hy]
    rfl
  have e0 : b'.channels.d0 = b.channels.d0 := h.count
  have e1 : b'.channels.d1 = b.channels.d1 := h.freqs
  have e2 : b'.channels.d2 = b.channels.d2 := h.length
  obtain ⟨x, x1, x2, x3, x4⟩ := Stft.inverted_samples b window.channels o pad hs hw hW ho hb
  obtain ⟨y, y1, y2, y3, y4⟩ := Stft.inverted_samples b' window.channels o pad (by rw [e0]; exact hs) (by rw [e0]; exact hw)
    hW ho (by rw [e1]; exact hb)
  refine ⟨_, _, key b x x1, key b' y y1, agree_of_get ?_ ?_ ?_ ?_ ?_ ?_⟩
  · show y.rows = x.rows
    omega
  · show y.cols = x.cols
    rw [y3, x3, e2]
  · show b'.rate * _ = b.rate * _
    rw [h.rate]
  · show b'.offset * _ = b.offset * _
    rw [h.offset]
  · show sanitizeLabels (some b'.labels) y.rows = sanitizeLabels (some b.labels) x.rows
    rw [h.labels, y2, x2, e0]
  · intro c n hc hn ht
    change c < x.rows at hc
    change n < x.cols at hn
    show y.get c n = x.get c n
    rw [x4 c n (by omega) hn, y4 c n (by omega) (by rw [y3, e2, ← x3]; exact hn), e2]
    congr 1
    unfold Stft.numerator Stft.overlapAdd
    refine Finset.sum_congr rfl fun m hm => ?_
    have hm' := mem_range.mp hm
    split
    · rename_i hr
      have hM : M m := by
        refine ht m hm' ?_ ?_
        · show b.offset * _ - (Stft.border window.channels.cols pad : Nat) + m * (window.channels.cols - o : Nat) ≤ b.offset * _ + _
          have := hr.1
          zify at this
          linarith
        · show b.offset * _ + _ < b.offset * _ - (Stft.border window.channels.cols pad : Nat) +
            m * (window.channels.cols - o : Nat) + window.channels.cols
          have := hr.2
          zify at this
          linarith
      dsimp only
      rw [irfftAt_congr _ (fun k => b'.channels.get c k m) (fun k => b.channels.get c k m) fun k hk =>
        h.values c k m (by show c < b.channels.d0; omega) (by rw [hb]; exact hk) hm' hM]
    · rfl

/-! ### examples -/

/-- a signal with two channels -/
def recording : Signal ℤ ℚ := ⟨Mat.ofRows 5 [[1, -2, 3, 4, 5], [0, 1, 0, 2, 7]], 48000, -1, ["a", "b"]⟩

/-- the same signal with a dropout at the time `2` -/
def dropout : Signal ℤ ℚ := ⟨Mat.ofRows 5 [[1, -2, 3, 0, 5], [0, 1, 0, 0, 7]], 48000, -1, ["a", "b"]⟩

/-- an impulse response -/
def response : Signal ℤ ℚ := ⟨Mat.ofRows 2 [[2, -1]], 48000, 0, ["h"]⟩

theorem dropout_agree : Agree (fun t => t ≠ 2) recording dropout := by
  refine agree_of_get rfl rfl rfl rfl rfl ?_
  intro c i hc hi ht
  have hc' : c < 2 := hc
  have hi' : i < 5 := hi
  have ht' : i ≠ 3 := by
    intro e
    subst e
    exact ht (by decide)
  interval_cases c <;> interval_cases i <;> first | rfl | exact absurd rfl ht'

/-- the hypotheses of the theorems can be fulfilled and their bounds are attained: the dropout at the time 2 changes the
convolution at the times 2 and 3 only, and the energy decay curve until the time 2 -/
example : Agree (fun t => t ≠ 2) recording dropout ∧ recording.WF ∧ 0 < recording.length ∧ 0 < response.length ∧
    0 ≤ response.offset ∧
    ((convolve (fullConvolution fun _ _ => 99) "Convolution" recording response).map fun r => r.channels.flat) =
      .ok [2, -5, 8, 5, 6, -5, 0, 2, -1, 4, 12, -7] ∧
    ((convolve (fullConvolution fun _ _ => 99) "Convolution" dropout response).map fun r => r.channels.flat) =
      .ok [2, -5, 8, -3, 10, -5, 0, 2, -1, 0, 14, -7] ∧
    ((EnergyDecay.new (fun _ _ => 99) recording).map fun r => r.channels.flat) =
      .ok [55, 54, 50, 41, 25, 54, 54, 53, 53, 49] ∧
    ((EnergyDecay.new (fun _ _ => 99) dropout).map fun r => r.channels.flat) =
      .ok [39, 38, 34, 25, 25, 50, 50, 49, 49, 49] := by
  refine ⟨dropout_agree, rfl, by decide, by decide, by decide, ?_, ?_, ?_, ?_⟩ <;> decide +kernel

/-- the hypotheses for the causality: the signals agree until the time 1 -/
example : Agree (fun u => u ≤ 1) recording dropout :=
  ⟨rfl, rfl, rfl, rfl, rfl, fun c t ht => dropout_agree.values c t (by omega)⟩

/-- signals with real samples, that agree everywhere but at the time 3 -/
example : ∃ s s' : Signal ℝ ℝ, s.WF ∧ s ≠ s' ∧ Agree (fun t => t ≠ 3) s s' ∧
    Stft.Usable s ⟨⟨1, 4, fun _ _ => 1⟩, 48000, 0, ["w"]⟩ (.int 2) 2 := by
  refine ⟨⟨⟨1, 9, fun _ _ => 1⟩, 48000, 1, ["x"]⟩, ⟨⟨1, 9, fun _ i => if i = 2 then 0 else 1⟩, 48000, 1, ["x"]⟩, rfl, ?_, ?_,
    rfl, Or.inl rfl, by decide, by decide, by decide, by decide, by norm_num⟩
  · intro e
    have e' := congrArg (fun s : Signal ℝ ℝ => s.channels.get 0 2) e
    dsimp only at e'
    norm_num at e'
  · refine agree_of_get rfl rfl rfl rfl rfl ?_
    intro c i _ _ ht
    refine if_neg fun e => ht ?_
    subst e
    show (1 : Int) + ((2 : Nat) : Int) = 3
    omega

/-- spectrograms, that agree in all segments but the second one, and fulfil the other hypotheses -/
example : ∃ b b' : Spectrogram ℂ ℝ, b ≠ b' ∧ AgreeSegments (fun m => m ≠ 1) b b' ∧ b.count = 1 ∧ b.freqs = 4 / 2 + 1 ∧
    Indexing.index 4 (.int 2) = some ((2 : Nat) : Int) := by
  refine ⟨⟨⟨1, 3, 5, fun _ _ _ => 1⟩, 12000, 24000, 1, ["x"]⟩,
    ⟨⟨1, 3, 5, fun _ _ m => if m = 1 then 0 else 1⟩, 12000, 24000, 1, ["x"]⟩, ?_,
    ⟨rfl, rfl, rfl, rfl, rfl, rfl, rfl, fun _ _ m _ _ _ hm => if_neg hm⟩, rfl, rfl, by decide⟩
  intro e
  have e' := congrArg (fun s : Spectrogram ℂ ℝ => s.channels.get 0 0 1) e
  dsimp only at e'
  norm_num at e'

end Locality
end Verif
